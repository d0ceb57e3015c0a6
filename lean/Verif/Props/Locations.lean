import Verif.Proofs.Reach2
import Verif.Proofs.Project
import Verif.Props.Descriptor4
/-!
The source locations of a descriptor returned by `parse`: C43, C44.
-/
namespace Verif
open Verif.Spec Verif.Ast Verif.Gen

theorem pathLe_le : ∀ {a b : List Int}, pathLe a b = true → a ≤ b
  | [], _, _ => List.nil_le _
  | _ :: _, [], h => by simp [pathLe] at h
  | a :: as, b :: bs, h => by
    unfold pathLe at h
    rw [List.cons_le_cons_iff]
    split at h
    · rename_i h1; exact .inl h1
    · split at h
      · cases h
      · exact .inr ⟨by omega, pathLe_le h⟩

section
variable [FloatFmt] [LocSort]

theorem msgAt_ne {f fd p s d} (h : MsgAt f fd p s d) : p ≠ [] := by cases h <;> simp
theorem fieldAt_ne {f fd p pl x d} (h : FieldAt f fd p pl x d) : p ≠ [] := by cases h <;> simp
theorem enumAt_ne {f fd p x d} (h : EnumAt f fd p x d) : p ≠ [] := by cases h <;> simp
theorem serviceAt_ne {f fd p x d} (h : ServiceAt f fd p x d) : p ≠ [] := by cases h; simp

omit [FloatFmt] [LocSort] in
theorem indexed_ne {α : Type} {tag : Int} {l : List α} {rows : α → List Row} {r : Row} (h : r ∈ indexed tag l rows) :
    r.path ≠ [] := by
  obtain ⟨i, x, _, h⟩ := mem_indexed.1 h
  obtain ⟨w, _, rfl⟩ := List.mem_map.1 h
  simp [Row.below]

/-- The only location with an empty path is that of the file. -/
theorem root_row {f fd} {r : Row} (h : RowOf f fd r) (hr : r.path = []) : r = ⟨[], f.span, {}⟩ := by
  cases h with
  | file h =>
    simp only [fileRows, List.mem_append, List.mem_cons, List.not_mem_nil, or_false, List.mem_map] at h
    rcases h with ((((((h | ⟨s, -, rfl⟩) | ⟨s, -, rfl⟩) | h) | h) | h) | ⟨s, -, rfl⟩) | ⟨s, -, rfl⟩
    · exact h
    · cases hr
    · cases hr
    · exact absurd hr (indexed_ne h)
    · exact absurd hr (indexed_ne h)
    · exact absurd hr (indexed_ne h)
    · cases hr
    · simp [Row.below] at hr
  | message hat _ => exact absurd (List.append_eq_nil_iff.1 hr).1 (msgAt_ne hat)
  | field hat _ => exact absurd (List.append_eq_nil_iff.1 hr).1 (fieldAt_ne hat)
  | enum hat _ => exact absurd (List.append_eq_nil_iff.1 hr).1 (enumAt_ne hat)
  | service hat _ => exact absurd (List.append_eq_nil_iff.1 hr).1 (serviceAt_ne hat)

/-- The locations of a successful parse. -/
theorem locations_of_ok {name src : Bytes} {fd} (h : parse name src = some (.ok fd)) :
    ∃ f, Parse.parseFile src = .ok (.ok f) ∧ TreeOf src f ∧ Made name f fd ∧ ∃ locs, fd.sourceCodeInfo = some locs ∧
      locs.Pairwise (fun a b => a.path ≤ b.path) ∧
      ∀ loc, loc ∈ locs ↔ ∃ r, RowOf f fd r ∧ loc = r.location src := by
  obtain ⟨f, ts, hp⟩ := parsed_of_ok h
  refine ⟨f, hp.run, hp.tree, hp.made, LocSort.sort ((fileMarks f).map (Mark.loc src)), by rw [hp.desc], ?_, ?_⟩
  · exact (LocSort.sorted _).imp fun h => pathLe_le h
  · intro loc
    rw [(LocSort.perm _).mem_iff, List.mem_map]
    constructor
    · rintro ⟨m, hm, rfl⟩
      exact ⟨toRow m, (marks_rows hp.made hp.spans m).1 hm, rfl⟩
    · rintro ⟨r, hr, rfl⟩
      obtain ⟨m, rfl⟩ := Row.exists_mark r
      exact ⟨m, (marks_rows hp.made hp.spans m).2 hr, rfl⟩

/-- What holds of the tree that the parser returns holds of the tree of the source. -/
theorem forPlaced {src : Bytes} {f : File} {P : File → Prop} (h : Parse.parseFile src = .ok (.ok f)) (hP : P f) :
    ForPlaced src P :=
  ⟨f, Pos.parseFile_places h, fun _ hg => (Pos.parseFile_unique h hg).symm, hP⟩

/-- C43: the locations are in lexicographic order of their paths, begin with the location of the whole file (the only
one with an empty path), and are exactly the locations of the written constructs (`RowOf`), each with the path of its
descriptor element, the encoded span and the comments.  The spans and comments are those of the tree of the source
(`PlacedTree`, Spec/Places.lean), which is unique. -/
theorem C43_locations {name src : Bytes} {fd} (h : parse name src = some (.ok fd)) :
    ForPlaced src fun f => Paired f fd ∧ ∃ locs, fd.sourceCodeInfo = some locs ∧
      locs.Pairwise (fun a b => a.path ≤ b.path) ∧
      locs.head? = some ((⟨[], f.span, {}⟩ : Row).location src) ∧
      (∀ loc ∈ locs, loc.path = [] → loc = (⟨[], f.span, {}⟩ : Row).location src) ∧
      ∀ loc, loc ∈ locs ↔ ∃ r, RowOf f fd r ∧ loc = r.location src := by
  obtain ⟨f, hrun, ht, hm, locs, h1, h2, h3⟩ := locations_of_ok h
  have hroot : ∀ loc ∈ locs, loc.path = [] → loc = (⟨[], f.span, {}⟩ : Row).location src := by
    intro loc hl hp
    obtain ⟨r, hr, rfl⟩ := (h3 loc).1 hl
    rw [root_row hr hp]
  refine forPlaced hrun ⟨hm.paired, locs, h1, h2, ?_, hroot, h3⟩
  have hfile : (⟨[], f.span, {}⟩ : Row).location src ∈ locs :=
    (h3 _).2 ⟨_, .file (by simp [fileRows]), rfl⟩
  cases locs with
  | nil => cases hfile
  | cons a as =>
    simp only [List.head?_cons, Option.some.injEq]
    refine hroot a (.head _) ?_
    rcases List.mem_cons.1 hfile with h | h
    · rw [← h]; rfl
    · have hle := (List.pairwise_cons.1 h2).1 _ h
      cases hp : a.path with
      | nil => rfl
      | cons x xs =>
        rw [hp] at hle
        exact absurd (List.nil_lt_cons x xs) hle

/-- C44: the path of every location leads to something in the descriptor (`filePath`: every index is in bounds and every
field on the way is set), with two exceptions: `[12]`, the `syntax` of a file that says "proto2", which is not stored;
and the options of a field whose options were all taken for `default` and `json_name`. -/
theorem C44_paths {name src : Bytes} {fd} (h : parse name src = some (.ok fd)) :
    ForPlaced src fun f => Paired f fd ∧ ∃ locs, fd.sourceCodeInfo = some locs ∧ ∀ loc ∈ locs,
      filePath fd loc.path ∨
      (loc.path = [12] ∧ f.syntaxSpan.isSome = true ∧ f.syntax' = .proto2 ∧ fd.syntax' = none) ∨
      ∃ p pl x d, FieldAt f fd p pl x d ∧ loc.path = p ++ [8] ∧ d.options = none ∧ x.options.isSome = true ∧
        keptOptions x = [] := by
  obtain ⟨f, hrun, ht, hm, locs, h1, h2, h3⟩ := locations_of_ok h
  refine forPlaced hrun ⟨hm.paired, locs, h1, fun loc hl => ?_⟩
  obtain ⟨r, hr, rfl⟩ := (h3 loc).1 hl
  obtain ⟨ts, _, hg⟩ := ht
  exact row_reaches hm hg hr

end

namespace Demo
set_option synthInstance.maxHeartbeats 400000
set_option synthInstance.maxSize 1000

/-- A small file: its locations, with their spans, and a comment. -/
example : ofFile b!"// c\nmessage M {\n  optional int32 a = 1;\n}\n" (fun fd => (fd.sourceCodeInfo.getD []).map fun l =>
      (l.path, l.span, l.leadingComments)) =
    some [([], [1, 0, 3, 1], none), ([4, 0], [1, 0, 3, 1], some b!" c\n"), ([4, 0, 1], [1, 8, 9], none),
      ([4, 0, 2, 0], [2, 2, 23], none), ([4, 0, 2, 0, 1], [2, 17, 18], none), ([4, 0, 2, 0, 3], [2, 21, 22], none),
      ([4, 0, 2, 0, 4], [2, 2, 10], none), ([4, 0, 2, 0, 5], [2, 11, 16], none)] := by decide +kernel

/-- Both exceptions of C44 happen: the location `[12]` with no syntax stored, and the location of the options of a field
that has only a default value. -/
example : ofFile b!"syntax = \"proto2\"; message M { optional int32 a = 1 [default = 1]; }" (fun fd =>
      (fd.syntax', fd.messageType.map (fun d => d.field.map (·.options)),
        ((fd.sourceCodeInfo.getD []).map (·.path)).filter fun p => p == [12] || p == [4, 0, 2, 0, 8])) =
    some (none, [[none]], [[4, 0, 2, 0, 8], [12]]) := by decide +kernel

/-- Nested constructs of `file2`: the paths of the locations of a oneof, an extension and a group. -/
example : (ofFile file2 (fun fd => ((fd.sourceCodeInfo.getD []).map (·.path)).filter fun p =>
      p == [4, 0, 8, 0, 1] || p == [4, 0, 6, 0, 2] || p == [4, 0, 3, 0, 2, 0, 6] || p == [4, 0, 8, 1])) =
    some [[4, 0, 3, 0, 2, 0, 6], [4, 0, 6, 0, 2], [4, 0, 8, 0, 1]] := by decide +kernel
end Demo
end Verif
