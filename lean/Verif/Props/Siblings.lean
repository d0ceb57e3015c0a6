import Verif.Proofs.Sib3
import Verif.Props.Nesting
/-!
The elements of a list have one source location each, in the order of the list: C78.
-/
namespace Verif
open Verif.Spec Verif.Ast Verif.Gen

/-- The significant tokens of a source follow each other. -/
theorem annotated_str (src : Bytes) : Nesting.Str (annotated src) := by
  have h1 : (annotated src).map (·.span) = ((allToks src).filter fun t => ! t.1.isTrivia).map (·.2) := by
    rw [← Pos.annotate_sig (allToks src) true []]
    simp [annotated, Function.comp_def]
  have h2 : (allToks src).map (·.2) = ((rawToks 0 src).filter fun x => x.1.isSome).map (·.2) := by
    unfold allToks
    generalize rawToks 0 src = l
    induction l with
    | nil => rfl
    | cons x l ih =>
      obtain ⟨t, sp⟩ := x
      cases t <;> simp_all
  have h4 : ((allToks src).map (·.2)).Pairwise (fun x y => x.stop ≤ y.start) := by
    rw [h2]
    exact List.pairwise_map.2 ((C50_spans src).2.1.sublist List.filter_sublist)
  have h5 : ((annotated src).map (·.span)).Pairwise (fun x y => x.stop ≤ y.start) := by
    rw [h1]
    exact h4.sublist (List.filter_sublist.map _)
  exact List.pairwise_map.1 h5

section
variable [FloatFmt] [LocSort]

/-- C78: in an accepted file, take the locations of the elements of one list: their paths are the path of the containing
message, enum or service (pairs of field number and index) followed by the number of the field and the index. Each index has
one location, and an element ends before those with a greater index begin. -/
theorem C78_order {name src : Bytes} {fd} (h : parse name src = some (.ok fd)) :
    ∃ locs, fd.sourceCodeInfo = some locs ∧ ∀ a ∈ locs, ∀ b ∈ locs, ∀ (p : List Int) (t i j : Int), p.length % 2 = 0 →
      a.path = p ++ [t, i] → b.path = p ++ [t, j] → (i = j → a = b) ∧ (i < j → NotAfter a.last b.first) := by
  obtain ⟨f, ts, hp⟩ := parsed_of_ok h
  have hsib := Nesting.file_sib (Pos.parseFile_places hp.run).2 (annotated_str src)
  refine ⟨_, by rw [hp.desc], ?_⟩
  intro a ha b hb p t i j he e1 e2
  obtain ⟨x, hx, rfl⟩ := List.mem_map.1 ((LocSort.perm _).mem_iff.1 ha)
  obtain ⟨y, hy, rfl⟩ := List.mem_map.1 ((LocSort.perm _).mem_iff.1 hb)
  obtain ⟨h1, h2⟩ := hsib x y hx hy p t i j he e1 e2
  refine ⟨fun h => by rw [h1 h], fun h => ?_⟩
  rw [loc_first, loc_last]
  refine notAfter_of (h2 h) ?_
  rcases List.mem_cons.1 hy with rfl | hy
  · have e2 : [] = p ++ [t, j] := e2
    simp at e2
  · have := hp.marks y hy
    exact Nat.le_trans (Nat.le_of_lt this.2.1) this.2.2

end

namespace Demo
/-- Two messages, the second in front of an enum, with ranges spread over two statements and a field in a oneof. -/
def sibSrc : Bytes :=
  b!"message M {\n  reserved 7;\n  oneof o { int32 a = 1; }\n  optional int32 b = 2;\n  reserved 3, 5;\n}\nmessage N {}"

/-- The fields, the ranges and the messages in the order of their indices. -/
example : (ofFile sibSrc fun fd => ((fd.sourceCodeInfo.getD []).filter fun l =>
      l.path.length == 2 || l.path.length == 4).map fun l => (l.path, l.span)) =
    some [([4, 0], [0, 0, 5, 1]), ([4, 0, 2, 0], [2, 12, 24]), ([4, 0, 2, 1], [3, 2, 23]), ([4, 0, 8, 0], [2, 2, 26]),
      ([4, 0, 9, 0], [1, 11, 12]), ([4, 0, 9, 1], [4, 11, 12]), ([4, 0, 9, 2], [4, 14, 15]), ([4, 1], [6, 0, 12])] := by
  decide +kernel
end Demo
end Verif
