import Verif.Proofs.ImportSpan
import Verif.Props.Parse
/-!
C56: where import errors point.
-/
namespace Verif
open Verif.Spec Verif.Ast Verif.Gen
section
variable [FloatFmt] [LocSort]

theorem msgAt_head {f fd p s d} (h : MsgAt f fd p s d) : p.head? ≠ some 3 := by
  induction h with
  | top => simp
  | nested h _ _ _ ih => rw [List.head?_append]; cases hp : List.head? _ with
    | none => exact absurd (List.head?_eq_none_iff.1 hp) (msgAt_ne h)
    | some x => rw [hp] at ih; simpa using ih

theorem head_append {p q : List Int} (hne : p ≠ []) (h : p.head? ≠ some 3) : (p ++ q).head? ≠ some 3 := by
  cases p with
  | nil => exact absurd rfl hne
  | cons a p => simpa using h

theorem fieldAt_head {f fd p pl x d} (h : FieldAt f fd p pl x d) : p.head? ≠ some 3 := by
  cases h with
  | field h _ _ _ => exact head_append (msgAt_ne h) (msgAt_head h)
  | ext h _ _ _ => exact head_append (msgAt_ne h) (msgAt_head h)
  | fileExt => simp

theorem enumAt_head {f fd p x d} (h : EnumAt f fd p x d) : p.head? ≠ some 3 := by
  cases h with
  | top => simp
  | nested h _ _ _ => exact head_append (msgAt_ne h) (msgAt_head h)

theorem serviceAt_head {f fd p x d} (h : ServiceAt f fd p x d) : p.head? ≠ some 3 := by cases h; simp

/-- The rows with the path of an import. -/
theorem import_row {f fd} {r : Row} {i : Nat} (h : RowOf f fd r) (hr : r.path = [3, (i : Int)]) :
    ∃ imp, f.imports[i]? = some imp ∧ r = ⟨[3, (i : Int)], imp.span, imp.comments⟩ := by
  have hh : r.path.head? = some 3 := by rw [hr]; rfl
  cases h with
  | file h =>
    simp only [fileRows, List.mem_append, List.mem_cons, List.not_mem_nil, or_false, List.mem_map] at h
    rcases h with ((((((rfl | ⟨s, -, rfl⟩) | ⟨s, -, rfl⟩) | h) | h) | h) | ⟨s, -, rfl⟩) | ⟨s, -, rfl⟩
    · cases hr
    · simp at hr
    · simp at hr
    · obtain ⟨j, x, hx, h⟩ := mem_indexed.1 h
      simp only [List.mem_map, List.mem_cons, List.not_mem_nil, or_false, exists_eq_left] at h
      subst h
      simp only [Row.below, List.append_nil, List.cons.injEq, and_true, true_and] at hr
      have : j = i := by omega
      subst this
      exact ⟨x, hx, rfl⟩
    · obtain ⟨j, x, hx, h⟩ := mem_indexed.1 h
      simp only [List.mem_map, List.mem_cons, List.not_mem_nil, or_false, exists_eq_left] at h
      subst h
      simp [Row.below] at hr
    · obtain ⟨j, x, hx, h⟩ := mem_indexed.1 h
      simp only [List.mem_map, List.mem_cons, List.not_mem_nil, or_false, exists_eq_left] at h
      subst h
      simp [Row.below] at hr
    · simp at hr
    · simp [Row.below] at hr
  | message hat _ => exact absurd hh (head_append (msgAt_ne hat) (msgAt_head hat))
  | field hat _ => exact absurd hh (head_append (fieldAt_ne hat) (fieldAt_head hat))
  | enum hat _ => exact absurd hh (head_append (enumAt_ne hat) (enumAt_head hat))
  | service hat _ => exact absurd hh (head_append (serviceAt_ne hat) (serviceAt_head hat))

omit [FloatFmt] [LocSort] in
theorem findSome_unique {α β : Type} {g : α → Option β} {l : List α} {a : α} (ha : a ∈ l)
    (h : ∀ x ∈ l, x = a ∨ g x = none) : l.findSome? g = g a := by
  induction l with
  | nil => cases ha
  | cons x xs ih =>
    rw [List.findSome?_cons]
    rcases h x (.head _) with rfl | hx
    · cases hg : g x with
      | some b => rfl
      | none =>
        rw [List.findSome?_eq_none_iff]
        intro y hy
        rcases h y (.tail _ hy) with rfl | hy'
        · exact hg
        · exact hy'
    · rw [hx]
      rcases List.mem_cons.1 ha with rfl | ha
      · rw [hx, List.findSome?_eq_none_iff]
        intro y hy
        rcases h y (.tail _ hy) with rfl | hy'
        · exact hx
        · exact hy'
      · exact ih ha fun y hy => h y (.tail _ hy)

/-- C56: an error about the `i`th import of a parsed file points at the `import` statement itself, from its first to its
last byte, if the statement is on one line and nothing before it on that line is outside ASCII; if other characters
precede it on its line, only the length is right (columns count bytes, the span is found by counting characters); a
statement on several lines is not pointed at. There is no panic. -/
theorem C56_import_span {name src : Bytes} {fd} (h : parse name src = some (.ok fd)) (hv : utf8Valid src = true)
    (path enc : Option Bytes) :
    ForPlaced src fun f => fd.dependency = f.imports.map (·.value) ∧ ∀ i imp, f.imports[i]? = some imp →
      (lineOf src imp.span.start = lineOf src imp.span.stop → AsciiBefore src imp.span.start →
        findImportSpan ⟨path, some src, fd, enc⟩ i = some (some (imp.span.start, imp.span.stop - imp.span.start))) ∧
      (lineOf src imp.span.start = lineOf src imp.span.stop →
        ∃ off, findImportSpan ⟨path, some src, fd, enc⟩ i = some (some (off, imp.span.stop - imp.span.start))) ∧
      (lineOf src imp.span.start ≠ lineOf src imp.span.stop →
        findImportSpan ⟨path, some src, fd, enc⟩ i = some none) := by
  obtain ⟨f, ts, hp⟩ := parsed_of_ok h
  obtain ⟨f', hrun, ht, hm, locs, h1, h2, h3⟩ := locations_of_ok h
  obtain rfl : f = f' := by have := hp.run; rw [hrun] at this; cases this; rfl
  refine forPlaced hrun ⟨by rw [hp.desc]; rfl, fun i imp hi => ?_⟩
  have hin := hp.spans.imports imp (List.mem_of_getElem? hi)
  have hspan : imp.span.start < imp.span.stop ∧ imp.span.stop ≤ src.length := hin.2.2.2
  have hrow : RowOf f fd ⟨[3, (i : Int)], imp.span, imp.comments⟩ := by
    refine .file ?_
    simp only [fileRows, List.mem_append]
    refine .inl (.inl (.inl (.inl (.inr ?_))))
    exact mem_indexed.2 ⟨i, imp, hi, by simp [Row.below]⟩
  have huniq : ∀ x ∈ locs, x = (⟨[3, (i : Int)], imp.span, imp.comments⟩ : Row).location src ∨
      importSpanAt src i x = none := by
    intro x hx
    by_cases hpx : x.path = [3, (i : Int)]
    · left
      obtain ⟨r, hr, rfl⟩ := (h3 x).1 hx
      obtain ⟨imp', hi', rfl⟩ := import_row hr hpx
      rw [hi] at hi'; cases hi'; rfl
    · right; unfold importSpanAt; rw [if_neg hpx]
  have hfs := findSome_unique (g := importSpanAt src i) ((h3 _).2 ⟨_, hrow, rfl⟩) huniq
  have hfind : ∀ x, importSpanAt src i ((⟨[3, (i : Int)], imp.span, imp.comments⟩ : Row).location src) = x →
      (∀ y, x = some (some y) → findImportSpan ⟨path, some src, fd, enc⟩ i = some (some y)) ∧
      (x = none → findImportSpan ⟨path, some src, fd, enc⟩ i = some none) := by
    intro x hx
    unfold findImportSpan
    simp only [h1]
    rw [hfs, hx]
    exact ⟨by rintro y rfl; rfl, by rintro rfl; rfl⟩
  have hone : lineOf src imp.span.start = lineOf src imp.span.stop →
      importSpanAt src i ((⟨[3, (i : Int)], imp.span, imp.comments⟩ : Row).location src) =
        some (some (fromLocation (lineOf src imp.span.start + 1) (colOf src imp.span.start + 1) 0 0 0 src,
          imp.span.stop - imp.span.start)) := by
    intro hl
    have hc := colOf_mono src hspan.1 hspan.2 hl
    have hsub := colOf_sub src (Nat.le_of_lt hspan.1) hspan.2 hl
    unfold importSpanAt
    simp only [Row.location, if_true, spanNumbers, if_pos hl]
    rw [if_neg (by omega)]
    simp only [Int.toNat_natCast, hsub]
  refine ⟨fun hl ha => ?_, fun hl => ⟨_, (hfind _ (hone hl)).1 _ rfl⟩, fun hl => ?_⟩
  · have := (hfind _ (hone hl)).1 _ rfl
    rw [fromLocation_eq hv (by omega) ha] at this
    exact this
  · refine (hfind none ?_).2 rfl
    unfold importSpanAt
    simp only [Row.location, if_true, spanNumbers, if_neg hl]

end

namespace Demo

/-- The span found for the imports of a source, and what the text says there. -/
def spans (src : Bytes) (is : List Nat) : Option (List (Option (Option (Nat × Nat)))) :=
  ofFile src fun fd => is.map fun i => findImportSpan ⟨none, some src, fd, none⟩ i

/-- The second import of a file, on the second line: the span is the statement. -/
example : spans b!"import \"a\";\n  import \"b\"; message M {}" [0, 1] = some [some (some (0, 11)), some (some (14, 11))] := by
  decide +kernel

/-- A character of two bytes before the statement on its line: the span is off by one (bytes taken for characters). -/
example : spans (b!"/* " ++ [0xC3, 0xA9] ++ b!" */ import \"a\"; // end") [0] = some [some (some (10, 11))] ∧
    ((b!"/* " ++ [0xC3, 0xA9] ++ b!" */ import \"a\"; // end").drop 9).take 11 = b!"import \"a\";" := by
  decide +kernel

/-- A statement on two lines is not pointed at. -/
example : spans b!"import\n\"a\";" [0] = some [some none] := by decide +kernel
end Demo
end Verif
