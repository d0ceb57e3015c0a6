import Verif.Proofs.Nest4
import Verif.Props.Once
/-!
Source locations nest like the elements do: C77.
-/
namespace Verif
open Verif.Spec Verif.Ast Verif.Gen

/-- The significant tokens of a source are in the order of the text. -/
theorem annotated_ord (src : Bytes) : Nesting.Ord (annotated src) := by
  have h1 : (annotated src).map (·.span) = ((allToks src).filter fun t => ! t.1.isTrivia).map (·.2) := by
    rw [← Pos.annotate_sig (allToks src) true []]
    simp [annotated, Function.comp_def]
  have h2 : (allToks src).map (·.2) = ((rawToks 0 src).filter fun x => x.1.isSome).map (·.2) := by
    unfold allToks
    generalize rawToks 0 src = l
    induction l with
    | nil => rfl
    | cons x l ih =>
      obtain ⟨t, sp⟩ := x
      cases t <;> simp_all
  have h3 : (rawToks 0 src).Pairwise fun x y => x.2.start ≤ y.2.start ∧ x.2.stop ≤ y.2.stop := by
    refine List.Pairwise.imp_of_mem ?_ (C50_spans src).2.1
    intro x y hx hy hxy
    have := ((C50_spans src).1 x hx).1
    have := ((C50_spans src).1 y hy).1
    omega
  have h4 : ((allToks src).map (·.2)).Pairwise (fun x y => x.start ≤ y.start ∧ x.stop ≤ y.stop) := by
    rw [h2]
    exact List.pairwise_map.2 (h3.sublist List.filter_sublist)
  have h5 : ((annotated src).map (·.span)).Pairwise (fun x y => x.start ≤ y.start ∧ x.stop ≤ y.stop) := by
    rw [h1]
    exact h4.sublist (List.filter_sublist.map _)
  exact List.pairwise_map.1 h5

theorem loc_first (src : Bytes) (m : Mark) :
    (m.loc src).first = ((lineOf src m.span.start : Int), (colOf src m.span.start : Int)) := by
  by_cases h : lineOf src m.span.start = lineOf src m.span.stop <;> simp [Location.first, Mark.loc, encSpan, h]

theorem loc_last (src : Bytes) (m : Mark) :
    (m.loc src).last = ((lineOf src m.span.stop : Int), (colOf src m.span.stop : Int)) := by
  by_cases h : lineOf src m.span.start = lineOf src m.span.stop <;> simp [Location.last, Mark.loc, encSpan, h]

/-- Offsets and positions are ordered alike. -/
theorem notAfter_of {src : Bytes} {a b : Nat} (h : a ≤ b) (hb : b ≤ src.length) :
    NotAfter ((lineOf src a : Int), (colOf src a : Int)) ((lineOf src b : Int), (colOf src b : Int)) := by
  have hl := lineOf_mono src h
  rcases Nat.lt_or_eq_of_le hl with hl | hl
  · exact .inl (by simpa using hl)
  · refine .inr ⟨congrArg (fun n : Nat => (n : Int)) hl, ?_⟩
    rcases Nat.lt_or_eq_of_le h with h | h
    · have := colOf_mono src h hb hl
      simpa using Nat.le_of_lt this
    · rw [h]; exact Int.le_refl _

section
variable [FloatFmt] [LocSort]

/-- C77: in an accepted file, a location whose path continues the path of another location lies in the text of a location
with that path; the exceptions are the name of the extended message and the options of an extension range, which belong to
elements written elsewhere. -/
theorem C77_nested {name src : Bytes} {fd} (h : parse name src = some (.ok fd)) :
    ∃ locs, fd.sourceCodeInfo = some locs ∧ ∀ a ∈ locs, ∀ b ∈ locs, a.path <+: b.path → a.path ≠ b.path →
      Elsewhere a.path b.path ∨ ∃ c ∈ locs, c.path = a.path ∧ LiesIn b c := by
  obtain ⟨f, ts, hp⟩ := parsed_of_ok h
  have hnest := Nesting.file_whole (Pos.parseFile_places hp.run).2 (annotated_ord src)
  have hin : ∀ m ∈ fileMarks f, m.span.start ≤ src.length ∧ m.span.stop ≤ src.length := by
    intro m hm
    rcases List.mem_cons.1 hm with rfl | hm
    · rcases hp.span with ⟨_, h⟩ | ⟨h1, h2⟩
      · simp only [h]; exact ⟨Nat.le_refl _, Nat.zero_le _⟩
      · exact ⟨Nat.le_of_lt (Nat.lt_of_lt_of_le h1 h2), h2⟩
    · have := hp.marks m hm
      exact ⟨Nat.le_trans (Nat.le_of_lt this.2.1) this.2.2, this.2.2⟩
  refine ⟨_, by rw [hp.desc], ?_⟩
  intro a ha b hb hpre hne
  obtain ⟨x, hx, rfl⟩ := List.mem_map.1 ((LocSort.perm _).mem_iff.1 ha)
  obtain ⟨y, hy, rfl⟩ := List.mem_map.1 ((LocSort.perm _).mem_iff.1 hb)
  obtain ⟨q, hq⟩ := hpre
  have hq0 : q ≠ [] := by
    rintro rfl
    exact hne (by simpa using hq)
  rcases hnest x y hx hy q hq0 hq.symm with h | ⟨c, hc, h1, h2⟩
  · exact .inl h
  · refine .inr ⟨c.loc src, (LocSort.perm _).mem_iff.2 (List.mem_map.2 ⟨c, hc, rfl⟩), h1, ?_⟩
    unfold LiesIn
    rw [loc_first, loc_first, loc_last, loc_last]
    exact ⟨notAfter_of h2.1 (hin y hy).1, notAfter_of h2.2 (hin c hc).2⟩

/-- C77 (one location): where a path has only one location, everything below it lies in that location. -/
theorem C77_one {name src : Bytes} {fd} (h : parse name src = some (.ok fd)) {locs} (hl : fd.sourceCodeInfo = some locs)
    {a b : Location} (ha : a ∈ locs) (hb : b ∈ locs) (h1 : ∀ c ∈ locs, c.path = a.path → c = a) (hpre : a.path <+: b.path) :
    b = a ∨ Elsewhere a.path b.path ∨ LiesIn b a := by
  obtain ⟨locs', e, hn⟩ := C77_nested h
  rw [hl] at e; cases e
  by_cases hne : a.path = b.path
  · exact .inl (h1 b hb hne.symm)
  · rcases hn a ha b hb hpre hne with h | ⟨c, hc, he, h⟩
    · exact .inr (.inl h)
    · rw [h1 c hc he] at h
      exact .inr (.inr h)
end

namespace Demo
/-- A message with a nested message, an `extend` block and an `extensions` statement with options. -/
def nestSrc : Bytes :=
  b!"message M {\n  message N { optional int32 a = 1; }\n  extensions 5, 7 to 9 [(x) = 1];\n}\nextend M { optional int32 b = 5; }"

/-- The field of the nested message lies in the nested message, which lies in the message. -/
example : (ofFile nestSrc fun fd => ((fd.sourceCodeInfo.getD []).filter fun l =>
      l.path == [4, 0] || l.path == [4, 0, 3, 0] || l.path == [4, 0, 3, 0, 2, 0]).map fun l => (l.path, l.span)) =
    some [([4, 0], [0, 0, 3, 1]), ([4, 0, 3, 0], [1, 2, 37]), ([4, 0, 3, 0, 2, 0], [1, 14, 35])] := by decide +kernel

/-- Both kinds of exceptions: the extended name lies outside the extension, and the options of the ranges lie outside the
ranges; both lie in their statement. -/
example : (ofFile nestSrc fun fd => ((fd.sourceCodeInfo.getD []).filter fun l =>
      l.path == [7] || l.path == [7, 0] || l.path == [7, 0, 2] || l.path == [4, 0, 5] || l.path == [4, 0, 5, 0] ||
        l.path == [4, 0, 5, 0, 3]).map fun l => (l.path, l.span)) =
    some [([4, 0, 5], [2, 2, 33]), ([4, 0, 5, 0], [2, 13, 14]), ([4, 0, 5, 0, 3], [2, 23, 32]),
      ([7], [4, 0, 34]), ([7, 0], [4, 11, 32]), ([7, 0, 2], [4, 7, 8])] := by decide +kernel
end Demo
end Verif
