import Verif.Proofs.DistinctFile
import Verif.Props.Locations
import Verif.Props.Lexing
import Verif.Props.Parse
/-!
No source location is recorded twice: C43.
-/
namespace Verif
open Verif.Spec Verif.Ast Verif.Gen

/-- The significant tokens of a source begin at increasing offsets. -/
theorem annotated_inc (src : Bytes) : Dist.Inc (annotated src) := by
  have h1 : Dist.st (annotated src) = ((allToks src).filter fun t => ! t.1.isTrivia).map (·.2.start) := by
    rw [← Pos.annotate_sig (allToks src) true []]
    simp [Dist.st, annotated, Function.comp_def]
  have h2 : (allToks src).map (·.2.start) = ((rawToks 0 src).filter fun x => x.1.isSome).map (·.2.start) := by
    unfold allToks
    generalize rawToks 0 src = l
    induction l with
    | nil => rfl
    | cons x l ih =>
      obtain ⟨t, sp⟩ := x
      cases t <;> simp_all
  have h3 : (rawToks 0 src).Pairwise fun x y => x.2.start < y.2.start := by
    refine List.Pairwise.imp_of_mem ?_ (C50_spans src).2.1
    intro x y hx _ hxy
    exact Nat.lt_of_lt_of_le ((C50_spans src).1 x hx).1 hxy
  unfold Dist.Inc
  rw [h1]
  have h4 : ((allToks src).map (·.2.start)).Pairwise (· < ·) := by
    rw [h2]
    exact List.pairwise_map.2 (h3.sublist List.filter_sublist)
  exact h4.sublist (List.filter_sublist.map _)

/-- A line and a column belong to one offset. -/
theorem position_inj {src : Bytes} {a b : Nat} (ha : a ≤ src.length) (hb : b ≤ src.length)
    (hl : lineOf src a = lineOf src b) (hc : colOf src a = colOf src b) : a = b := by
  rcases Nat.lt_trichotomy a b with h | h | h
  · have := colOf_mono src h hb hl; omega
  · exact h
  · have := colOf_mono src h ha hl.symm; omega

section
variable [FloatFmt] [LocSort]

/-- C43 (once): two locations with the same path begin at different places (a path is recorded once for every statement
that contributes to it); in particular no location is recorded twice. -/
theorem C43_once {name src : Bytes} {fd} (h : parse name src = some (.ok fd)) :
    ∃ locs, fd.sourceCodeInfo = some locs ∧
      locs.Pairwise (fun a b => a.path = b.path → a.span.take 2 ≠ b.span.take 2) ∧ locs.Nodup := by
  obtain ⟨f, ts, hp⟩ := parsed_of_ok h
  have hnd := Dist.file_nd (Dist.file_d (Pos.parseFile_places hp.run).2 (annotated_inc src))
  have hin : ∀ m ∈ fileMarks f, m.span.start ≤ src.length := by
    intro m hm
    rcases List.mem_cons.1 hm with rfl | hm
    · rcases hp.span with ⟨_, h⟩ | ⟨h1, h2⟩
      · simp only [h]; exact Nat.le_refl _
      · exact Nat.le_of_lt (Nat.lt_of_lt_of_le h1 h2)
    · have := hp.marks m hm
      exact Nat.le_trans (Nat.le_of_lt this.2.1) this.2.2
  have hl : ((fileMarks f).map (Mark.loc src)).Pairwise (fun a b => a.path = b.path → a.span.take 2 ≠ b.span.take 2) := by
    refine List.pairwise_map.2 (List.Pairwise.imp_of_mem ?_ hnd)
    intro a b ha hb hs he hsp
    refine hs he (position_inj (hin a ha) (hin b hb) ?_ ?_)
    all_goals
      simp only [Mark.loc, encSpan] at hsp
      split at hsp <;> split at hsp <;> simp at hsp <;> omega
  have hs : (LocSort.sort ((fileMarks f).map (Mark.loc src))).Pairwise
      (fun a b => a.path = b.path → a.span.take 2 ≠ b.span.take 2) := by
    refine ((LocSort.perm _).pairwise_iff ?_).2 hl
    intro a b h e
    exact fun k => h e.symm k.symm
  refine ⟨_, by rw [hp.desc], hs, hs.imp fun {a b} hab => ?_⟩
  rintro rfl
  exact hab rfl rfl
end

namespace Demo
/-- A path with several locations: two `extend` statements, two `reserved` statements and two options each record the
path they share, at different places. -/
example : (ofFile b!"message M {\n  extensions 5 to 9;\n  reserved 1;\n  reserved 2;\n}\nextend M { optional int32 a = 5; }\nextend M { optional int32 b = 6; }"
      (fun fd => ((fd.sourceCodeInfo.getD []).filter fun l => l.path == [7] || l.path == [4, 0, 9]).map fun l => (l.path, l.span))) =
    some [([4, 0, 9], [2, 2, 13]), ([4, 0, 9], [3, 2, 13]), ([7], [5, 0, 34]), ([7], [6, 0, 34])] := by decide +kernel
end Demo
end Verif
