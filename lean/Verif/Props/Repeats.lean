import Verif.Props.Local
import Verif.Props.Once
import Verif.Proofs.Repeats3
/-!
C71: each violation of the rules is reported once, except that a bad option of an `extensions` statement is reported once
for each range of the statement.
-/
namespace Verif
open Verif.Spec Verif.Ast Verif.Gen Verif.Places

/-- The option stands in this `extensions` statement of this file. -/
def Spec.RangeOption (f : Ast.File) (x : Extensions) (o : OptionBody) : Prop :=
  ∃ b, BodyWritten f b ∧ x ∈ b.extensions ∧ o ∈ listed x.options

section
variable [FloatFmt] [LocSort]

theorem kinds_counts {name src : Bytes} {e : ParseError} (h : parse name src = some (.error e))
    (hl : src.length ≤ 2147483647) (hx : lexOk src = true) {f : Ast.File} (hp : PlacedTree src f) :
    e.kinds = fileErrs f ∧ Repeats.Counts (Repeats.InMsgs (fileMsgs f)) (annotated src) fun k => (fileErrs f).count k := by
  have hf := Pos.parseFile_iff.2 ⟨hx, hp⟩
  refine ⟨?_, Repeats.file_counts hp.2 (annotated_inc src)⟩
  cases he : fileErrs f with
  | nil =>
    obtain ⟨fd, h'⟩ := (parse_of_file (name := name) hl hf).1 he
    rw [h] at h'
    cases h'
  | cons k ks =>
    have := (parse_of_file (name := name) hl hf).2 k ks he
    rw [h] at this
    cases this
    rfl

/-- C71: a diagnostic that is not about an option of an `extensions` statement is reported at most once. -/
theorem C71_once {name src : Bytes} {e : ParseError} (h : parse name src = some (.error e))
    (hl : src.length ≤ 2147483647) (hx : lexOk src = true) {f : Ast.File} (hp : PlacedTree src f) (k : ParseErrorKind)
    (hk : ∀ x o, RangeOption f x o → ¬ BadOption o k) : e.kinds.count k ≤ 1 := by
  obtain ⟨he, hc⟩ := kinds_counts h hl hx hp
  rw [he]
  refine Nat.le_of_not_lt fun hlt => ?_
  obtain ⟨x, hx, hk'⟩ := hc.one k hlt
  obtain ⟨b, hb, hm⟩ := Repeats.inMsgs_file.1 hx
  obtain ⟨o, ho, hbad⟩ := mem_optListErrs.1 hk'
  exact hk x o ⟨b, hb, hm, ho⟩ hbad

/-- C71: a diagnostic about an option of an `extensions` statement is reported once for each range of the statement. -/
theorem C71_ranges {name src : Bytes} {e : ParseError} (h : parse name src = some (.error e))
    (hl : src.length ≤ 2147483647) (hx : lexOk src = true) {f : Ast.File} (hp : PlacedTree src f) {k : ParseErrorKind}
    {x : Extensions} {o : OptionBody} (ho : RangeOption f x o) (hk : BadOption o k) :
    e.kinds.count k = x.ranges.length := by
  obtain ⟨he, hc⟩ := kinds_counts h hl hx hp
  obtain ⟨b, hb, hm, ho⟩ := ho
  rw [he]
  exact hc.many x (Repeats.inMsgs_file.2 ⟨b, hb, hm⟩) k (mem_optListErrs.2 ⟨o, ho, hk⟩)

end

/-! ## A concrete case -/
namespace RepeatsDemo
open Demo

/-- A bad option of three ranges, inside a group of an extension, and a bad field number with a bad default. -/
def src : Bytes :=
  b!"extend A { optional group G = 1 { extensions 1, 2 to 3, 4 to 5 [a = -x]; optional int32 y = 0 [default = x]; } }"

theorem no_number {o : OptionBody} {sp} : ¬ BadOption o (.invalidMessageNumber sp) := by
  intro h; cases h

theorem has_number : ∃ sp, ParseErrorKind.invalidMessageNumber sp ∈ kindsOf src := by
  have h1 : ((kindsOf src).any fun | .invalidMessageNumber _ => true | _ => false) = true := by decide +kernel
  generalize kindsOf src = l at h1
  obtain ⟨k, a, b⟩ := List.any_eq_true.1 h1
  split at b
  · exact ⟨_, a⟩
  · cases b

/-- The hypotheses of both theorems hold, and the number of times is 3 and 1. -/
example : ∃ e f x o k sp, parse b!"a.proto" src = some (.error e) ∧ PlacedTree src f ∧ RangeOption f x o ∧
    BadOption o k ∧ x.ranges.length = 3 ∧ e.kinds.count k = 3 ∧ e.kinds.length = 5 ∧
    (∀ x o, RangeOption f x o → ¬ BadOption o (.invalidMessageNumber sp)) ∧ .invalidMessageNumber sp ∈ e.kinds ∧
    e.kinds.count (.invalidMessageNumber sp) ≤ 1 := by
  have hb : (match Parse.parseFile src with
      | .ok (.ok f) => (match f.items with
        | [.extend ⟨_, [⟨_, _, .group _ ⟨_, [⟨[_, _, _], some ⟨[⟨_, .ident true _ _⟩], _⟩, _, _⟩], _, _⟩, _, _, _, _⟩], _, _⟩] => true
        | _ => false)
      | _ => false) = true := by decide +kernel
  split at hb
  · rename_i f hf
    split at hb
    · rename_i hi
      obtain ⟨hx, hp⟩ := Pos.parseFile_iff.1 hf
      have hr : rejects src = true := by decide +kernel
      unfold rejects at hr
      split at hr
      · rename_i e he
        have hk' : kindsOf src = e.kinds := by unfold kindsOf; rw [he]
        have h5 : (kindsOf src).length = 5 := by decide +kernel
        have hro : RangeOption f _ _ := ⟨_, ⟨_, .top (by
          unfold fileMsgs; rw [hi]
          exact List.mem_flatMap.2 ⟨_, .head _, List.mem_flatMap.2 ⟨_, .head _, .head _⟩⟩), rfl⟩, .head _, .head _⟩
        have h3 := C71_ranges he (by decide +kernel) hx hp hro (.ident rfl)
        obtain ⟨sp, a⟩ := has_number
        rw [hk'] at a h5
        have hn : ∀ x o, RangeOption f x o → ¬ BadOption o (.invalidMessageNumber sp) := fun _ _ _ => no_number
        exact ⟨e, f, _, _, _, sp, he, hp, hro, .ident rfl, rfl, h3, h5, hn, a, C71_once he (by decide +kernel) hx hp _ hn⟩
      · cases hr
    · cases hb
  · cases hb

end RepeatsDemo
end Verif
