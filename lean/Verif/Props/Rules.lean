import Verif.Proofs.Violations
import Verif.Props.Grammar
import Verif.Proofs.Demo
/-! C53: beyond the grammar, the parser enforces exactly the rules of `Spec/Rules.lean`, and reports every violation. -/
namespace Verif
open Verif.Spec Verif.Ast Verif.Gen Verif.Places

section
variable [FloatFmt] [LocSort]

theorem placed_in {src : Bytes} {f : File} (hx : lexOk src = true) (h : PlacedTree src f) : f.In src.length := by
  have h := Pos.parseFile_iff.2 ⟨hx, h⟩
  rcases Parse.parseFile_spec src with ⟨errs, h1, _⟩ | ⟨f', ts, h1, _, _, h4, _⟩
  · rw [h] at h1; cases h1
  · rw [h] at h1; cases h1; exact h4

/-- C53: a source is accepted exactly if it is not too long, lexes without error, has a syntax tree, and the tree violates
no rule. -/
theorem C53_accepts (name src : Bytes) : (∃ fd, parse name src = some (.ok fd)) ↔
    src.length ≤ 2147483647 ∧ lexOk src = true ∧ ∃ f, PlacedTree src f ∧ ∀ k, ¬ Violation f k := by
  constructor
  · rintro ⟨fd, h⟩
    obtain ⟨hl, hx, f, ht, he⟩ := parse_accepts.1 ⟨fd, h⟩
    obtain ⟨f', h1, h2⟩ := file_of_tree hx ht
    have hp := (Pos.parseFile_iff.1 h1).2
    refine ⟨hl, hx, f', hp, fun k hk => ?_⟩
    have := (fileErrs_violations (Pos.treeOf_placed hp) (placed_in hx hp)).2 hk
    rw [(fileErrs_same h2).2 he] at this
    cases this
  · rintro ⟨hl, hx, f, hp, hv⟩
    refine parse_accepts.2 ⟨hl, hx, f, Pos.treeOf_placed hp, ?_⟩
    refine List.eq_nil_iff_forall_not_mem.2 fun k hk => hv k ?_
    exact (fileErrs_violations (Pos.treeOf_placed hp) (placed_in hx hp)).1 hk

/-- C53: when the tree of a source violates rules, the error returned contains a diagnostic for each violation, at its
place, and no other diagnostic. -/
theorem C53_diagnostics (name src : Bytes) (hl : src.length ≤ 2147483647) (hx : lexOk src = true) (f : File)
    (hp : PlacedTree src f) (hv : ∃ k, Violation f k) :
    ∃ e, parse name src = some (.error e) ∧ ∀ k, k ∈ e.kinds ↔ Violation f k := by
  have hm : ∀ k, k ∈ fileErrs f ↔ Violation f k := fun k =>
    fileErrs_violations (Pos.treeOf_placed hp) (placed_in hx hp)
  have hf := Pos.parseFile_iff.2 ⟨hx, hp⟩
  cases he : fileErrs f with
  | nil =>
    obtain ⟨k, hk⟩ := hv
    have := (hm k).2 hk
    rw [he] at this
    cases this
  | cons k ks =>
    refine ⟨_, (parse_of_file hl hf).2 k ks he, fun k' => ?_⟩
    rw [← hm k', he]
    rfl

/-- C53: when the error of a source that has a syntax tree is returned, there is a violation for every diagnostic. -/
theorem C53_justified {name src : Bytes} {e : ParseError} (h : parse name src = some (.error e))
    (hl : src.length ≤ 2147483647) (hx : lexOk src = true) {f : File} (hp : PlacedTree src f) :
    ∀ k, k ∈ e.kinds ↔ Violation f k := by
  have hf := Pos.parseFile_iff.2 ⟨hx, hp⟩
  have hm : ∀ k, k ∈ fileErrs f ↔ Violation f k := fun k =>
    fileErrs_violations (Pos.treeOf_placed hp) (placed_in hx hp)
  cases he : fileErrs f with
  | nil =>
    obtain ⟨fd, h'⟩ := (parse_of_file (name := name) hl hf).1 he
    rw [h] at h'
    cases h'
  | cons k ks =>
    have := (parse_of_file (name := name) hl hf).2 k ks he
    rw [h] at this
    cases this
    intro k'
    rw [← hm k', he]
    rfl

end

namespace Demo

/-- A source that obeys the grammar and breaks ten rules. -/
def badSrc : Bytes := b!"message M {\n  optional int32 a = 0;\n  int32 b = 2 [default = \"x\"];\n  oneof o {}\n  map<float, int32> m = 4;\n  reserved 0 to max;\n  option (x) = -y;\n}\nextend M { required uint32 e = 19 [default = -1]; }\nenum E { X = 2147483648; }\n"

/-- The diagnostics of a source, in the order in which they are reported. -/
def kindsOf (src : Bytes) : List ParseErrorKind :=
  match parse b!"a.proto" src with
  | some (.error e) => e.kinds
  | _ => []

def treed (src : Bytes) : Bool :=
  match Parse.parseFile src with
  | .ok (.ok _) => true
  | _ => false

theorem treed_ok {src : Bytes} (h : treed src = true) : lexOk src = true ∧ ∃ f, PlacedTree src f := by
  unfold treed at h
  split at h
  · rename_i f hf
    obtain ⟨h1, h2⟩ := Pos.parseFile_iff.1 hf
    exact ⟨h1, f, h2⟩
  · cases h

example : kindsOf badSrc = [.invalidMessageNumber ⟨33, 34⟩, .proto2FieldMissingLabel ⟨38, 66⟩, 
    .valueInvalidType b!"an integer" (.string ⟨b!"x", ⟨61, 64⟩⟩) ⟨61, 64⟩,
    .emptyOneof ⟨69, 79⟩, .invalidMapFieldKeyType ⟨86, 91⟩, .invalidMessageNumber ⟨118, 119⟩,
    .negativeIdentOutsideDefault ⟨143, 145⟩, .requiredExtendField ⟨160, 168⟩, 
    .integerValueOutOfRange b!"an unsigned 32-bit integer" ⟨true, 1, ⟨194, 196⟩⟩ 0 4294967295 ⟨194, 196⟩,
    .invalidEnumNumber ⟨214, 224⟩] := by decide +kernel

/-- The hypotheses of `C53_diagnostics` hold for it, and its conclusion gives violations: here the empty oneof. -/
example : lexOk badSrc = true ∧ ∃ f, PlacedTree badSrc f ∧ Violation f (.emptyOneof ⟨69, 79⟩) := by
  obtain ⟨hx, f, hp⟩ := treed_ok (src := badSrc) (by decide +kernel)
  refine ⟨hx, f, hp, ?_⟩
  have hr : rejects badSrc = true := by decide +kernel
  unfold rejects at hr
  split at hr
  · rename_i e he
    refine (C53_justified he (by decide +kernel) hx hp _).1 ?_
    have hk : kindsOf badSrc = e.kinds := by unfold kindsOf; rw [he]
    rw [← hk]
    decide +kernel
  · cases hr

/-- An accepted source violates no rule. -/
example : ∃ f, PlacedTree b!"message A { optional int32 x = 1; }" f ∧ ∀ k, ¬ Violation f k := by
  have h : accepts b!"message A { optional int32 x = 1; }" = true := by decide +kernel
  unfold accepts at h
  split at h
  · rename_i fd hfd
    exact ((C53_accepts _ _).1 ⟨fd, hfd⟩).2.2
  · cases h

end Demo
end Verif
