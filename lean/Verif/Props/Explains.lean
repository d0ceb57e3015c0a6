import Verif.Props.Blame
import Verif.Proofs.Explains
import Verif.Proofs.Faults7
/-!
C73: diagnostics mean what they say: the message, the help and the places of each diagnostic state a fact about the source.
-/
namespace Verif
open Verif.Spec Verif.Gen

section
variable [FloatFmt] [LocSort]

/-- C73: of a source that lexes and has a syntax tree, exactly that is said which the rules say of its tree: texts with the
bounds that are checked, at the places where they are broken. -/
theorem C73_rules {name src : Bytes} {e : ParseError} (h : parse name src = some (.error e)) (hl : src.length ≤ 2147483647)
    (hx : lexOk src = true) {f : Ast.File} (hp : PlacedTree src f) (t : Shown) :
    (∃ k ∈ e.kinds, t = ⟨k.message, k.help, k.spans⟩) ↔ RuleText f t := by
  have hj := C53_justified h hl hx hp
  constructor
  · rintro ⟨k, hk, rfl⟩
    exact (both_rules f).1 k ((hj k).1 hk)
  · intro ht
    obtain ⟨k, hk, e⟩ := (both_rules f).2 t ht
    exact ⟨k, (hj k).2 hk, e.symm⟩

/-- C73: of a source that is too long, does not lex or has no syntax tree, nothing is said but what is there: each diagnostic is
about the size, about one token as it is written, or about the tokens around the place. -/
theorem C73_faults {name src : Bytes} {e : ParseError} (h : parse name src = some (.error e))
    (hn : ¬ (src.length ≤ 2147483647 ∧ lexOk src = true ∧ ∃ f, PlacedTree src f)) :
    ∀ k ∈ e.kinds, Fault src ⟨k.message, k.help, k.spans⟩ := by
  unfold parse at h
  by_cases hlen : src.length > maxParseLen
  · rw [if_pos hlen] at h
    cases h
    intro k hk
    rw [show k = .fileTooLarge from List.mem_singleton.1 hk]
    exact .large hlen rfl
  · have hl : src.length ≤ 2147483647 := Nat.le_of_not_lt hlen
    rw [if_neg hlen] at h
    rcases hp : Parse.parseFile src with (errs | f) | _ | _ | _
    · rw [hp] at h
      dsimp only at h
      cases errs with
      | nil => cases h
      | cons k ks => cases h; exact parseFile_faults hp
    · obtain ⟨hx, ht⟩ := Pos.parseFile_iff.1 hp
      exact absurd ⟨hl, hx, f, ht⟩ hn
    all_goals (rw [hp] at h; cases h)

end

/-! ## Concrete cases -/
namespace ExplainsDemo
open Demo

/-- Messages, helps and places of a source, in order. -/
def texts (src : Bytes) : List (Bytes × Option Bytes × List Span) := (kindsOf src).map fun k => (k.message, k.help, k.spans)

/-- A source with a tree: the texts of `C73_rules`. -/
def ruled : Bytes := b!"enum E { A = 2147483648; } message M { optional uint32 f = 0 [default = -1]; }"

example : texts ruled = [
    (b!"enum numbers must be between -2147483648 and 2147483647", none, [⟨13, 23⟩]),
    (b!"message numbers must be between 1 and 536870911", none, [⟨59, 60⟩]),
    (b!"expected value to be an unsigned 32-bit integer, but the value -1 is out of range",
      some b!"the value must be between 0 and 4294967295 inclusive", [⟨72, 74⟩])] := by decide +kernel

/-- The hypotheses of `C73_rules` hold for it. -/
example : ∃ e f, parse b!"a.proto" ruled = some (.error e) ∧ lexOk ruled = true ∧ PlacedTree ruled f ∧
    RuleText f ⟨b!"enum numbers must be between -2147483648 and 2147483647", none, [⟨13, 23⟩]⟩ := by
  obtain ⟨hx, f, hp⟩ := treed_ok (src := ruled) (by decide +kernel)
  have hr : rejects ruled = true := by decide +kernel
  unfold rejects at hr
  split at hr
  · rename_i e he
    refine ⟨e, f, he, hx, hp, (C73_rules he (by decide +kernel) hx hp _).1 ?_⟩
    have hk : kindsOf ruled = e.kinds := by unfold kindsOf; rw [he]
    have hm : ParseErrorKind.invalidEnumNumber ⟨13, 23⟩ ∈ kindsOf ruled := by decide +kernel
    rw [hk] at hm
    exact ⟨_, hm, rfl⟩
  · cases hr

/-- A source that is not read, with a diagnostic about a string, one about a number, one about a path and one about a group. -/
def broken : Bytes := b!"syntax = 'proto2'; import \"a/./b\"; option a = '\\q'; option b = 0x1ffffffffffffffff; message M { optional group g = 1 {} }"

example : texts broken = [
    (b!"invalid group name", some b!"imports may not contain backslashes, repeated forward slashes, '.' or '..' components", [⟨26, 33⟩]),
    (b!"invalid string escape", none, [⟨47, 48⟩]),
    (b!"integer is too large", none, [⟨65, 82⟩]),
    (b!"invalid group name", some b!"group names must consist of a capital letter followed by letters, numbers and underscores",
      [⟨111, 112⟩])] := by decide +kernel

/-- The hypotheses of `C73_faults` hold for it. -/
example : ∃ e, parse b!"a.proto" broken = some (.error e) ∧ e.kinds.length = 4 ∧ ∀ k ∈ e.kinds, Fault broken ⟨k.message, k.help, k.spans⟩ := by
  have hr : rejects broken = true := by decide +kernel
  have h4 : (kindsOf broken).length = 4 := by decide +kernel
  unfold rejects at hr
  split at hr
  · rename_i e he
    have hk : kindsOf broken = e.kinds := by unfold kindsOf; rw [he]
    refine ⟨e, he, hk ▸ h4, C73_faults he ?_⟩
    rintro ⟨_, hx, _⟩
    exact absurd hx (by decide +kernel)
  · cases hr

/-- The other texts. -/
example : texts b!"syntax = 'proto' '4';" =
    [(b!"unknown syntax 'proto4'", some b!"possible values are 'proto2' and 'proto3'", [⟨9, 20⟩])] := by decide +kernel
example : texts b!"package a; package b.c;" = [(b!"multiple package names specified", none, [⟨0, 10⟩, ⟨11, 23⟩])] := by
  decide +kernel
example : texts b!"enum E { reserved '1a'; A = 0; }" = [(b!"invalid identifier",
    some b!"identifiers must consist of letters, numbers and underscores, and may not start with a number", [⟨18, 22⟩])] := by
  decide +kernel
example : texts b!"import '\\xff';" = [(b!"string is not valid utf-8", none, [⟨7, 13⟩])] := by decide +kernel
example : texts b!"option a = 1.5f;" = [(b!"'f' suffix for float literals is not allowed", none, [⟨11, 15⟩])] := by decide +kernel
example : texts b!"# x\n;" = [(b!"'#' comments are not allowed here", none, [⟨0, 4⟩])] := by decide +kernel
example : texts b!"/* /* */ */" = [(b!"nested block comments are not supported", none, [⟨3, 5⟩])] := by decide +kernel
example : texts b!"option a = 'b\n;" = [(b!"unterminated string", none, [⟨13, 14⟩])] := by decide +kernel
example : texts b!"option a = 1x;" = [(b!"whitespace is required between an integer literal and an identifier", none, [⟨11, 13⟩]),
    (b!"expected ';', but found 'x'", none, [⟨12, 13⟩])] := by decide +kernel
example : texts b!"/*" = [(b!"expected comment terminator, but reached end of file", none, [])] := by decide +kernel

end ExplainsDemo
end Verif
