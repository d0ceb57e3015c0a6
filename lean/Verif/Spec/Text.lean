import Verif.Basic
/-!
Text: a source is UTF-8, and positions in it are meaningful only between characters.
-/
namespace Verif.Spec

/-- A Unicode scalar value: a code point that is not a surrogate. -/
def Scalar (c : Nat) : Prop := c < 0xD800 ∨ (0xE000 ≤ c ∧ c < 0x110000)

/-- A `&str`: the UTF-8 encoding of a sequence of scalar values. -/
def IsText (s : Bytes) : Prop := ∃ cs : List Nat, (∀ c ∈ cs, Scalar c) ∧ s = cs.flatMap utf8Encode

/-- A position between two characters of the text (`str::is_char_boundary`): it is the length of the encoding of the
first characters. -/
def Between (s : Bytes) (n : Nat) : Prop :=
  ∃ before after : List Nat, (∀ c ∈ before, Scalar c) ∧ (∀ c ∈ after, Scalar c) ∧
    s = before.flatMap utf8Encode ++ after.flatMap utf8Encode ∧ n = (before.flatMap utf8Encode).length

/-- `str::is_char_boundary`, as it is computed: the position is inside the text, and no continuation byte follows it. -/
def CharBoundary (src : Bytes) (n : Nat) : Prop :=
  n ≤ src.length ∧ ∀ b, src[n]? = some b → isCont b = false

end Verif.Spec
