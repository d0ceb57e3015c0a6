import Verif.Spec.Tokens
import Verif.Model.Error
/-! What the diagnostics about tokens are, and the files that begin well. -/
namespace Verif.Blame

/-- The range of a diagnostic "expected …, but found …" (`UnexpectedToken`). -/
def utSpan : ParseErrorKind → Option Span
  | .unexpectedToken _ _ s => some s
  | _ => none

/-- The token of a diagnostic "expected …, but found …", and its range. -/
def utTok : ParseErrorKind → Option STok
  | .unexpectedToken _ t s => some (t, s)
  | _ => none

/-- The range of a diagnostic "invalid token" (`InvalidToken`). -/
def invSpan : ParseErrorKind → Option Span
  | .invalidToken s => some s
  | _ => none

/-- The range of a piece of source that matches no token. -/
def badSpan : Option Token × Span → Option Span
  | (none, s) => some s
  | _ => none

/-- The pieces of a source that match no token, in order. -/
def badTokens (src : Bytes) : List Span := (rawToks 0 src).filterMap badSpan

/-- The source begins well: it is empty, or its first token is valid and is not `syntax`, or it begins with a `syntax`
statement naming a known syntax. -/
inductive GoodStart : List (Option STok) → Prop where
  | empty : GoodStart []
  | bare {x v} : x.1 ≠ .ident b!"syntax" → GoodStart (some x :: v)
  | syntax' {s1 s2 s3 s4 p v} : p = b!"proto2" ∨ p = b!"proto3" →
      GoodStart (some (.ident b!"syntax", s1) :: some (.equals, s2) :: some (.string p, s3) :: some (.semicolon, s4) :: v)

end Verif.Blame
