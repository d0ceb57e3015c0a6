import Verif.Model.Message
import Verif.Spec.Tokens
/-!
What the "expected …" part of a message says: the alternatives named in it, and the tokens that each of them stands for.
-/
namespace Verif.Spec
open Verif.Parse

/-- The alternatives in a text, which are separated by commas (with a space) and the word `or`. -/
def splitAlternatives : Bytes → Bytes → List Bytes
  | cur, [] => [cur]
  | cur, 44 :: 32 :: r => cur :: splitAlternatives [] r
  | cur, 32 :: 111 :: 114 :: 32 :: r => cur :: splitAlternatives [] r
  | cur, b :: r => splitAlternatives (cur ++ [b]) r

def alternatives (text : Bytes) : List Bytes := splitAlternatives [] text

/-- How keywords (words that begin with a letter) and punctuation are written. -/
def spelling : Token → Option Bytes
  | .ident s => if s.head?.any isAlpha then some s else none
  | .dot => some b!"." | .minus => some b!"-" | .plus => some b!"+" | .leftParen => some b!"(" | .rightParen => some b!")"
  | .leftBrace => some b!"{" | .rightBrace => some b!"}" | .leftBracket => some b!"[" | .rightBracket => some b!"]"
  | .leftAngle => some b!"<" | .rightAngle => some b!">" | .comma => some b!"," | .equals => some b!"="
  | .colon => some b!":" | .semicolon => some b!";" | .slash => some b!"/"
  | _ => none

/-- The tokens that a message can mean by an alternative: anything in quotes is meant literally; the rest are descriptions of
literals, names, or things that begin with a keyword or a name. -/
def means (words : Bytes) (t : Token) : Prop :=
  (∃ x, spelling t = some x ∧ words = b!"'" ++ x ++ b!"'") ∨
  (words = b!"an identifier" ∧ ∃ s, t = .ident s) ∨
  (words ∈ [b!"a type name", b!"a field type", b!"a message field"] ∧ (t = .dot ∨ ∃ s, t = .ident s)) ∨
  (words ∈ [b!"an integer", b!"a positive integer"] ∧ ∃ n, t = .int n) ∨
  (words ∈ [b!"a string literal", b!"a string", b!"string"] ∧ ∃ s, t = .string s) ∨
  (words = b!"a numeric literal" ∧ ((∃ n, t = .int n) ∨ ∃ x, t = .float x)) ∨
  (words = b!"a constant" ∧ (t = .minus ∨ t = .leftBrace ∨ (∃ s, t = .ident s) ∨ (∃ n, t = .int n) ∨ (∃ x, t = .float x) ∨
    ∃ s, t = .string s)) ∨
  (words ∈ [b!"oneof", b!"enum", b!"message", b!"option"] ∧ t = .ident words) ∨
  (words = b!"reserved range" ∧ t = .ident b!"reserved")

/-- The token is one of those that the message says were expected. -/
def expects [FloatFmt] (ex : Expect) (t : Token) : Prop := ∃ words ∈ alternatives ex.render, means words t

/-- The significant tokens of a source (see `sigToks`) without their positions; `none` is a piece of it that is no token. -/
def unplaced (l : List (Option STok)) : List (Option Token) := l.map fun o => o.map Prod.fst

/-- The two messages about the end of the file that do not ask for a token, but for the end of one that was begun: a string or a
comment. -/
def lexEnd : Expect → Bool
  | .text t => t == b!"string terminator" || t == b!"comment terminator"
  | .oneOf _ => false

end Verif.Spec
