import Verif.Spec.Tokens
/-!
Lexing without errors, exactly: the forms of the text format (`#` comments, `f` suffixes of numbers) are errors except
inside the braces of an aggregate option value.
-/
namespace Verif

/-- Where a token stands: outside of aggregate values (just after an `=` or not), or inside one, in so many nested braces. -/
inductive Mode where
  | top (afterEquals : Bool)
  | agg (depth : Nat)
  deriving DecidableEq

/-- The text format is allowed. -/
def Mode.text : Mode → Bool
  | .top _ => false
  | .agg _ => true

/-- Where the token after this one stands. An aggregate value begins with a brace after `=`. -/
def Mode.step : Mode → Token → Mode
  | m, .lineComment _ => m
  | m, .blockComment _ => m
  | m, .newline => m
  | .top true, .leftBrace => .agg 0
  | .top _, t => .top (t = .equals)
  | .agg n, .leftBrace => .agg (n + 1)
  | .agg 0, .rightBrace => .top false
  | .agg (n + 1), .rightBrace => .agg n
  | .agg n, _ => .agg n

/-- Lexing records no error, each token being lexed with the forms allowed where it stands. -/
def lexOkN : Nat → Mode → Nat → Bytes → Bool
  | 0, _, _, _ => true
  | n + 1, m, pos, s =>
    let o := Lex.next m.text pos s []
    decide (o.errs = []) && match o.res with
    | .eof => true
    | .tok t => lexOkN n (m.step t) o.span.stop o.rest
    | .error => false

/-- The source lexes without errors. -/
def lexOk (src : Bytes) : Bool := lexOkN (src.length + 1) (.top false) 0 src

end Verif
