import Verif.Basic
/-!
Tokens, and what the parser can say it expected instead of one: protox-parse/src/lex/mod.rs (enum `Token`) and
protox-parse/src/parse/mod.rs (enum `ExpectedToken`).
-/
namespace Verif

/-- `Token` (lex/mod.rs:10-68). A float keeps the text handed to `str::parse::<f64>`. -/
inductive Token where
  | ident (s : Bytes)
  | int (n : Nat)
  | float (text : Bytes)
  | string (v : Bytes)
  | dot | minus | plus | leftParen | rightParen | leftBrace | rightBrace | leftBracket | rightBracket
  | leftAngle | rightAngle | comma | equals | colon | semicolon | slash
  | lineComment (text : Bytes)
  | blockComment (text : Bytes)
  | newline
  deriving DecidableEq, Repr

/-- Comments and newlines, which `peek_skip_comments` drops (parse/mod.rs:1240-1251). -/
def Token.isTrivia : Token → Bool
  | .lineComment _ | .blockComment _ | .newline => true
  | _ => false

namespace Parse

/-- `ExpectedToken` (parse/mod.rs:36-40). -/
inductive Expected where
  | token (t : Token)
  | ident
  deriving DecidableEq, Repr

/-- `ExpectedToken::matches` (parse/mod.rs:1311-1316). -/
def Expected.matches (e : Expected) (t : Token) : Bool :=
  match e with
  | .token x => x == t
  | .ident => match t with
    | .ident _ => true
    | _ => false

/-- The argument of `unexpected_token` (parse/mod.rs:1275): a literal text, or a list of tokens which
`fmt_expected` (parse/mod.rs:1343-1357) or `format!("'{}'", t)` (parse/mod.rs:1141) turns into a text. It is
turned into a text in Model/Message.lean. -/
inductive Expect where
  | text (s : Bytes)
  | oneOf (ts : List Expected)
  deriving DecidableEq, Repr

end Parse
end Verif
