import Verif.Spec.Tokens
/-!
Which source text stands for which token, written from the protobuf language specification
(https://protobuf.dev/reference/protobuf/textformat-spec/ and proto2-spec, "Lexical elements") without the lexer.
-/
namespace Verif

/-- A letter or underscore followed by letters, digits and underscores. -/
def IsIdent (s : Bytes) : Prop :=
  ∃ b r, s = b :: r ∧ (isAlpha b = true ∨ b = 95) ∧ ∀ c ∈ r, isAlnum c = true ∨ c = 95

namespace Spec

/-- The number a digit character stands for, in any base up to sixteen. -/
def digitOf (b : UInt8) : Option Nat :=
  if 48 ≤ b ∧ b ≤ 57 then some (b.toNat - 48)
  else if 97 ≤ b ∧ b ≤ 102 then some (b.toNat - 97 + 10)
  else if 65 ≤ b ∧ b ≤ 70 then some (b.toNat - 65 + 10)
  else none

/-- `ds` is the number `n` written in base `r` (leading zeros allowed, at least one digit). -/
inductive Numeral (r : Nat) : Bytes → Nat → Prop
  | one {b d} : digitOf b = some d → d < r → Numeral r [b] d
  | snoc {ds n b d} : Numeral r ds n → digitOf b = some d → d < r → Numeral r (ds ++ [b]) (r * n + d)

/-- An integer literal: decimal without leading zero, octal with a leading `0`, or hexadecimal after `0x`. -/
inductive IntLiteral : Bytes → Nat → Prop
  | zero : IntLiteral [48] 0
  | decimal {ds n} : Numeral 10 ds n → ds.head? ≠ some 48 → IntLiteral ds n
  | octal {ds n} : Numeral 8 ds n → IntLiteral (48 :: ds) n
  | hex {x ds n} : (x = 120 ∨ x = 88) → Numeral 16 ds n → IntLiteral (48 :: x :: ds) n

/-- Only decimal digits (perhaps none). -/
def Digits (s : Bytes) : Prop := ∀ b ∈ s, 48 ≤ b ∧ b ≤ 57

/-- `e` or `E`, an optional sign, at least one digit. -/
def Exponent (s : Bytes) : Prop :=
  ∃ e ds, (e = 101 ∨ e = 69) ∧ Digits ds ∧ ds ≠ [] ∧ (s = e :: ds ∨ s = e :: 43 :: ds ∨ s = e :: 45 :: ds)

/-- The text of a floating point literal without suffix: `1.`, `1.5`, `.5`, `1e3`, `1.5e-3`, ... -/
def FloatText (s : Bytes) : Prop :=
  ∃ a b e, Digits a ∧ Digits b ∧ (e = [] ∨ Exponent e) ∧
    ((s = a ++ 46 :: b ++ e ∧ (a ≠ [] ∨ b ≠ [])) ∨ (s = a ++ e ∧ a ≠ [] ∧ e ≠ []))

/-- The two quotes. -/
def isQuote (b : UInt8) : Prop := b = 34 ∨ b = 39

/-- The single-character escapes: the character after the backslash and the byte it stands for. -/
def simpleEscapes : List (UInt8 × UInt8) :=
  [(97, 7), (98, 8), (102, 12), (110, 10), (114, 13), (116, 9), (118, 11), (63, 63), (92, 92), (39, 39), (34, 34)]

/-- The text does not go on with a digit of base `r`. -/
def NoDigit (r : Nat) : Bytes → Prop
  | b :: _ => ∀ d, digitOf b = some d → ¬ d < r
  | [] => True

/-- `StrBody q text value`: `text`, the text between two quotes `q`, stands for the bytes `value`. -/
inductive StrBody (q : UInt8) : Bytes → Bytes → Prop
  | nil : StrBody q [] []
  /-- An ordinary byte stands for itself. -/
  | raw {b r v} : b ≠ 0 → b ≠ 10 → b ≠ 92 → ¬ isQuote b → StrBody q r v → StrBody q (b :: r) (b :: v)
  /-- The other quote stands for itself. -/
  | quote {b r v} : isQuote b → b ≠ q → StrBody q r v → StrBody q (b :: r) (b :: v)
  /-- `\n` and the like. -/
  | simple {c b r v} : (c, b) ∈ simpleEscapes → StrBody q r v → StrBody q (92 :: c :: r) (b :: v)
  /-- `\xH` or `\xHH`: as many digits as there are, at most two. -/
  | hex {x ds n r v} : (x = 120 ∨ x = 88) → Numeral 16 ds n → (ds.length = 2 ∨ ds.length = 1 ∧ NoDigit 16 r) →
      StrBody q r v → StrBody q (92 :: x :: ds ++ r) (UInt8.ofNat n :: v)
  /-- `\O`, `\OO` or `\OOO`: as many digits as there are, at most three; at most `\377`. -/
  | oct {ds n r v} : Numeral 8 ds n → (ds.length = 3 ∨ ds.length ≤ 2 ∧ NoDigit 8 r) → n < 256 →
      StrBody q r v → StrBody q (92 :: ds ++ r) (UInt8.ofNat n :: v)
  /-- `\uHHHH`: the UTF-8 encoding of a character. -/
  | unicode4 {ds} {c : Char} {r v} : Numeral 16 ds c.toNat → ds.length = 4 →
      StrBody q r v → StrBody q (92 :: 117 :: ds ++ r) (String.utf8EncodeChar c ++ v)
  /-- `\UHHHHHHHH`: the UTF-8 encoding of a character. -/
  | unicode8 {ds} {c : Char} {r v} : Numeral 16 ds c.toNat → ds.length = 8 →
      StrBody q r v → StrBody q (92 :: 85 :: ds ++ r) (String.utf8EncodeChar c ++ v)

/-- `\r\n` becomes `\n`; everything else stays. -/
inductive Crlf : Bytes → Bytes → Prop
  | nil : Crlf [] []
  | crlf {r t} : Crlf r t → Crlf (13 :: 10 :: r) (10 :: t)
  | same {b r t} : ¬ (b = 13 ∧ r.head? = some 10) → Crlf r t → Crlf (b :: r) (b :: t)

/-- One line, with its newline or (at the end of the file) without. -/
def IsLine (s : Bytes) : Prop := ∃ l, 10 ∉ l ∧ (s = l ∨ s = l ++ [10])

/-- The characters with the Unicode property White_Space, in UTF-8. -/
def whiteSpace : List Bytes :=
  [9, 10, 11, 12, 13, 32, 0x85, 0xA0, 0x1680, 0x2000, 0x2001, 0x2002, 0x2003, 0x2004, 0x2005, 0x2006, 0x2007,
   0x2008, 0x2009, 0x200A, 0x2028, 0x2029, 0x202F, 0x205F, 0x3000].map
    fun n => String.utf8EncodeChar (Char.ofNat n)

/-- `s` is made of white space, and `r` does not go on with white space. -/
def Indent (s r : Bytes) : Prop :=
  (∃ ws : List Bytes, s = ws.flatten ∧ ∀ w ∈ ws, w ∈ whiteSpace) ∧ ∀ w ∈ whiteSpace, ¬ w <+: r

/-- The text of a block comment: after a newline the indentation is dropped, and one `*`. (The indentation may itself
contain newlines: blank lines are dropped with it.) -/
inductive BlockText : Bytes → Bytes → Prop
  | nil : BlockText [] []
  | char {b r t} : b ≠ 10 → BlockText r t → BlockText (b :: r) (b :: t)
  | line {s r t} : Indent s r → r.head? ≠ some 42 → BlockText r t → BlockText (10 :: s ++ r) (10 :: t)
  | starLine {s r t} : Indent s (42 :: r) → BlockText r t → BlockText (10 :: s ++ 42 :: r) (10 :: t)

/-- Spaces, tabs, vertical tabs, form feeds and carriage returns. -/
def Blank (s : Bytes) : Prop := ∀ b ∈ s, b = 9 ∨ b = 11 ∨ b = 12 ∨ b = 13 ∨ b = 32

/-- `Lexeme tf text token`: the text stands for the token; `tf` allows the forms of the text format: comments after
`#` and the float suffix `f`. -/
inductive Lexeme (tf : Bool) : Bytes → Token → Prop
  | ident {s} : IsIdent s → Lexeme tf s (.ident s)
  | int {s n} : IntLiteral s n → n < 2 ^ 64 → Lexeme tf s (.int n)
  /-- Not in the language specification: `08...` and `09...` are read as zero. -/
  | malformedOctal {d ds} : (d = 56 ∨ d = 57) → Digits ds → Lexeme tf (48 :: d :: ds) (.int 0)
  | float {s} : FloatText s → Lexeme tf s (.float s)
  | floatSuffix {s f} : tf = true → FloatText s → (f = 102 ∨ f = 70) → Lexeme tf (s ++ [f]) (.float s)
  | intSuffix {ds f} : tf = true → Digits ds → (ds = [48] ∨ ds.head? ≠ some 48) → ds ≠ [] → (f = 102 ∨ f = 70) →
      Lexeme tf (ds ++ [f]) (.float ds)
  | string {q body v} : isQuote q → StrBody q body v → Lexeme tf (q :: body ++ [q]) (.string v)
  | dot : Lexeme tf b!"." .dot
  | minus : Lexeme tf b!"-" .minus
  | plus : Lexeme tf b!"+" .plus
  | leftParen : Lexeme tf b!"(" .leftParen
  | rightParen : Lexeme tf b!")" .rightParen
  | leftBrace : Lexeme tf b!"{" .leftBrace
  | rightBrace : Lexeme tf b!"}" .rightBrace
  | leftBracket : Lexeme tf b!"[" .leftBracket
  | rightBracket : Lexeme tf b!"]" .rightBracket
  | leftAngle : Lexeme tf b!"<" .leftAngle
  | rightAngle : Lexeme tf b!">" .rightAngle
  | comma : Lexeme tf b!"," .comma
  | equals : Lexeme tf b!"=" .equals
  | colon : Lexeme tf b!":" .colon
  | semicolon : Lexeme tf b!";" .semicolon
  | slash : Lexeme tf b!"/" .slash
  | newline : Lexeme tf [10] .newline
  | lineComment {s t} : IsLine s → Crlf s t → Lexeme tf (47 :: 47 :: s) (.lineComment t)
  | hashComment {s t} : tf = true → IsLine s → Crlf s t → Lexeme tf (35 :: s) (.lineComment t)
  /-- A block comment ends at the first `*/`, contains no `/*`, and takes the blanks after it along. -/
  | blockComment {s w t u} : ¬ [42, 47] <:+: s → ¬ [47, 42] <:+: s ++ [42] → BlockText s t → Crlf t u → Blank w →
      Lexeme tf (47 :: 42 :: s ++ 42 :: 47 :: w) (.blockComment u)

/-- The token `t` written as `text` ends where `r` begins: a word or number does not go on with a letter, digit or
underscore (a number also not with a dot), `.` not with a digit, `/` not with a second `/` or a `*`, a line comment
goes to the end of its line, a block comment takes all blanks after it along. -/
def Ends (text : Bytes) (t : Token) (r : Bytes) : Prop :=
  match t with
  | .ident _ => ∀ b, r.head? = some b → isAlnum b = false ∧ b ≠ 95
  | .int _ | .float _ => ∀ b, r.head? = some b → isAlnum b = false ∧ b ≠ 95 ∧ b ≠ 46
  | .dot => ∀ b, r.head? = some b → isDigit b = false
  | .slash => ∀ b, r.head? = some b → b ≠ 47 ∧ b ≠ 42
  | .lineComment _ => text.getLast? = some 10 ∨ r = []
  | .blockComment _ => ∀ b, r.head? = some b → ¬ Blank [b]
  | _ => True

/-- A token as it is printed: floating point literals in their printed form. -/
def reprint [FloatFmt] : Token → Token
  | .float t => .float (FloatFmt.display (.lit false t))
  | t => t

/-- A token can be printed: floating point literals are printed as such. -/
def Printable [FloatFmt] : Token → Prop
  | .float t => FloatText (FloatFmt.display (.lit false t))
  | _ => True

/-- The part of the source in a span. -/
def textOf (src : Bytes) (sp : Span) : Bytes := (src.drop sp.start).take (sp.stop - sp.start)

end Spec
end Verif
