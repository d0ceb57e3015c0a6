import Verif.Spec.Explains
import Verif.Spec.Lexeme
import Verif.Spec.Text
import Verif.Spec.Expect
/-!
What is said about a source that is not read: message, help and places of each diagnostic, with what is written at these
places.
-/
namespace Verif.Spec

/-- The text has the form of an escape sequence: `\n`, `\x41`, `\101`, `\u0041`, `\U00000041`, as many digits as there are. -/
inductive EscapeForm : Bytes → Prop where
  | simple {c b r} : (c, b) ∈ simpleEscapes → EscapeForm (92 :: c :: r)
  | hex {x b r} : (x = 120 ∨ x = 88) → digitOf b ≠ none → EscapeForm (92 :: x :: b :: r)
  | oct {b d r} : digitOf b = some d → d < 8 → EscapeForm (92 :: b :: r)
  | unicode4 {ds n r} : Numeral 16 ds n → ds.length = 4 → EscapeForm (92 :: 117 :: ds ++ r)
  | unicode8 {ds n r} : Numeral 16 ds n → ds.length = 8 → EscapeForm (92 :: 85 :: ds ++ r)

/-- `BadPiece s text`: the source goes on with `s`, and `text`, its beginning, stands for nothing in a string. (`cs` are
continuation bytes without a character; there are none in UTF-8.) -/
inductive BadPiece : Bytes → Bytes → Prop where
  /-- A zero byte. -/
  | nul {cs r} : (∀ c ∈ cs, isCont c = true) → BadPiece (0 :: cs ++ r) (0 :: cs)
  /-- A backslash without an escape sequence. -/
  | backslash {cs r} : (∀ c ∈ cs, isCont c = true) → ¬ EscapeForm (92 :: cs ++ r) → BadPiece (92 :: cs ++ r) (92 :: cs)
  /-- An octal escape above 255. -/
  | octal {ds n r} : Numeral 8 ds n → ds.length = 3 → 256 ≤ n → BadPiece (92 :: ds ++ r) (92 :: ds)
  /-- A code point that is no character. -/
  | unicode {u ds n r} : (u = 117 ∧ ds.length = 4 ∨ u = 85 ∧ ds.length = 8) → Numeral 16 ds n → ¬ Scalar n →
      BadPiece (92 :: u :: ds ++ r) (92 :: u :: ds)

/-- From `a` to `b` there are only bad pieces. -/
inductive BadRun (src : Bytes) : Nat → Nat → Prop where
  | one {a text} : BadPiece (src.drop a) text → BadRun src a (a + text.length)
  | more {a b text} : BadRun src a b → BadPiece (src.drop b) text → BadRun src a (b + text.length)

/-- The bases of integer literals and what they begin with. -/
inductive IntBase : Nat → Bytes → Prop where
  | decimal : IntBase 10 []
  | octal : IntBase 8 [48]
  | hex {x} : (x = 120 ∨ x = 88) → IntBase 16 [48, x]

/-- `LexFault src (t, sp) shown`: what is said about the token `t` of the source (`none`: no token) at `sp`. -/
inductive LexFault (src : Bytes) : Option Token × Span → Shown → Prop where
  /-- No token begins here. -/
  | invalidToken {sp} : (∀ tf text t, Lexeme tf text t → ¬ text <+: src.drop sp.start) → 
      LexFault src (none, sp) ⟨b!"invalid token", none, [sp]⟩
  /-- A number that does not fit into 64 bits. -/
  | tooLarge {v sp base p ds n} : IntBase base p → Numeral base ds n → 2 ^ 64 ≤ n → textOf src sp = p ++ ds →
      LexFault src (some (.int v), sp) ⟨b!"integer is too large", none, [⟨sp.start + p.length, sp.stop⟩]⟩
  /-- `08` and `09` in an octal number (not a matter of size: see the findings). -/
  | notOctal {v sp ds} : Digits ds → (∃ b ∈ ds, 55 < b) → textOf src sp = 48 :: ds →
      LexFault src (some (.int v), sp) ⟨b!"integer is too large", none, [⟨sp.start + 1, sp.stop⟩]⟩
  /-- A letter after a number. -/
  | noSpace {v sp base p ds c w stop} : IntBase base p → (∀ b ∈ ds, digitOf b ≠ none) → textOf src sp = p ++ ds →
      (isAlpha c = true ∨ c = 95) → (∀ b ∈ w, isAlpha b = true) → textOf src ⟨sp.stop, stop⟩ = c :: w →
      (∀ b, (src.drop stop).head? = some b → isAlpha b = false) →
      LexFault src (some (.int v), sp) ⟨b!"whitespace is required between an integer literal and an identifier", none,
        [⟨sp.start + p.length, stop⟩]⟩
  /-- The suffix `f`. -/
  | floatSuffix {t sp f} : (f = 102 ∨ f = 70) → textOf src sp = t ++ [f] →
      LexFault src (some (.float t), sp) ⟨b!"'f' suffix for float literals is not allowed", none, [sp]⟩
  /-- A comment that begins with `#`. -/
  | hash {v sp l} : textOf src sp = 35 :: l → IsLine l →
      LexFault src (some (.lineComment v), sp) ⟨b!"'#' comments are not allowed here", none, [sp]⟩
  /-- Something that stands for nothing in a string. -/
  | badCharacter {v sp a b} : sp.start < a → b ≤ sp.stop → BadRun src a b → (src.drop a).head? = some 0 →
      LexFault src (some (.string v), sp) ⟨b!"invalid string character", none, [⟨a, b⟩]⟩
  | badEscape {v sp a b} : sp.start < a → b ≤ sp.stop → BadRun src a b → (src.drop a).head? = some 92 →
      LexFault src (some (.string v), sp) ⟨b!"invalid string escape", none, [⟨a, b⟩]⟩
  /-- A string that is not closed before the end of its line: the place is the end of the line. -/
  | unterminated {v sp a cs} : sp.start < a → 10 ∉ textOf src ⟨sp.start, a⟩ → textOf src ⟨a, sp.stop⟩ = 10 :: cs →
      (∀ c ∈ cs, isCont c = true) →
      LexFault src (some (.string v), sp) ⟨b!"unterminated string", none, [⟨a, sp.stop⟩]⟩
  /-- A string on the last line that is not closed. -/
  | openString {v sp} : sp.stop = src.length → 10 ∉ textOf src sp →
      LexFault src (some (.string v), sp) ⟨b!"expected string terminator, but reached end of file", none, []⟩
  /-- A `/*` in a comment. -/
  | nested {v sp a} : sp.start + 2 ≤ a → textOf src ⟨a, a + 2⟩ = b!"/*" →
      LexFault src (some (.blockComment v), sp) ⟨b!"nested block comments are not supported", none, [⟨a, a + 2⟩]⟩
  /-- A comment without an end: each `*/` after its beginning is part of a `/*/` (which opens a comment in it). -/
  | openComment {v sp} : sp.stop = src.length → (b!"*/" <:+: src.drop (sp.start + 2) → b!"/*/" <:+: src.drop (sp.start + 2)) →
      LexFault src (some (.blockComment v), sp) ⟨b!"expected comment terminator, but reached end of file", none, []⟩

/-- String literals in a row are one string: its value, and the place from the first to the last. -/
inductive Strings : List (Option STok) → Bytes → Span → Prop where
  | one {v sp} : Strings [some (.string v, sp)] v sp
  | more {l v sp w sp'} : Strings l v sp → Strings (l ++ [some (.string w, sp')]) (v ++ w) ⟨sp.start, sp'.stop⟩

/-- `before` and `after` are the tokens around the string. -/
structure StringAt (src : Bytes) (before after : List (Option STok)) (v : Bytes) (sp : Span) : Prop where
  tokens : ∃ l, sigToks 0 src = before ++ l ++ after ∧ Strings l v sp
  /-- The string is not continued. -/
  whole : ∀ w sp', after.head? ≠ some (some (.string w, sp'))

/-- A package declaration: its tokens and its place. -/
def PackageAt (l : List (Option STok)) (sp : Span) : Prop :=
  ∃ s1 name s2, l = some (.ident b!"package", s1) :: name ++ [some (.semicolon, s2)] ∧ sp = ⟨s1.start, s2.stop⟩ ∧
    ∀ x ∈ name, ∃ t s, x = some (t, s) ∧ (t = .dot ∨ ∃ w, t = .ident w)

/-- The part of a path between two slashes, or before the first, or after the last. -/
def PathPart (path c : Bytes) : Prop :=
  ∃ a b, path = a ++ c ++ b ∧ 47 ∉ c ∧ (a = [] ∨ a.getLast? = some 47) ∧ (b = [] ∨ b.head? = some 47)

/-- `GramFault src shown`: what is said about the tokens of the source. -/
inductive GramFault [FloatFmt] (src : Bytes) : Shown → Prop where
  /-- A token that does not fit. What else is expected: see C63 and C64. -/
  | token {expected t sp} : some (t, sp) ∈ sigToks 0 src →
      GramFault src ⟨b!"expected " ++ expected ++ b!", but found '" ++ t.display ++ b!"'", none, [sp]⟩
  /-- The end of the file. (For the end of a string or comment see `LexFault`.) -/
  | eof {expected} : expected ≠ b!"string terminator" → expected ≠ b!"comment terminator" →
      GramFault src ⟨b!"expected " ++ expected ++ b!", but reached end of file", none, []⟩
  /-- A string with bytes that are no text, where a text is needed. -/
  | utf8 {before after v sp} : StringAt src before after v sp → utf8Valid v = false →
      GramFault src ⟨b!"string is not valid utf-8", none, [sp]⟩
  /-- `syntax = "proto4"`. -/
  | unknownSyntax {s1 s2 after v sp} : StringAt src [some (.ident b!"syntax", s1), some (.equals, s2)] after v sp →
      v ≠ b!"proto2" → v ≠ b!"proto3" →
      GramFault src ⟨b!"unknown syntax '" ++ v ++ b!"'", some b!"possible values are 'proto2' and 'proto3'", [sp]⟩
  /-- `reserved "1"`. (Names that begin with an underscore are rejected too: see the findings.) -/
  | identifier {before after v sp} : StringAt src before after v sp →
      (¬ ∃ b r, v = b :: r ∧ isAlpha b = true ∧ ∀ c ∈ r, isAlnum c = true ∨ c = 95) →
      GramFault src ⟨b!"invalid identifier",
        some b!"identifiers must consist of letters, numbers and underscores, and may not start with a number", [sp]⟩
  /-- `group g = 1 {}`. -/
  | groupName {before after s1 w sp} :
      sigToks 0 src = before ++ some (.ident b!"group", s1) :: some (.ident w, sp) :: after →
      (¬ ∃ b r, w = b :: r ∧ isUpper b = true ∧ ∀ c ∈ r, isAlnum c = true ∨ c = 95) →
      GramFault src ⟨b!"invalid group name",
        some b!"group names must consist of a capital letter followed by letters, numbers and underscores", [sp]⟩
  /-- `import "a/../b.proto"`: there is an empty part, a `.`, a `..` or a part with a backslash. (The message is that for
  groups: see the findings.) -/
  | importPath {before after s1 kind v sp c} : (kind = [] ∨ ∃ k s2, kind = [some (.ident k, s2)] ∧ (k = b!"weak" ∨ k = b!"public")) →
      StringAt src (before ++ some (.ident b!"import", s1) :: kind) after v sp →
      PathPart v c → (c = [] ∨ c = b!"." ∨ c = b!".." ∨ 92 ∈ c) →
      GramFault src ⟨b!"invalid group name",
        some b!"imports may not contain backslashes, repeated forward slashes, '.' or '..' components", [sp]⟩
  /-- A second package declaration. -/
  | package {before p1 between p2 after sp1 sp2} : sigToks 0 src = before ++ p1 ++ between ++ p2 ++ after → 
      PackageAt p1 sp1 → PackageAt p2 sp2 →
      GramFault src ⟨b!"multiple package names specified", none, [sp1, sp2]⟩

/-- What is said about a source that is not read, at all. -/
inductive Fault [FloatFmt] (src : Bytes) (t : Shown) : Prop where
  | lex {x} : x ∈ rawToks 0 src → LexFault src x t → Fault src t
  | gram : GramFault src t → Fault src t
  | large : 2147483647 < src.length → t = ⟨b!"file is too large", some b!"the maximum file length is 2,147,483,647 bytes", []⟩ →
      Fault src t

end Verif.Spec
