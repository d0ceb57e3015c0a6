import Verif.Model.Error
import Verif.Model.AstFns
/-!
The lexer: protox-parse/src/lex/mod.rs.

`#[derive(Logos)]` generates a longest-match automaton from the regular expressions in the attributes; the
generated code is not in the repository.  `lexToken` below states what it matches.  Assumptions on logos 0.15
(see DESIGN.md): longest match; input that matches nothing gives an error token of one byte extended to the
next character boundary; a digit run starting with `0` that is no octal literal and no float is one token (the
repository's test `prop_regression_1`, lex/tests.rs:556-562, shows this for `08`).
A source is the list of its bytes (valid UTF-8 in Rust).
-/
namespace Verif

namespace Lex

/-- The skipped class `[\t\v\f\r ]` (lex/mod.rs:12). -/
def isSkip (b : UInt8) : Bool := b == 9 || b == 11 || b == 12 || b == 13 || b == 32

/-- `[A-Za-z_]` (lex/mod.rs:15). -/
def isIdentStart (b : UInt8) : Bool := isAlpha b || b == 95
/-- `[A-Za-z0-9_]` (lex/mod.rs:15). -/
def isIdentCont (b : UInt8) : Bool := isAlnum b || b == 95

/-- Does the input start with a byte of the class? -/
def startsWith (p : UInt8 → Bool) : Bytes → Bool
  | b :: _ => p b
  | [] => false

/-- Value of a digit in any radix up to 16 (std `char::to_digit`). -/
def digitVal (b : UInt8) : Nat :=
  if b ≤ 57 then b.toNat - 48 else if b ≤ 70 then b.toNat - 55 else b.toNat - 87

/-- Positional value of a digit string. -/
def digitsVal (radix : Nat) (ds : Bytes) : Nat := ds.foldl (fun n b => n * radix + digitVal b) 0

/-- `u64::from_str_radix` (std) on a non-empty string of hex digits: `none` if a digit is not below the
radix or if the value does not fit. -/
def fromStrRadix (radix : Nat) (ds : Bytes) : Option Nat :=
  if ds.all (fun b => digitVal b < radix) then
    if digitsVal radix ds < 18446744073709551616 then some (digitsVal radix ds) else none
  else none

/-- A letter directly after an integer is an error (lex/mod.rs:176-186). -/
def noSpace (span : Span) (rest : Bytes) (errs : List ParseErrorKind) : List ParseErrorKind :=
  match rest with
  | ch :: r =>
    if isAlpha ch || ch == 95 then
      errs ++ [.noSpaceBetweenIntAndIdent ⟨span.start, span.stop + 1 + (r.takeWhile isAlpha).length⟩]
    else errs
  | [] => errs

/-- The callback `int` (lex/mod.rs:172-198) for a slice of `len` bytes at `pos` with the digits `ds`
(`prefixLen` bytes stripped) and `rest` after the slice. `debug_assert`s are not modelled: the slice is
longer than the prefix, and a bad digit is only possible for the malformed octals described above. -/
def int (radix prefixLen pos len : Nat) (ds rest : Bytes) (errs : List ParseErrorKind) :
    Nat × List ParseErrorKind :=
  let span : Span := ⟨pos + prefixLen, pos + len⟩
  let errs := noSpace span rest errs
  match fromStrRadix radix ds with
  | some v => (v, errs)
  | none => (0, errs ++ [.integerOutOfRange span])

/-- Length of the longest match of `(?&exponent)` = `[eE][+\-]?[0-9]+` (lex/mod.rs:13), 0 if none. -/
def exponentLen : Bytes → Nat
  | e :: r =>
    if e == 101 || e == 69 then
      match r with
      | s :: r' =>
        if s == 43 || s == 45 then
          (if (r'.takeWhile isDigit).length = 0 then 0 else 2 + (r'.takeWhile isDigit).length)
        else
          (if (r.takeWhile isDigit).length = 0 then 0 else 1 + (r.takeWhile isDigit).length)
      | [] => 0
    else 0
  | [] => 0

/-- Length of `[fF]?`. -/
def suffixLen : Bytes → Nat
  | b :: _ => if b == 102 || b == 70 then 1 else 0
  | [] => 0

/-- The callback `float` (lex/mod.rs:200-216) for the slice of `n` bytes of `s` (`n` includes the suffix). -/
def float (tf : Bool) (pos n : Nat) (hasSuffix : Bool) (s : Bytes) (errs : List ParseErrorKind) :
    Token × Nat × List ParseErrorKind :=
  if hasSuffix then
    (.float (s.take (n - 1)), n,
      if tf then errs else errs ++ [.floatSuffixOutsideTextFormat ⟨pos, pos + n⟩])
  else (.float (s.take n), n, errs)

/-- The number tokens (lex/mod.rs:17-27) on input `s` starting with a digit. -/
def number (tf : Bool) (pos : Nat) (s : Bytes) (errs : List ParseErrorKind) :
    Token × Nat × List ParseErrorKind :=
  let ds := s.takeWhile isDigit
  let r := s.dropWhile isDigit
  match r with
  | 46 :: r1 =>
    -- `[0-9]+\.[0-9]*(?&exponent)?[fF]?`
    let fr := r1.takeWhile isDigit
    let r2 := r1.dropWhile isDigit
    let el := exponentLen r2
    let sl := suffixLen (r2.drop el)
    float tf pos (ds.length + 1 + fr.length + el + sl) (sl == 1) s errs
  | _ =>
    let el := exponentLen r
    if el ≠ 0 then
      -- `[0-9]+(?&exponent)[fF]?`
      let sl := suffixLen (r.drop el)
      float tf pos (ds.length + el + sl) (sl == 1) s errs
    else if ds = [48] then
      match r with
      | x :: r1 =>
        let hs := r1.takeWhile isHexDigit
        if (x == 120 || x == 88) && hs.length ≠ 0 then
          -- `0[xX][0-9A-Fa-f]+`
          let n := 2 + hs.length
          let (v, errs) := int 16 2 pos n hs (r1.dropWhile isHexDigit) errs
          (.int v, n, errs)
        else if suffixLen r = 1 then
          -- `0[fF]`
          float tf pos 2 true s errs
        else (.int 0, 1, errs)
      | [] => (.int 0, 1, errs)
    else match ds with
    | 48 :: d2 :: ds' =>
      -- `0[0-7]+`; a run `0[89]..` is the token of the regex `0`
      if isOctDigit d2 then
        let (v, errs) := int 8 1 pos ds.length (d2 :: ds') r errs
        (.int v, ds.length, errs)
      else (.int 0, ds.length, errs)
    | _ =>
      if suffixLen r = 1 then
        -- `[1-9][0-9]*[fF]`
        float tf pos (ds.length + 1) true s errs
      else
        -- `[1-9][0-9]*`
        let (v, errs) := int 10 0 pos ds.length ds r errs
        (.int v, ds.length, errs)

/-- The pieces of a string literal, `string::Component` (lex/mod.rs:219-236) with their values. -/
inductive Comp where
  | unescaped (s : Bytes)
  | terminator (b : UInt8)
  | byte (b : UInt8)
  | char (c : Nat)
  | error
  deriving DecidableEq, Repr

/-- Bytes of `[^\x00\n\\'"]` (lex/mod.rs:222). -/
def isPlain (b : UInt8) : Bool := !(b == 0 || b == 10 || b == 92 || b == 39 || b == 34)

/-- `char_escape` (lex/mod.rs:257-272), `none` outside `[abfnrtv?\\'"]`. -/
def charEscape (b : UInt8) : Option UInt8 :=
  if b == 97 then some 7
  else if b == 98 then some 8
  else if b == 102 then some 12
  else if b == 110 then some 10
  else if b == 114 then some 13
  else if b == 116 then some 9
  else if b == 118 then some 11
  else if b == 63 then some 63
  else if b == 92 then some 92
  else if b == 39 then some 39
  else if b == 34 then some 34
  else none

/-- Length of the character starting an unmatched input: one byte, extended to the next character boundary. -/
def errLen : Bytes → Nat
  | _ :: r => 1 + (r.takeWhile isCont).length
  | [] => 0

/-- `unicode_escape` (lex/mod.rs:274-277) on `n` hex digits. -/
def unicodeEscape (ds : Bytes) : Comp :=
  if isScalar (digitsVal 16 ds) then .char (digitsVal 16 ds) else .error

/-- One step of the string automaton on a non-empty input: the piece and its length (lex/mod.rs:219-277). -/
def strComp (s : Bytes) : Comp × Nat :=
  match s with
  | [] => (.error, 0)
  | b :: r =>
    if b == 39 || b == 34 then (.terminator b, 1)
    else if b == 92 then
      match r with
      | [] => (.error, 1)
      | c :: r' =>
        if (c == 120 || c == 88) && startsWith isHexDigit r' then
          -- `\\[xX](?&hex)(?&hex)?`, `hex_escape` (lex/mod.rs:243-248)
          let hs := (r'.take 2).takeWhile isHexDigit
          (.byte (UInt8.ofNat (digitsVal 16 hs)), 2 + hs.length)
        else if isOctDigit c then
          -- `\\[0-7][0-7]?[0-7]?`, `oct_escape` (lex/mod.rs:250-255)
          let os := (r.take 3).takeWhile isOctDigit
          (if digitsVal 8 os < 256 then .byte (UInt8.ofNat (digitsVal 8 os)) else .error, 1 + os.length)
        else if c == 117 && (r'.take 4).length = 4 && (r'.take 4).all isHexDigit then
          (unicodeEscape (r'.take 4), 6)
        else if c == 85 && (r'.take 8).length = 8 && (r'.take 8).all isHexDigit then
          (unicodeEscape (r'.take 8), 10)
        else match charEscape c with
          | some v => (.byte v, 2)
          | none => (.error, errLen s)
    else if isPlain b then
      (.unescaped (s.takeWhile isPlain), (s.takeWhile isPlain).length)
    else (.error, errLen s)

/-- The error branch of `string` (lex/mod.rs:301-337) for the unmatched slice at `start..end`; the
newline case is in `strLoop`. -/
def strError (sl : Bytes) (span : Span) (errs : List ParseErrorKind) : List ParseErrorKind :=
  let fresh : List ParseErrorKind :=
    if sl.head? = some 92 then errs ++ [.invalidStringEscape span]
    else errs ++ [.invalidStringCharacters span]
  match errs.getLast? with
  | some (.invalidStringCharacters e) =>
    if e.stop = span.start then errs.dropLast ++ [.invalidStringCharacters ⟨e.start, span.stop⟩] else fresh
  | some (.invalidStringEscape e) =>
    if e.stop = span.start then errs.dropLast ++ [.invalidStringEscape ⟨e.start, span.stop⟩] else fresh
  | _ => fresh

/-- The loop of the callback `string` (lex/mod.rs:279-347): `pos` is the position of `s`, `n` the number of
bytes consumed after the opening quote. Returns the value, the consumed length and the errors.  The fuel is
the number of remaining bytes plus one. -/
def strLoop (term : UInt8) : Nat → Nat → Bytes → Nat → Bytes → List ParseErrorKind →
    Bytes × Nat × List ParseErrorKind
  | 0, _, _, n, acc, errs => (acc, n, errs)
  | fuel + 1, pos, s, n, acc, errs =>
    match s with
    | [] => (acc, n, errs ++ [.unexpectedEof (.text b!"string terminator")])
    | _ :: _ =>
      match strComp s with
      | (.unescaped t, len) => strLoop term fuel (pos + len) (s.drop len) (n + len) (acc ++ t) errs
      | (.terminator t, len) =>
        if t = term then (acc, n + len, errs)
        else strLoop term fuel (pos + len) (s.drop len) (n + len) (acc ++ [t]) errs
      | (.byte b, len) => strLoop term fuel (pos + len) (s.drop len) (n + len) (acc ++ [b]) errs
      | (.char c, len) => strLoop term fuel (pos + len) (s.drop len) (n + len) (acc ++ utf8Encode c) errs
      | (.error, len) =>
        let span : Span := ⟨pos, pos + len⟩
        if (s.take len).contains 10 then (acc, n + len, errs ++ [.unterminatedString span])
        else strLoop term fuel (pos + len) (s.drop len) (n + len) acc (strError (s.take len) span errs)

/-- `normalize_newlines` (lex/mod.rs:440-446). -/
def normalizeNewlines : Bytes → Bytes
  | 13 :: 10 :: r => 10 :: normalizeNewlines r
  | b :: r => b :: normalizeNewlines r
  | [] => []

/-- `str::trim_start` (std): drops leading characters with the Unicode property White_Space. -/
def trimStart : Bytes → Bytes
  | [] => []
  | b :: r =>
    if (9 ≤ b && b ≤ 13) || b == 32 then trimStart r
    else match b, r with
    | 0xC2, c :: r' => if c == 0x85 || c == 0xA0 then trimStart r' else b :: r
    | 0xE1, 0x9A :: 0x80 :: r' => trimStart r'
    | 0xE2, 0x80 :: c :: r' =>
      if (0x80 ≤ c && c ≤ 0x8A) || c == 0xA8 || c == 0xA9 || c == 0xAF then trimStart r' else b :: r
    | 0xE2, 0x81 :: 0x9F :: r' => trimStart r'
    | 0xE3, 0x80 :: 0x80 :: r' => trimStart r'
    | _, _ => b :: r

/-- The leading `*` of a comment line is dropped (lex/mod.rs:403-405). -/
def skipStar (stripped : Bytes) : Bytes :=
  match stripped with
  | 42 :: 47 :: _ => stripped
  | 42 :: r' => r'
  | _ => stripped

/-- The loop of the callback `block_comment` (lex/mod.rs:376-422): `pos` is the position of `s`, `n` the
number of bytes consumed after `/*`, `total` the length of the remainder of the source. -/
def commentLoop : Nat → Nat → Bytes → Nat → Nat → Nat → Option Nat → Bytes → List ParseErrorKind →
    Bytes × Nat × List ParseErrorKind
  | 0, _, _, n, _, _, _, acc, errs => (acc, n, errs)
  | fuel + 1, pos, s, n, total, depth, lastEnd, acc, errs =>
    match s with
    | [] =>
      match lastEnd with
      | some e => (acc, e, errs)
      | none => (acc, total, errs ++ [.unexpectedEof (.text b!"comment terminator")])
    | 42 :: 47 :: r =>
      let len := 2 + (r.takeWhile isSkip).length
      if depth = 1 then (acc, n + len, errs)
      else commentLoop fuel (pos + len) (s.drop len) (n + len) total (depth - 1) (some (n + len)) acc errs
    | 47 :: 42 :: r =>
      commentLoop fuel (pos + 2) r (n + 2) total (depth + 1) lastEnd acc
        (errs ++ [.nestedBlockComment ⟨pos, pos + 2⟩])
    | 10 :: r =>
      let t := skipStar (trimStart r)
      let len := s.length - t.length
      commentLoop fuel (pos + len) t (n + len) total depth lastEnd (acc ++ [10]) errs
    | _ :: _ =>
      let len := errLen s
      commentLoop fuel (pos + len) (s.drop len) (n + len) total depth lastEnd (acc ++ s.take len) errs

/-- The single-character tokens (lex/mod.rs:30-61, 66-67). -/
def punct (b : UInt8) : Option Token :=
  if b == 46 then some .dot
  else if b == 45 then some .minus
  else if b == 43 then some .plus
  else if b == 40 then some .leftParen
  else if b == 41 then some .rightParen
  else if b == 123 then some .leftBrace
  else if b == 125 then some .rightBrace
  else if b == 91 then some .leftBracket
  else if b == 93 then some .rightBracket
  else if b == 60 then some .leftAngle
  else if b == 62 then some .rightAngle
  else if b == 44 then some .comma
  else if b == 61 then some .equals
  else if b == 58 then some .colon
  else if b == 59 then some .semicolon
  else if b == 47 then some .slash
  else if b == 10 then some .newline
  else none

/-- The callback `line_comment` (lex/mod.rs:350-363): `s` is the whole input, `pre` the length of `//` or
`#`. -/
def lineComment (tf : Bool) (pos pre : Nat) (hash : Bool) (s : Bytes) (errs : List ParseErrorKind) :
    Token × Nat × List ParseErrorKind :=
  let body := (s.drop pre).takeWhile (· != 10)
  let nl := match (s.drop pre).dropWhile (· != 10) with
    | _ :: _ => 1
    | [] => 0
  let n := pre + body.length + nl
  (.lineComment (normalizeNewlines ((s.drop pre).take (body.length + nl))), n,
    if !tf && hash then errs ++ [.hashCommentOutsideTextFormat ⟨pos, pos + n⟩] else errs)

/-- The callback `block_comment` (lex/mod.rs:365-424). -/
def blockComment (pos : Nat) (r : Bytes) (errs : List ParseErrorKind) : Token × Nat × List ParseErrorKind :=
  let p := commentLoop (r.length + 1) (pos + 2) r 0 r.length 1 none [] errs
  (.blockComment (normalizeNewlines p.1), 2 + p.2.1, p.2.2)

/-- The callback `string` (lex/mod.rs:218-348) after the opening quote `q`. -/
def string (pos : Nat) (q : UInt8) (r : Bytes) (errs : List ParseErrorKind) :
    Token × Nat × List ParseErrorKind :=
  let p := strLoop q (r.length + 1) (pos + 1) r 0 [] errs
  (.string p.1, 1 + p.2.1, p.2.2)

/-- `Token::lexer(..).next()` at a byte that is not skipped (lex/mod.rs:10-68): the token (`none`: no match),
the length of its slice and the errors. -/
def lexToken (tf : Bool) (pos : Nat) (s : Bytes) (errs : List ParseErrorKind) :
    Option Token × Nat × List ParseErrorKind :=
  match s with
  | [] => (none, 0, errs)
  | b :: r =>
    if isIdentStart b then
      let w := s.takeWhile isIdentCont
      (some (.ident w), w.length, errs)
    else if isDigit b then
      let (t, n, errs) := number tf pos s errs
      (some t, n, errs)
    else if b == 46 && startsWith isDigit r then
      -- `\.[0-9]+(?&exponent)?[fF]?`
      let fr := r.takeWhile isDigit
      let r2 := r.dropWhile isDigit
      let el := exponentLen r2
      let sl := suffixLen (r2.drop el)
      let (t, n, errs) := float tf pos (1 + fr.length + el + sl) (sl == 1) s errs
      (some t, n, errs)
    else if b == 39 || b == 34 then
      let (t, n, errs) := string pos b r errs
      (some t, n, errs)
    else if b == 35 then
      let (t, n, errs) := lineComment tf pos 1 true s errs
      (some t, n, errs)
    else if b == 47 && r.head? = some 47 then
      let (t, n, errs) := lineComment tf pos 2 false s errs
      (some t, n, errs)
    else if b == 47 && r.head? = some 42 then
      let (t, n, errs) := blockComment pos (r.drop 1) errs
      (some t, n, errs)
    else match punct b with
      | some t => (some t, 1, errs)
      | none => (none, errLen s, errs)

/-- The result of one call of `Lexer::next`. -/
inductive Res where
  | eof
  | tok (t : Token)
  | error
  deriving DecidableEq, Repr

/-- What `Lexer::next` leaves behind: its result, `lexer.span()`, the rest of the source, the errors. -/
structure Out where
  res : Res
  span : Span
  rest : Bytes
  errs : List ParseErrorKind
  deriving DecidableEq, Repr

/-- `Lexer::next` (logos) at position `pos` with `s` left: skips `[\t\v\f\r ]+` (lex/mod.rs:12) and reads one
token. -/
def next (tf : Bool) (pos : Nat) (s : Bytes) (errs : List ParseErrorKind) : Out :=
  let pos := pos + (s.takeWhile isSkip).length
  let s := s.dropWhile isSkip
  match s with
  | [] => ⟨.eof, ⟨pos, pos⟩, [], errs⟩
  | _ :: _ =>
    match lexToken tf pos s errs with
    | (some t, n, errs) => ⟨.tok t, ⟨pos, pos + n⟩, s.drop n, errs⟩
    | (none, n, errs) => ⟨.error, ⟨pos, pos + n⟩, s.drop n, errs⟩

end Lex

/-- Formatting of `f64` values, which is std code and not modelled: `{:.1}` if the fractional part is zero and
`{}` otherwise, as in `Display for Token` (lex/mod.rs:128-134), `Display for Float` (ast/mod.rs:610-618). -/
class FloatFmt where
  display : FloatVal → Bytes
  /-- `f64::to_string`, used for default values (generate/mod.rs:624-627). -/
  plain : FloatVal → Bytes
  /-- std prints infinities as `inf` and `-inf`, and every NaN as `NaN`. -/
  plain_inf : ∀ neg, plain (.inf neg) = if neg then b!"-inf" else b!"inf"
  plain_nan : ∀ neg, plain (.nan neg) = b!"NaN"

/-- Two lower-case hex digits (std). -/
def hex2 (b : UInt8) : Bytes :=
  let d (n : UInt8) : UInt8 := if n < 10 then 48 + n else 87 + n
  [d (b / 16), d (b % 16)]

/-- `ascii::escape_default` (std): `\t`, `\r`, `\n`, `\'`, `\"`, `\\`, printable ASCII as is, else `\xNN`. -/
def escapeDefault (b : UInt8) : Bytes :=
  if b = 9 then b!"\\t"
  else if b = 13 then b!"\\r"
  else if b = 10 then b!"\\n"
  else if b = 39 then b!"\\'"
  else if b = 34 then b!"\\\""
  else if b = 92 then b!"\\\\"
  else if 0x20 ≤ b ∧ b ≤ 0x7e then [b]
  else 92 :: 120 :: hex2 b

/-- `Display for Token` (lex/mod.rs:123-164). -/
def Token.display [FloatFmt] : Token → Bytes
  | .ident s => s
  | .int n => decimal n
  | .float t => FloatFmt.display (.lit false t)
  | .string v => 34 :: v.flatMap escapeDefault ++ [34]
  | .dot => b!"."
  | .minus => b!"-"
  | .plus => b!"+"
  | .leftParen => b!"("
  | .rightParen => b!")"
  | .leftBrace => b!"{"
  | .rightBrace => b!"}"
  | .leftBracket => b!"["
  | .rightBracket => b!"]"
  | .leftAngle => b!"<"
  | .rightAngle => b!">"
  | .comma => b!","
  | .equals => b!"="
  | .colon => b!":"
  | .semicolon => b!";"
  | .slash => b!"/"
  | .lineComment v => b!"//" ++ v ++ [10]
  | .blockComment v => b!"/*" ++ v ++ b!"*/"
  | .newline => [10]

end Verif
