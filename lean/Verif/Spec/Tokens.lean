import Verif.Model.Lexer
/-! The token sequence of a source, as seen by the parser's users: iterate the lexer over the whole source. -/
namespace Verif

/-- A token with the byte range it occupies. -/
abbrev STok := Token × Span

/-- All tokens of a source in order, with their spans (`none`: input that matches no token). The first argument
bounds the number of tokens. -/
def rawToksN : Nat → Nat → Bytes → List (Option Token × Span)
  | 0, _, _ => []
  | n + 1, pos, s =>
    let o := Lex.next false pos s []
    match o.res with
    | .eof => []
    | .tok t => (some t, o.span) :: rawToksN n o.span.stop o.rest
    | .error => (none, o.span) :: rawToksN n o.span.stop o.rest

/-- All tokens of the source `s` that begins at offset `pos`. -/
def rawToks (pos : Nat) (s : Bytes) : List (Option Token × Span) := rawToksN (s.length + 1) pos s

/-- Drops comments and newlines; what is left of a lexical error is `none`. -/
def significant (ts : List (Option Token × Span)) : List (Option STok) :=
  ts.filterMap fun x => match x.1 with
    | none => some none
    | some t => if t.isTrivia then none else some (some (t, x.2))

/-- The significant tokens of a source. -/
def sigToks (pos : Nat) (s : Bytes) : List (Option STok) := significant (rawToks pos s)

/-- Lexing records no error: bad characters in strings, unterminated strings and comments, nested comments, numbers
out of range, a letter after a number, and (outside the text format: `tf = false`) `#` comments and `f` suffixes. -/
def lexCleanN (tf : Bool) : Nat → Nat → Bytes → Bool
  | 0, _, _ => true
  | n + 1, pos, s =>
    let o := Lex.next tf pos s []
    decide (o.errs = []) && match o.res with
    | .eof => true
    | _ => lexCleanN tf n o.span.stop o.rest

/-- The source `s` at offset `pos` lexes without errors, with (`tf = true`) or without the forms of the text format. -/
def lexCleanIn (tf : Bool) (pos : Nat) (s : Bytes) : Bool := lexCleanN tf (s.length + 1) pos s

/-- The source `s` at offset `pos` lexes without errors outside the text format. -/
def lexClean (pos : Nat) (s : Bytes) : Bool := lexCleanIn false pos s

end Verif
