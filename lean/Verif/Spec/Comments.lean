import Verif.Spec.Tokens
/-!
Which comments belong to which token: the comments and newlines between two tokens are split into the trailing comment
of the first token, and the detached comments and the leading comment of the second one (as `SourceCodeInfo.Location`
in descriptor.proto describes them).  Written without reference to the parser.

A line comment token includes its newline, so comment tokens that follow each other are on consecutive lines, and a
newline token is either the end of the line of the first token, the end of the line of a block comment, or a blank line.
-/
namespace Verif.Spec

/-- What stands between two tokens: comments, and blank lines. -/
inductive Item where
  | comment (text : Bytes)
  | blank
  deriving DecidableEq, Repr

/-- Line comments on consecutive lines are one comment; a block comment includes the end of its line. -/
def items : List Token → List Item
  | .lineComment c :: .lineComment d :: r => match items (.lineComment d :: r) with
    | .comment t :: l => .comment (c ++ t) :: l
    | l => .comment c :: l
  | .lineComment c :: r => .comment c :: items r
  | .blockComment c :: .newline :: r => .comment c :: items r
  | .blockComment c :: r => .comment c :: items r
  | .newline :: r => .blank :: items r
  | _ :: r => items r
  | [] => []

/-- The comments between two tokens, split. -/
structure Split where
  /-- The trailing comment of the token before. -/
  trailing : Option Bytes := none
  /-- The detached comments of the token after. -/
  detached : List Bytes := []
  /-- The leading comment of the token after. -/
  leading : Option Bytes := none
  deriving DecidableEq, Repr

/-- The texts of the comments. -/
def texts (l : List Item) : List Bytes := l.filterMap fun
  | .comment t => some t
  | .blank => none

/-- Comments before a token: the last one is its leading comment if nothing stands between them (and the token does not
close a block); all others are detached. -/
def before (closed : Bool) (l : List Item) : Split :=
  match l.getLast? with
  | some (.comment t) => if closed then { detached := texts l } else { detached := texts l.dropLast, leading := some t }
  | _ => { detached := texts l }

/-- Comments on the lines after a token: the first one is its trailing comment if it is on the next line and does not
touch the following token. -/
def between (closed : Bool) : List Item → Split
  | .comment t :: x :: l => { before closed (x :: l) with trailing := some t }
  | [.comment t] => if closed then { trailing := some t } else { leading := some t }
  | l => before closed l

/-- The comments between two tokens (`start`: before the first token of the file; `closed`: the following token is one
of `}`, `]`, `)`, or there is none).  A line comment on the line of the first token is its trailing comment.  If a block
comment follows the first token and something else follows it on the same line, all the comments are dropped. -/
def split (start closed : Bool) (gap : List Token) : Split :=
  if start then before closed (items gap)
  else match gap with
    | .lineComment c :: r => { before closed (items r) with trailing := some c }
    | .blockComment c :: .newline :: r => between closed (.comment c :: items r)
    | .blockComment _ :: _ => {}
    | .newline :: r => between closed (items r)
    | _ => {}

/-- The tokens are one comment with text `t`: line comments on consecutive lines, or a block comment, possibly with the
end of its line. -/
inductive OneComment : List Token → Bytes → Prop where
  | lines {cs : List Bytes} : cs ≠ [] → OneComment (cs.map .lineComment) cs.flatten
  | block {t} : OneComment [.blockComment t] t
  | blockLine {t} : OneComment [.blockComment t, .newline] t

/-- The texts of the comment tokens. -/
def commentTexts (ts : List Token) : List Bytes := ts.filterMap fun
  | .lineComment t => some t
  | .blockComment t => some t
  | _ => none

/-- The texts `out` are the texts `inp`, in the same order, some neighbours joined. -/
def JoinedFrom (out inp : List Bytes) : Prop :=
  ∃ groups : List (List Bytes), (∀ g ∈ groups, g ≠ []) ∧ out = groups.map List.flatten ∧ inp = groups.flatten

/-- All the comments of a split in source order. -/
def Split.all (s : Split) : List Bytes := s.trailing.toList ++ s.detached ++ s.leading.toList

/-- A token with its place in the source and its comments. -/
structure ATok where
  tok : Token
  span : Span
  detached : List Bytes := []
  leading : Option Bytes := none
  trailing : Option Bytes := none

/-- The comments and newlines in front of the first significant token. -/
def gapOf : List STok → List Token
  | [] => []
  | t :: r => if t.1.isTrivia then t.1 :: gapOf r else []

/-- What follows the comments and newlines: the first significant token and the rest. -/
def afterGap : List STok → List STok
  | [] => []
  | t :: r => if t.1.isTrivia then afterGap r else t :: r

/-- The tokens do not go on with a new element: the block ends, or the source. -/
def closes : List STok → Bool
  | [] => true
  | (t, _) :: _ => t = .rightBrace ∨ t = .rightBracket ∨ t = .rightParen

/-- The comments and newlines in front of the next significant token, split. -/
def splitAhead (start : Bool) (ts : List STok) : Split := split start (closes (afterGap ts)) (gapOf ts)

/-- The significant tokens with their comments; `gap` are the comments and newlines since the last one. -/
def annotate (start : Bool) (gap : List Token) : List STok → List ATok
  | [] => []
  | t :: r =>
    if t.1.isTrivia then annotate start (gap ++ [t.1]) r
    else
      let s := split start (closes (t :: r)) gap
      ⟨t.1, t.2, s.detached, s.leading, (splitAhead false r).trailing⟩ :: annotate false [] r

/-- The tokens of a source that match some token, comments and newlines included. -/
def allToks (src : Bytes) : List STok := (rawToks 0 src).filterMap fun x => x.1.map (·, x.2)

/-- The significant tokens of a source with their comments. -/
def annotated (src : Bytes) : List ATok := annotate true [] (allToks src)

end Verif.Spec
