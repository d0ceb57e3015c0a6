import Verif.Model.Lexer
/-!
The parser state and its primitive operations: protox-parse/src/parse/mod.rs (struct `Parser`, `peek`,
`peek_skip_comments`, `bump`, `next`, ...) and protox-parse/src/parse/comments.rs.
-/
namespace Verif.Parse

/-- Outcome of a parser method: `Ok`, `Err(())`, a Rust panic (including failed `debug_assert!`s), or an
exhausted loop counter (`oof`).  The last two are shown to be unreachable (C27). -/
inductive Res (α : Type) where
  | ok (a : α)
  | err
  | panic
  | oof

/-- A grammar method of `Parser` as a program over the primitive operations: each constructor is one call of a
primitive followed by the rest of the method.  The grammar methods (Model/Parser.lean) are written in this
monad and run on source bytes by `Prog.run` below, as the code does. -/
inductive Prog (α : Type) : Type where
  /-- `Ok(a)`. -/
  | ret (a : α)
  /-- `self.peek()?` (parse/mod.rs:1188-1238). -/
  | peekThen (k : Option (Token × Span) → Prog α)
  /-- `self.peek_skip_comments()?` (parse/mod.rs:1240-1251). -/
  | peekSkipThen (k : Option (Token × Span) → Prog α)
  /-- `self.bump()` (parse/mod.rs:1175-1186). -/
  | bumpThen (k : Span → Prog α)
  /-- `self.add_error(e)` (parse/mod.rs:1298-1300). -/
  | addErrorThen (e : ParseErrorKind) (k : Prog α)
  /-- `self.parse_leading_comments()` (parse/mod.rs:1119-1122). -/
  | leadingThen (k : List Bytes × Option Bytes → Prog α)
  /-- `self.parse_trailing_comment(lead)` (parse/mod.rs:1124-1136). -/
  | trailingThen (lead : List Bytes × Option Bytes) (k : Ast.Comments → Prog α)
  /-- `lexer.extras.text_format_mode = b` (parse/mod.rs:986, 1003). -/
  | setTextModeThen (b : Bool) (k : Prog α)
  /-- `debug_assert!(self.peek.is_none())` (parse/mod.rs:985). -/
  | assertNoPeekThen (k : Prog α)
  /-- `Err(())`. -/
  | failed
  /-- A panic. -/
  | panicked
  /-- An exhausted loop counter. -/
  | outOfFuel

namespace Prog

/-- Sequencing with `?`. -/
def bind {α β : Type} : Prog α → (α → Prog β) → Prog β
  | ret a, f => f a
  | peekThen k, f => peekThen fun x => (k x).bind f
  | peekSkipThen k, f => peekSkipThen fun x => (k x).bind f
  | bumpThen k, f => bumpThen fun x => (k x).bind f
  | addErrorThen e k, f => addErrorThen e (k.bind f)
  | leadingThen k, f => leadingThen fun x => (k x).bind f
  | trailingThen l k, f => trailingThen l fun x => (k x).bind f
  | setTextModeThen b k, f => setTextModeThen b (k.bind f)
  | assertNoPeekThen k, f => assertNoPeekThen (k.bind f)
  | failed, _ => failed
  | panicked, _ => panicked
  | outOfFuel, _ => outOfFuel

instance : Monad Prog where
  pure := ret
  bind := bind

/-- `self.peek()?` -/
def peek : Prog (Option (Token × Span)) := peekThen ret
/-- `self.peek_skip_comments()?` -/
def peekSkip : Prog (Option (Token × Span)) := peekSkipThen ret
/-- `self.bump()` -/
def bump : Prog Span := bumpThen ret
/-- `self.add_error(e)` -/
def addError (e : ParseErrorKind) : Prog Unit := addErrorThen e (ret ())
/-- `self.parse_leading_comments()` -/
def leading : Prog (List Bytes × Option Bytes) := leadingThen ret
/-- `self.parse_trailing_comment(lead)` -/
def trailing (lead : List Bytes × Option Bytes) : Prog Ast.Comments := trailingThen lead ret
/-- `lexer.extras.text_format_mode = b` -/
def setTextMode (b : Bool) : Prog Unit := setTextModeThen b (ret ())
/-- `debug_assert!(self.peek.is_none())` -/
def assertNoPeek : Prog Unit := assertNoPeekThen (ret ())

end Prog

/-- `Comments` (parse/comments.rs:3-11). -/
structure CState where
  leadingDetached : List Bytes := []
  leading : Option Bytes := none
  trailing : Option Bytes := none
  isTrailing : Bool := false
  isLine : Bool := false
  deriving DecidableEq, Repr

namespace CState

/-- `Comments::flush` (parse/comments.rs:40-49); `none` is the failed `debug_assert!`. -/
def flush (c : CState) : Option CState :=
  if c.isTrailing then
    if c.leadingDetached = [] then
      some { c with trailing := c.leading, leading := none, isTrailing := false, isLine := false }
    else none
  else some { c with leadingDetached := c.leadingDetached ++ c.leading.toList, leading := none, isLine := false }

/-- `Comments::block_comment` (parse/comments.rs:18-23). -/
def blockComment (c : CState) (text : Bytes) : Option CState :=
  if c.leading.isSome then c.flush.map fun c => { c with leading := some text }
  else some { c with leading := some text }

/-- `Comments::line_comment` (parse/comments.rs:25-34). -/
def lineComment (c : CState) (text : Bytes) : Option CState :=
  (if c.leading.isSome && !c.isLine then c.flush else some c).map fun c =>
    match c.leading with
    | none => { c with leading := some text, isLine := true }
    | some cur => { c with leading := some (cur ++ text), isLine := true }

/-- `Comments::detach` (parse/comments.rs:36-38). -/
def detach (c : CState) : CState := { c with isTrailing := false }

/-- `Comments::reset` (parse/comments.rs:51-58). -/
def reset (_ : CState) : CState := { isTrailing := true }

end CState

/-- `Parser` (parse/mod.rs:30-34) with the state of the logos lexer: the rest of the source, the end of the
last slice, `lexer.span()`, `extras.errors`, `extras.text_format_mode`; the cached token; the comments. -/
structure PState where
  rest : Bytes
  pos : Nat
  span : Span
  errs : List ParseErrorKind
  tf : Bool
  peek : Option (Except Unit (Token × Span))
  comments : CState

/-- A parser method. -/
def P (α : Type) : Type := PState → Res α × PState

namespace P

/-- Sequencing with `?`. -/
def bind {α β : Type} (p : P α) (f : α → P β) : P β := fun s =>
  match p s with
  | (.ok a, s') => f a s'
  | (.err, s') => (.err, s')
  | (.panic, s') => (.panic, s')
  | (.oof, s') => (.oof, s')

instance : Monad P where
  pure a := fun s => (.ok a, s)
  bind := bind

/-- Update of the comment state; `none` is a failed `debug_assert!`. -/
def onComments (f : CState → Option CState) : P Unit := fun s =>
  match f s.comments with
  | some c => (.ok (), { s with comments := c })
  | none => (.panic, s)

/-- `add_error` (parse/mod.rs:1298-1300). -/
def addError (e : ParseErrorKind) : P Unit := fun s => (.ok (), { s with errs := s.errs ++ [e] })

/-- `next` (parse/mod.rs:1260-1273) followed by the assignment to `self.peek` in `peek_comments`
(parse/mod.rs:1253-1258). -/
def peekComments : P (Option (Token × Span)) := fun s =>
  match s.peek with
  | some (.ok t) => (.ok (some t), s)
  | some (.error _) => (.err, s)
  | none =>
    let o := Lex.next s.tf s.pos s.rest s.errs
    let s := { s with rest := o.rest, pos := o.span.stop, span := o.span, errs := o.errs }
    match o.res with
    | .eof => (.ok none, s)
    | .tok t => (.ok (some (t, o.span)), { s with peek := some (.ok (t, o.span)) })
    | .error =>
      (.err, { s with peek := some (.error ()), comments := s.comments.reset,
                      errs := s.errs ++ [.invalidToken o.span] })

/-- `bump` (parse/mod.rs:1175-1186). -/
def bump : P Span := fun s =>
  match s.peek with
  | some (.ok (t, sp)) =>
    let s := { s with peek := none }
    (.ok sp, if t.isTrivia then s else { s with comments := s.comments.reset })
  | _ => (.panic, s)

/-- `peek_skip_comments` (parse/mod.rs:1240-1251), with a loop counter. -/
def peekSkipLoop : Nat → P (Option (Token × Span))
  | 0 => fun s => (.oof, s)
  | n + 1 => do
    match ← peekComments with
    | some (t, sp) =>
      if t.isTrivia then do
        let _ ← bump
        peekSkipLoop n
      else pure (some (t, sp))
    | none => pure none

/-- `peek_skip_comments` (parse/mod.rs:1240-1251): at most one iteration per remaining byte, one for the
cached token and one more. -/
def peekSkip : P (Option (Token × Span)) := fun s => peekSkipLoop (s.rest.length + 2) s

/-- The loop of `peek` (parse/mod.rs:1212-1237), with a loop counter. -/
def peekLoop : Nat → P (Option (Token × Span))
  | 0 => fun s => (.oof, s)
  | n + 1 => do
    match ← peekComments with
    | some (.lineComment c, _) => do
      let _ ← bump
      onComments (·.lineComment c)
      peekLoop n
    | some (.blockComment c, _) => do
      let _ ← bump
      onComments (·.blockComment c)
      match ← peekComments with
      | some (.newline, _) => do
        let _ ← bump
        peekLoop n
      | _ => peekLoop n
    | some (.newline, _) => do
      let _ ← bump
      onComments (·.flush)
      onComments (fun c => some c.detach)
      peekLoop n
    | none => do
      onComments (·.flush)
      pure none
    | some (t, sp) =>
      if t = .rightBrace ∨ t = .rightBracket ∨ t = .rightParen then do
        onComments (·.flush)
        pure (some (t, sp))
      else pure (some (t, sp))

/-- The loop of `peek` with a sufficient counter. -/
def peekRest : P (Option (Token × Span)) := fun s => peekLoop (s.rest.length + 2) s

/-- The first part of `peek` (parse/mod.rs:1189-1210), when the lexer is not at the start of the file. -/
def peekFirst : P (Option (Token × Span)) := do
  match ← peekComments with
  | some (.lineComment c, _) => do
    let _ ← bump
    onComments (·.lineComment c)
    onComments (·.flush)
    peekRest
  | some (.blockComment c, _) => do
    let _ ← bump
    match ← peekComments with
    | some (.newline, _) => do
      let _ ← bump
      onComments (·.blockComment c)
      peekRest
    | _ => peekSkip
  | some (.newline, _) => do
    let _ ← bump
    peekRest
  | tok => pure tok

/-- `peek` (parse/mod.rs:1188-1238). -/
def peek : P (Option (Token × Span)) := fun s =>
  if s.span ≠ ⟨0, 0⟩ then peekFirst s else peekRest s

/-- `let _ = self.peek()` (parse/mod.rs:1120, 1128): an `Err` is dropped. -/
def peekIgnore : P Unit := fun s =>
  match peek s with
  | (.ok _, s') => (.ok (), s')
  | (.err, s') => (.ok (), s')
  | (.panic, s') => (.panic, s')
  | (.oof, s') => (.oof, s')

/-- `take_leading` (parse/comments.rs:60-62). -/
def takeLeading : P (List Bytes × Option Bytes) := fun s =>
  (.ok (s.comments.leadingDetached, s.comments.leading),
    { s with comments := { s.comments with leadingDetached := [], leading := none } })

/-- `take_trailing` (parse/comments.rs:64-66). -/
def takeTrailing : P (Option Bytes) := fun s =>
  (.ok s.comments.trailing, { s with comments := { s.comments with trailing := none } })

/-- `parse_leading_comments` (parse/mod.rs:1119-1122). -/
def leading : P (List Bytes × Option Bytes) := do
  peekIgnore
  takeLeading

/-- `parse_trailing_comment` (parse/mod.rs:1124-1136). -/
def trailing (lead : List Bytes × Option Bytes) : P Ast.Comments := do
  peekIgnore
  let t ← takeTrailing
  pure ⟨lead.1, lead.2, t⟩

end P

/-- Running a grammar method on the parser state. -/
def Prog.run {α : Type} : Prog α → P α
  | .ret a => fun s => (.ok a, s)
  | .peekThen k => P.bind P.peek fun x => (k x).run
  | .peekSkipThen k => P.bind P.peekSkip fun x => (k x).run
  | .bumpThen k => P.bind P.bump fun x => (k x).run
  | .addErrorThen e k => P.bind (P.addError e) fun _ => k.run
  | .leadingThen k => P.bind P.leading fun x => (k x).run
  | .trailingThen l k => P.bind (P.trailing l) fun x => (k x).run
  | .setTextModeThen b k => fun s => k.run { s with tf := b }
  | .assertNoPeekThen k => fun s => if s.peek.isNone then k.run s else (.panic, s)
  | .failed => fun s => (.err, s)
  | .panicked => fun s => (.panic, s)
  | .outOfFuel => fun s => (.oof, s)

/-- `Parser::new` (parse/mod.rs:54-60). -/
def PState.init (src : Bytes) : PState :=
  { rest := src, pos := 0, span := ⟨0, 0⟩, errs := [], tf := false, peek := none, comments := {} }

end Verif.Parse
