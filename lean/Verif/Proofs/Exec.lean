import Verif.Proofs.Same
/-! The grammar methods on lists of significant tokens (`none` is a piece of the source that is no token). -/
namespace Verif.Exec
open Parse Prog

/-- The significant tokens without their positions. -/
abbrev Toks := List (Option Token)

/-- How a method ends: with a result, blaming the next token, in another failure (perhaps blaming the
end of the file), or not at all. -/
inductive Ex (α : Type) where
  | done (a : α) (w : Toks)
  | blamed (ex : Expect) (t : Token) (w : Toks)
  | stop (r : Option Expect) (w : Toks)
  | oof

/-- An error about the end of the file, which is only reported there. -/
def endErr {α : Type} (ex : Expect) : Toks → Ex α
  | [] => .stop (some ex) []
  | _ => .oof

/-- A method on the significant tokens ahead. -/
def exec {α : Type} : Prog α → Toks → Ex α
  | .ret a, w => .done a w
  | .peekThen k, w => match w with
    | [] => exec (k none) w
    | some t :: _ => exec (k (some (t, sp0))) w
    | none :: _ => .stop none w
  | .peekSkipThen k, w => match w with
    | [] => exec (k none) w
    | some t :: _ => exec (k (some (t, sp0))) w
    | none :: _ => .stop none w
  | .bumpThen k, w => match w with
    | some _ :: w' => exec (k sp0) w'
    | _ => .oof
  | .addErrorThen e k, w => match blame? e with
    | some x => .blamed x.1 x.2 w
    | none => match eof? e with
      | some ex => endErr ex w
      | none => exec k w
  | .leadingThen k, w => exec (k ld0) w
  | .trailingThen _ k, w => exec (k cm0) w
  | .setTextModeThen _ k, w => exec k w
  | .assertNoPeekThen k, w => exec k w
  | .failed, w => .stop none w
  | .panicked, _ => .oof
  | .outOfFuel, _ => .oof

/-- Sequencing. -/
def Ex.bind {α β : Type} : Ex α → (α → Toks → Ex β) → Ex β
  | .done a w, f => f a w
  | .blamed ex t w, _ => .blamed ex t w
  | .stop r w, _ => .stop r w
  | .oof, _ => .oof

theorem exec_bind {α β : Type} (p : Prog α) (f : α → Prog β) : ∀ w, exec (p >>= f) w = (exec p w).bind fun a w' => exec (f a) w' := by
  show ∀ w, exec (p.bind f) w = _
  induction p with
  | ret a => exact fun w => rfl
  | peekThen k ih =>
    intro w
    match w with
    | [] => exact ih none []
    | some t :: w => exact ih (some (t, sp0)) (some t :: w)
    | none :: w => rfl
  | peekSkipThen k ih =>
    intro w
    match w with
    | [] => exact ih none []
    | some t :: w => exact ih (some (t, sp0)) (some t :: w)
    | none :: w => rfl
  | bumpThen k ih =>
    intro w
    match w with
    | [] => rfl
    | some t :: w => exact ih sp0 w
    | none :: w => rfl
  | addErrorThen e k ih =>
    intro w
    show exec (addErrorThen e (k.bind f)) w = (exec (addErrorThen e k) w).bind _
    rw [exec, exec]
    cases blame? e with
    | some y => rfl
    | none =>
      cases eof? e with
      | some ex => cases w <;> rfl
      | none => exact ih w
  | leadingThen k ih => exact fun w => ih _ w
  | trailingThen l k ih => exact fun w => ih _ w
  | setTextModeThen b k ih => exact fun w => ih w
  | assertNoPeekThen k ih => exact fun w => ih w
  | failed => exact fun w => rfl
  | panicked => exact fun w => rfl
  | outOfFuel => exact fun w => rfl

/-- What a method does with the next token. -/
inductive Fate (α : Type) where
  | took
  | blamed (ex : Expect) (t : Token)
  | stop
  | oof
  | rets (a : α)

def fate {α : Type} (x : Token) : Prog α → Fate α
  | .ret a => .rets a
  | .peekThen k => fate x (k (some (x, sp0)))
  | .peekSkipThen k => fate x (k (some (x, sp0)))
  | .bumpThen _ => .took
  | .addErrorThen e k => match blame? e with
    | some y => .blamed y.1 y.2
    | none => match eof? e with
      | some _ => .oof
      | none => fate x k
  | .leadingThen k => fate x (k ld0)
  | .trailingThen _ k => fate x (k cm0)
  | .setTextModeThen _ k => fate x k
  | .assertNoPeekThen k => fate x k
  | .failed => .stop
  | .panicked => .oof
  | .outOfFuel => .oof

def Fate.bind {α β : Type} : Fate α → (α → Fate β) → Fate β
  | .took, _ => .took
  | .blamed ex t, _ => .blamed ex t
  | .stop, _ => .stop
  | .oof, _ => .oof
  | .rets a, f => f a

theorem fate_bind {α β : Type} (x : Token) (p : Prog α) (f : α → Prog β) : fate x (p >>= f) = (fate x p).bind fun a => fate x (f a) := by
  show fate x (p.bind f) = _
  induction p with
  | ret a => rfl
  | peekThen k ih => exact ih _
  | peekSkipThen k ih => exact ih _
  | bumpThen k ih => rfl
  | addErrorThen e k ih =>
    show fate x (addErrorThen e (k.bind f)) = (fate x (addErrorThen e k)).bind _
    rw [fate, fate]
    cases blame? e with
    | some y => rfl
    | none =>
      cases eof? e with
      | some ex => rfl
      | none => exact ih
  | leadingThen k ih => exact ih _
  | trailingThen l k ih => exact ih _
  | setTextModeThen b k ih => exact ih
  | assertNoPeekThen k ih => exact ih
  | failed => rfl
  | panicked => rfl
  | outOfFuel => rfl

/-- The program that is left after all of the tokens `u` were taken. -/
inductive Left {α : Type} : Prog α → Toks → Prog α → Prop
  | here (p) : Left p [] p
  | peek {k t u q} (h : Left (k (some (t, sp0))) (some t :: u) q) : Left (.peekThen k) (some t :: u) q
  | peekSkip {k t u q} (h : Left (k (some (t, sp0))) (some t :: u) q) : Left (.peekSkipThen k) (some t :: u) q
  | bump {k t u q} (h : Left (k sp0) u q) : Left (.bumpThen k) (some t :: u) q
  | addError {e k u q} (he : blame? e = none) (he' : eof? e = none) (h : Left k u q) : Left (.addErrorThen e k) u q
  | leading {k u q} (h : Left (k ld0) u q) : Left (.leadingThen k) u q
  | trailing {l k u q} (h : Left (k cm0) u q) : Left (.trailingThen l k) u q
  | setTextMode {b k u q} (h : Left k u q) : Left (.setTextModeThen b k) u q
  | assertNoPeek {k u q} (h : Left k u q) : Left (.assertNoPeekThen k) u q

theorem Left.exec {α : Type} {p q : Prog α} {u : Toks} (h : Left p u q) (z : Toks) : exec p (u ++ z) = exec q z := by
  induction h with
  | here p => rfl
  | peek h ih => exact ih
  | peekSkip h ih => exact ih
  | bump h ih => exact ih
  | addError he he' h ih => rw [Exec.exec, he, he']; exact ih
  | leading h ih => exact ih
  | trailing h ih => exact ih
  | setTextMode h ih => exact ih
  | assertNoPeek h ih => exact ih

/-- The method ends before it has taken all of the tokens `u`, whatever follows them. -/
def Stuck {α : Type} (p : Prog α) (u : Toks) : Prop :=
  ∃ u', u' ≠ [] ∧ u' <:+ u ∧
    ((∃ a, ∀ z, exec p (u ++ z) = .done a (u' ++ z)) ∨ (∃ ex t, ∀ z, exec p (u ++ z) = .blamed ex t (u' ++ z)) ∨
      ∃ r, ∀ z, exec p (u ++ z) = .stop r (u' ++ z))

/-- A method on tokens that begin with `u`. -/
theorem exec_split {α : Type} (p : Prog α) : ∀ u, (∀ z, exec p (u ++ z) = .oof) ∨ Stuck p u ∨ ∃ q, Left p u q := by
  induction p with
  | ret a =>
    intro u
    cases u with
    | nil => exact .inr (.inr ⟨_, .here _⟩)
    | cons x u => exact .inr (.inl ⟨x :: u, by simp, List.suffix_rfl, .inl ⟨a, fun _ => rfl⟩⟩)
  | peekThen k ih =>
    intro u
    match u with
    | [] => exact .inr (.inr ⟨_, .here _⟩)
    | none :: u => exact .inr (.inl ⟨none :: u, by simp, List.suffix_rfl, .inr (.inr ⟨none, fun _ => rfl⟩)⟩)
    | some t :: u =>
      rcases ih (some (t, sp0)) (some t :: u) with h | ⟨u', h⟩ | ⟨q, h⟩
      · exact .inl h
      · exact .inr (.inl ⟨u', h⟩)
      · exact .inr (.inr ⟨q, .peek h⟩)
  | peekSkipThen k ih =>
    intro u
    match u with
    | [] => exact .inr (.inr ⟨_, .here _⟩)
    | none :: u => exact .inr (.inl ⟨none :: u, by simp, List.suffix_rfl, .inr (.inr ⟨none, fun _ => rfl⟩)⟩)
    | some t :: u =>
      rcases ih (some (t, sp0)) (some t :: u) with h | ⟨u', h⟩ | ⟨q, h⟩
      · exact .inl h
      · exact .inr (.inl ⟨u', h⟩)
      · exact .inr (.inr ⟨q, .peekSkip h⟩)
  | bumpThen k ih =>
    intro u
    match u with
    | [] => exact .inr (.inr ⟨_, .here _⟩)
    | none :: u => exact .inl fun _ => rfl
    | some t :: u =>
      rcases ih sp0 u with h | ⟨u', h1, h2, h⟩ | ⟨q, h⟩
      · exact .inl h
      · exact .inr (.inl ⟨u', h1, h2.trans (List.suffix_cons ..), h⟩)
      · exact .inr (.inr ⟨q, .bump h⟩)
  | addErrorThen e k ih =>
    intro u
    cases u with
    | nil => exact .inr (.inr ⟨_, .here _⟩)
    | cons x u =>
      cases he : blame? e with
      | some y => exact .inr (.inl ⟨x :: u, by simp, List.suffix_rfl, .inr (.inl ⟨y.1, y.2, fun z => by rw [exec, he]⟩)⟩)
      | none =>
        cases he' : eof? e with
        | some ex => exact .inl fun z => by rw [exec, he, he']; rfl
        | none =>
          rcases ih (x :: u) with h | ⟨u', h1, h2, h⟩ | ⟨q, h⟩
          · exact .inl fun z => by rw [exec, he, he']; exact h z
          · refine .inr (.inl ⟨u', h1, h2, ?_⟩)
            have : ∀ z, exec (addErrorThen e k) (x :: u ++ z) = exec k (x :: u ++ z) := fun z => by rw [exec, he, he']
            simpa only [this] using h
          · exact .inr (.inr ⟨q, .addError he he' h⟩)
  | leadingThen k ih =>
    intro u
    rcases ih ld0 u with h | ⟨u', h⟩ | ⟨q, h⟩
    · exact .inl h
    · exact .inr (.inl ⟨u', h⟩)
    · exact .inr (.inr ⟨q, .leading h⟩)
  | trailingThen l k ih =>
    intro u
    rcases ih cm0 u with h | ⟨u', h⟩ | ⟨q, h⟩
    · exact .inl h
    · exact .inr (.inl ⟨u', h⟩)
    · exact .inr (.inr ⟨q, .trailing h⟩)
  | setTextModeThen b k ih =>
    intro u
    rcases ih u with h | ⟨u', h⟩ | ⟨q, h⟩
    · exact .inl h
    · exact .inr (.inl ⟨u', h⟩)
    · exact .inr (.inr ⟨q, .setTextMode h⟩)
  | assertNoPeekThen k ih =>
    intro u
    rcases ih u with h | ⟨u', h⟩ | ⟨q, h⟩
    · exact .inl h
    · exact .inr (.inl ⟨u', h⟩)
    · exact .inr (.inr ⟨q, .assertNoPeek h⟩)
  | failed =>
    intro u
    cases u with
    | nil => exact .inr (.inr ⟨_, .here _⟩)
    | cons x u => exact .inr (.inl ⟨x :: u, by simp, List.suffix_rfl, .inr (.inr ⟨none, fun _ => rfl⟩)⟩)
  | panicked => exact fun u => .inl fun _ => rfl
  | outOfFuel => exact fun u => .inl fun _ => rfl

/-- The tokens that are left are among those there were. -/
def Ex.rest? {α : Type} : Ex α → Option Toks
  | .done _ w => some w
  | .blamed _ _ w => some w
  | .stop _ w => some w
  | .oof => none

theorem exec_rest {α : Type} (p : Prog α) : ∀ w w', (exec p w).rest? = some w' → w' <:+ w := by
  induction p with
  | ret a => intro w w' h; cases h; exact List.suffix_rfl
  | peekThen k ih =>
    intro w w'
    unfold exec
    split
    · exact ih _ _ _
    · exact ih _ _ _
    · intro h; cases h; exact List.suffix_rfl
  | peekSkipThen k ih =>
    intro w w'
    unfold exec
    split
    · exact ih _ _ _
    · exact ih _ _ _
    · intro h; cases h; exact List.suffix_rfl
  | bumpThen k ih =>
    intro w w'
    unfold exec
    split
    · exact fun h => (ih _ _ _ h).trans (List.suffix_cons ..)
    · exact nofun
  | addErrorThen e k ih =>
    intro w w'
    unfold exec
    split
    · intro h; cases h; exact List.suffix_rfl
    · split
      · cases w with
        | nil => intro h; cases h; exact List.suffix_rfl
        | cons => exact nofun
      · exact ih _ _
  | leadingThen k ih => exact ih _
  | trailingThen l k ih => exact ih _
  | setTextModeThen b k ih => exact ih
  | assertNoPeekThen k ih => exact ih
  | failed => intro w w' h; cases h; exact List.suffix_rfl
  | panicked => exact nofun
  | outOfFuel => exact nofun

/-- What the next token tells about the run. -/
theorem exec_fate {α : Type} (p : Prog α) (x : Token) (v : Toks) :
    match fate x p with
    | .took => ∀ w', (exec p (some x :: v)).rest? = some w' → w' <:+ v
    | .blamed ex t => exec p (some x :: v) = .blamed ex t (some x :: v)
    | .stop => exec p (some x :: v) = .stop none (some x :: v)
    | .oof => exec p (some x :: v) = .oof
    | .rets a => exec p (some x :: v) = .done a (some x :: v) := by
  induction p with
  | ret a => rfl
  | peekThen k ih => exact ih _
  | peekSkipThen k ih => exact ih _
  | bumpThen k ih => exact fun w' h => exec_rest _ _ _ h
  | addErrorThen e k ih =>
    unfold fate exec
    cases blame? e with
    | some y => rfl
    | none =>
      cases eof? e with
      | some ex => rfl
      | none => exact ih
  | leadingThen k ih => exact ih _
  | trailingThen l k ih => exact ih _
  | setTextModeThen b k ih => exact ih
  | assertNoPeekThen k ih => exact ih
  | failed => rfl
  | panicked => rfl
  | outOfFuel => rfl

/-- What a method does when nothing is ahead. -/
inductive End (α : Type) where
  | ended (ex : Expect)
  | other
  | rets (a : α)

def efate {α : Type} : Prog α → End α
  | .ret a => .rets a
  | .peekThen k => efate (k none)
  | .peekSkipThen k => efate (k none)
  | .bumpThen _ => .other
  | .addErrorThen e k => match blame? e with
    | some _ => .other
    | none => match eof? e with
      | some ex => .ended ex
      | none => efate k
  | .leadingThen k => efate (k ld0)
  | .trailingThen _ k => efate (k cm0)
  | .setTextModeThen _ k => efate k
  | .assertNoPeekThen k => efate k
  | .failed => .other
  | .panicked => .other
  | .outOfFuel => .other

def End.bind {α β : Type} : End α → (α → End β) → End β
  | .ended ex, _ => .ended ex
  | .other, _ => .other
  | .rets a, f => f a

theorem efate_bind {α β : Type} (p : Prog α) (f : α → Prog β) : efate (p >>= f) = (efate p).bind fun a => efate (f a) := by
  show efate (p.bind f) = _
  induction p with
  | ret a => rfl
  | peekThen k ih => exact ih _
  | peekSkipThen k ih => exact ih _
  | bumpThen k ih => rfl
  | addErrorThen e k ih =>
    show efate (addErrorThen e (k.bind f)) = (efate (addErrorThen e k)).bind _
    rw [efate, efate]
    cases blame? e with
    | some y => rfl
    | none =>
      cases eof? e with
      | some ex => rfl
      | none => exact ih
  | leadingThen k ih => exact ih _
  | trailingThen l k ih => exact ih _
  | setTextModeThen b k ih => exact ih
  | assertNoPeekThen k ih => exact ih
  | failed => rfl
  | panicked => rfl
  | outOfFuel => rfl

/-- The run at the end of the file. -/
theorem exec_end {α : Type} (p : Prog α) :
    match efate p with
    | .ended ex => exec p [] = .stop (some ex) []
    | .other => ∀ ex w, exec p [] ≠ .stop (some ex) w
    | .rets a => exec p [] = .done a [] := by
  induction p with
  | ret a => rfl
  | peekThen k ih => exact ih _
  | peekSkipThen k ih => exact ih _
  | bumpThen k ih => exact fun _ _ => nofun
  | addErrorThen e k ih =>
    unfold efate exec
    cases blame? e with
    | some y => exact fun _ _ => nofun
    | none =>
      cases eof? e with
      | some ex => rfl
      | none => exact ih
  | leadingThen k ih => exact ih _
  | trailingThen l k ih => exact ih _
  | setTextModeThen b k ih => exact ih
  | assertNoPeekThen k ih => exact ih
  | failed => exact fun _ _ => nofun
  | panicked => exact fun _ _ => nofun
  | outOfFuel => exact fun _ _ => nofun

end Verif.Exec
