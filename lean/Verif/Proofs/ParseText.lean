import Verif.Proofs.AstText
import Verif.Proofs.Wp
/-! The parser on text: cut points, error spans, comments. -/
namespace Verif.Text
open Parse Lex

def CV (c : CState) : Prop :=
  (∀ x ∈ c.leadingDetached, V x) ∧ (∀ x, c.leading = some x → V x) ∧ (∀ x, c.trailing = some x → V x)

theorem CV.reset (c : CState) : CV c.reset := ⟨nofun, nofun, nofun⟩

theorem CV.flush {c c' : CState} (h : CV c) (hf : c.flush = some c') : CV c' := by
  unfold CState.flush at hf
  split at hf
  · split at hf
    · injection hf with hf; subst hf; exact ⟨h.1, nofun, h.2.1⟩
    · cases hf
  · injection hf with hf
    subst hf
    refine ⟨?_, nofun, h.2.2⟩
    intro x hx
    rcases List.mem_append.1 hx with h1 | h1
    · exact h.1 x h1
    · exact h.2.1 x (by simpa using h1)

theorem CV.block {c c' : CState} {t} (h : CV c) (ht : V t) (hf : c.blockComment t = some c') : CV c' := by
  unfold CState.blockComment at hf
  split at hf
  · cases hc : c.flush with
    | none => rw [hc] at hf; cases hf
    | some d =>
      rw [hc] at hf; injection hf with hf; subst hf
      exact ⟨(h.flush hc).1, opt_some ht, (h.flush hc).2.2⟩
  · injection hf with hf; subst hf; exact ⟨h.1, opt_some ht, h.2.2⟩

theorem CV.line {c c' : CState} {t} (h : CV c) (ht : V t) (hf : c.lineComment t = some c') : CV c' := by
  unfold CState.lineComment at hf
  have key : ∀ d : CState, CV d → CV (match d.leading with
    | none => { d with leading := some t, isLine := true }
    | some cur => { d with leading := some (cur ++ t), isLine := true }) := by
    intro d hd
    split
    · exact ⟨hd.1, opt_some ht, hd.2.2⟩
    · rename_i cur hcur
      exact ⟨hd.1, opt_some (v_append (hd.2.1 _ hcur) ht), hd.2.2⟩
  cases hc : (if c.leading.isSome && !c.isLine then c.flush else some c) with
  | none => rw [hc] at hf; cases hf
  | some d =>
    rw [hc] at hf; injection hf with hf; subst hf
    apply key
    split at hc
    · exact h.flush hc
    · injection hc with hc; exact hc ▸ h

/-- The state of the parser on text. -/
structure TS (B : Nat → Prop) (s : PState) : Prop where
  pv : PV B s.pos s.rest
  errs : ErrsB B s.errs
  cached : ∀ t sp, s.peek = some (.ok (t, sp)) → Sp B sp ∧ TokV t
  comm : CV s.comments

/-- A parser method that keeps the state on text and returns only values with `Q`. -/
def Keeps (B : Nat → Prop) {α : Type} (m : Parse.P α) (Q : α → Prop) : Prop :=
  ∀ s, TS B s → TS B (m s).2 ∧ ∀ a, (m s).1 = .ok a → Q a

variable {B : Nat → Prop}

theorem Keeps.bind {α β : Type} {p : Parse.P α} {f : α → Parse.P β} {Q : α → Prop} {Q' : β → Prop}
    (hp : Keeps B p Q) (hf : ∀ a, Q a → Keeps B (f a) Q') : Keeps B (Parse.P.bind p f) Q' := by
  intro s hs
  have h := hp s hs
  unfold P.bind
  revert h
  rcases p s with ⟨r, s'⟩
  intro h
  cases r with
  | ok a => exact hf a (h.2 a rfl) s' h.1
  | err => exact ⟨h.1, nofun⟩
  | panic => exact ⟨h.1, nofun⟩
  | oof => exact ⟨h.1, nofun⟩

theorem Keeps.mono {α : Type} {p : Parse.P α} {Q Q' : α → Prop} (hp : Keeps B p Q) (h : ∀ a, Q a → Q' a) :
    Keeps B p Q' := fun s hs => ⟨(hp s hs).1, fun a ha => h a ((hp s hs).2 a ha)⟩

theorem Keeps.pure {α : Type} {a : α} {Q : α → Prop} (h : Q a) : Keeps B (fun s => (.ok a, s)) Q :=
  fun _ hs => ⟨hs, fun b hb => by injection hb with hb; exact hb ▸ h⟩

/-- A cached token as returned by the parser. -/
def TokB (B : Nat → Prop) (x : Option (Token × Span)) : Prop := ∀ t sp, x = some (t, sp) → Sp B sp ∧ TokV t

theorem keeps_peekComments : Keeps B P.peekComments (TokB B) := by
  intro s hs
  unfold P.peekComments
  split
  · rename_i t ht
    refine ⟨hs, ?_⟩
    intro a ha t' sp h
    injection ha with ha; subst ha; injection h with h; subst h
    exact hs.cached _ _ ht
  · exact ⟨hs, nofun⟩
  · simp only
    have h := next_text s.tf s.errs hs.pv
    revert h
    generalize next s.tf s.pos s.rest s.errs = o
    intro h
    have hsp : Sp B o.span := ⟨h.start, h.rest.here⟩
    split
    · exact ⟨⟨h.rest, h.errs hs.errs, hs.cached, hs.comm⟩, fun a ha => by
        injection ha with ha; subst ha; nofun⟩
    · rename_i t ht
      refine ⟨⟨h.rest, h.errs hs.errs, ?_, hs.comm⟩, ?_⟩
      · intro t' sp e
        injection e with e; injection e with e; injection e with e1 e2; subst e1 e2
        exact ⟨hsp, h.text _ ht⟩
      · intro a ha t' sp e
        injection ha with ha; subst ha
        injection e with e; injection e with e1 e2; subst e1 e2
        exact ⟨hsp, h.text _ ht⟩
    · exact ⟨⟨h.rest, (h.errs hs.errs).one rfl h.start h.rest.here, nofun, CV.reset s.comments⟩, nofun⟩

theorem keeps_bump : Keeps B P.bump (Sp B) := by
  intro s hs
  unfold P.bump
  split
  · rename_i t sp ht
    simp only
    refine ⟨?_, ?_⟩
    · split
      · exact ⟨hs.pv, hs.errs, nofun, hs.comm⟩
      · exact ⟨hs.pv, hs.errs, nofun, CV.reset s.comments⟩
    · intro a ha; injection ha with ha; subst ha; exact (hs.cached _ _ ht).1
  · exact ⟨hs, nofun⟩

theorem keeps_onComments {f : CState → Option CState} (hf : ∀ c c', CV c → f c = some c' → CV c') :
    Keeps B (P.onComments f) (fun _ => True) := by
  intro s hs
  unfold P.onComments
  split
  · rename_i c hc
    exact ⟨⟨hs.pv, hs.errs, hs.cached, hf _ _ hs.comm hc⟩, fun _ _ => trivial⟩
  · exact ⟨hs, nofun⟩

theorem keeps_addError {e : ParseErrorKind} (he : ∀ s ∈ e.spans, Sp B s) : Keeps B (P.addError e) (fun _ => True) :=
  fun _ hs => ⟨⟨hs.pv, hs.errs.append he, hs.cached, hs.comm⟩, fun _ _ => trivial⟩

theorem keeps_peekSkipLoop : ∀ n, Keeps B (P.peekSkipLoop n) (TokB B)
  | 0 => fun _ hs => ⟨hs, nofun⟩
  | n + 1 => by
    refine Keeps.bind keeps_peekComments fun x hx => ?_
    split
    · split
      · exact Keeps.bind keeps_bump fun _ _ => keeps_peekSkipLoop n
      · exact .pure hx
    · exact .pure hx

theorem keeps_peekSkip : Keeps B P.peekSkip (TokB B) := fun s hs => keeps_peekSkipLoop _ s hs

theorem keeps_flush : Keeps B (P.onComments (·.flush)) (fun _ => True) := keeps_onComments fun _ _ h hf => h.flush hf

theorem keeps_peekLoop : ∀ n, Keeps B (P.peekLoop n) (TokB B)
  | 0 => fun _ hs => ⟨hs, nofun⟩
  | n + 1 => by
    refine Keeps.bind keeps_peekComments fun x hx => ?_
    split
    · rename_i c sp
      refine Keeps.bind keeps_bump fun _ _ => ?_
      exact Keeps.bind (keeps_onComments fun _ _ h hf => h.line ((hx _ _ rfl).2 _ rfl) hf) fun _ _ => keeps_peekLoop n
    · rename_i c sp
      refine Keeps.bind keeps_bump fun _ _ => ?_
      refine Keeps.bind (keeps_onComments fun _ _ h hf => h.block ((hx _ _ rfl).2 _ rfl) hf) fun _ _ => ?_
      refine Keeps.bind keeps_peekComments fun y _ => ?_
      split
      · exact Keeps.bind keeps_bump fun _ _ => keeps_peekLoop n
      · exact keeps_peekLoop n
    · refine Keeps.bind keeps_bump fun _ _ => Keeps.bind keeps_flush fun _ _ => ?_
      refine Keeps.bind (keeps_onComments ?_) fun _ _ => keeps_peekLoop n
      intro c c' h hc
      injection hc with hc; subst hc; exact h
    · exact Keeps.bind keeps_flush fun _ _ => .pure nofun
    · split
      · exact Keeps.bind keeps_flush fun _ _ => .pure hx
      · exact .pure hx

theorem keeps_peekRest : Keeps B P.peekRest (TokB B) := fun s hs => keeps_peekLoop _ s hs

theorem keeps_peekFirst : Keeps B P.peekFirst (TokB B) := by
  refine Keeps.bind keeps_peekComments fun x hx => ?_
  split
  · refine Keeps.bind keeps_bump fun _ _ => ?_
    refine Keeps.bind (keeps_onComments fun _ _ h hf => h.line ((hx _ _ rfl).2 _ rfl) hf) fun _ _ => ?_
    exact Keeps.bind keeps_flush fun _ _ => keeps_peekRest
  · refine Keeps.bind keeps_bump fun _ _ => ?_
    refine Keeps.bind keeps_peekComments fun y _ => ?_
    split
    · refine Keeps.bind keeps_bump fun _ _ => ?_
      exact Keeps.bind (keeps_onComments fun _ _ h hf => h.block ((hx _ _ rfl).2 _ rfl) hf) fun _ _ => keeps_peekRest
    · exact keeps_peekSkip
  · exact Keeps.bind keeps_bump fun _ _ => keeps_peekRest
  · exact .pure hx

theorem keeps_peek : Keeps B P.peek (TokB B) := by
  intro s hs
  unfold P.peek
  split
  · exact keeps_peekFirst s hs
  · exact keeps_peekRest s hs

theorem keeps_peekIgnore : Keeps B P.peekIgnore (fun _ => True) := by
  intro s hs
  have h := (keeps_peek s hs).1
  refine ⟨?_, fun _ _ => trivial⟩
  unfold P.peekIgnore
  revert h
  rcases P.peek s with ⟨r, s'⟩
  intro h
  cases r <;> exact h

def LeadV (l : List Bytes × Option Bytes) : Prop := (∀ x ∈ l.1, V x) ∧ (∀ x, l.2 = some x → V x)

theorem keeps_leading : Keeps B P.leading LeadV := by
  refine Keeps.bind keeps_peekIgnore fun _ _ => ?_
  intro s hs
  exact ⟨⟨hs.pv, hs.errs, hs.cached, nofun, nofun, hs.comm.2.2⟩, fun a ha => by
    injection ha with ha; subst ha; exact ⟨hs.comm.1, hs.comm.2.1⟩⟩

theorem keeps_trailing {l} (hl : LeadV l) : Keeps B (P.trailing l) CommB := by
  refine Keeps.bind keeps_peekIgnore fun _ _ => ?_
  refine Keeps.bind (Q := fun t => ∀ x, t = some x → V x) ?_ fun t ht => .pure ⟨hl.1, hl.2, ht⟩
  intro s hs
  exact ⟨⟨hs.pv, hs.errs, hs.cached, hs.comm.1, hs.comm.2.1, nofun⟩, fun a ha => by
    injection ha with ha; subst ha; exact hs.comm.2.2⟩

/-- What a program returns and reports when it is given tokens with good spans and comments that are text. -/
def bz (B : Nat → Prop) {α : Type} : Prog α → (α → Prop) → Prop
  | .ret a, Q => Q a
  | .peekThen k, Q => ∀ x, TokB B x → bz B (k x) Q
  | .peekSkipThen k, Q => ∀ x, TokB B x → bz B (k x) Q
  | .bumpThen k, Q => ∀ x, Sp B x → bz B (k x) Q
  | .addErrorThen e k, Q => (∀ s ∈ e.spans, Sp B s) ∧ bz B k Q
  | .leadingThen k, Q => ∀ x, LeadV x → bz B (k x) Q
  | .trailingThen l k, Q => LeadV l ∧ ∀ x, CommB x → bz B (k x) Q
  | .setTextModeThen _ k, Q => bz B k Q
  | .assertNoPeekThen k, Q => bz B k Q
  | .failed, _ => True
  | .panicked, _ => True
  | .outOfFuel, _ => True

theorem bz.run {α : Type} (p : Prog α) {Q : α → Prop} (h : bz B p Q) : Keeps B p.run Q := by
  induction p with
  | ret a => exact .pure h
  | peekThen k ih => exact Keeps.bind keeps_peek fun x hx => ih x (h x hx)
  | peekSkipThen k ih => exact Keeps.bind keeps_peekSkip fun x hx => ih x (h x hx)
  | bumpThen k ih => exact Keeps.bind keeps_bump fun x hx => ih x (h x hx)
  | addErrorThen e k ih => exact Keeps.bind (keeps_addError h.1) fun x hx => ih h.2
  | leadingThen k ih => exact Keeps.bind keeps_leading fun x hx => ih x (h x hx)
  | trailingThen l k ih => exact Keeps.bind (keeps_trailing h.1) fun x hx => ih x (h.2 x hx)
  | setTextModeThen b k ih => exact fun s hs => ih h _ ⟨hs.pv, hs.errs, hs.cached, hs.comm⟩
  | assertNoPeekThen k ih =>
    intro s hs
    unfold Prog.run
    split
    · exact ih h s hs
    · exact ⟨hs, nofun⟩
  | failed => exact fun s hs => ⟨hs, nofun⟩
  | panicked => exact fun s hs => ⟨hs, nofun⟩
  | outOfFuel => exact fun s hs => ⟨hs, nofun⟩

theorem bz_bind' {α β : Type} (p : Prog α) {f : α → Prog β} {Q : α → Prop} {Q' : β → Prop} (h : bz B p Q)
    (hf : ∀ a, Q a → bz B (f a) Q') : bz B (p.bind f) Q' := by
  induction p with
  | ret a => exact hf a h
  | peekThen k ih => exact fun x hx => ih x (h x hx)
  | peekSkipThen k ih => exact fun x hx => ih x (h x hx)
  | bumpThen k ih => exact fun x hx => ih x (h x hx)
  | addErrorThen e k ih => exact ⟨h.1, ih h.2⟩
  | leadingThen k ih => exact fun x hx => ih x (h x hx)
  | trailingThen l k ih => exact ⟨h.1, fun x hx => ih x (h.2 x hx)⟩
  | setTextModeThen b k ih => exact ih h
  | assertNoPeekThen k ih => exact ih h
  | failed => trivial
  | panicked => trivial
  | outOfFuel => trivial

theorem bz_bind {α β : Type} {p : Prog α} {f : α → Prog β} {Q : α → Prop} {Q' : β → Prop} (h : bz B p Q)
    (hf : ∀ a, Q a → bz B (f a) Q') : bz B (p >>= f) Q' := bz_bind' p h hf

theorem bz_pure {α : Type} {a : α} {Q : α → Prop} (h : Q a) : bz B (pure a) Q := h

theorem bz_peek {α : Type} {f : Option (Token × Span) → Prog α} {Q : α → Prop}
    (h1 : ∀ t sp, Sp B sp → bz B (f (some (t, sp))) Q) (h2 : bz B (f none) Q) : bz B (Prog.peek >>= f) Q := by
  intro x hx
  cases x with
  | none => exact h2
  | some x => exact h1 _ _ (hx _ _ rfl).1

theorem bz_peekSkip {α : Type} {f : Option (Token × Span) → Prog α} {Q : α → Prop}
    (h1 : ∀ t sp, Sp B sp → bz B (f (some (t, sp))) Q) (h2 : bz B (f none) Q) : bz B (Prog.peekSkip >>= f) Q := by
  intro x hx
  cases x with
  | none => exact h2
  | some x => exact h1 _ _ (hx _ _ rfl).1

theorem bz_bump {α : Type} {f : Span → Prog α} {Q : α → Prop}
    (h : ∀ sp, Sp B sp → bz B (f sp) Q) : bz B (Prog.bump >>= f) Q := h

theorem bz_leading {α : Type} {f : List Bytes × Option Bytes → Prog α} {Q : α → Prop}
    (h : ∀ sp, LeadV sp → bz B (f sp) Q) : bz B (Prog.leading >>= f) Q := h

theorem bz_trailing {α : Type} {l} {f : Ast.Comments → Prog α} {Q : α → Prop}
    (hl : LeadV l) (h : ∀ sp, CommB sp → bz B (f sp) Q) : bz B (Prog.trailing l >>= f) Q := ⟨hl, h⟩

theorem bz_addError {α : Type} {e} {f : Unit → Prog α} {Q : α → Prop}
    (he : ∀ s ∈ ParseErrorKind.spans e, Sp B s) (h : bz B (f ()) Q) : bz B (Prog.addError e >>= f) Q := ⟨he, h⟩

theorem bz_unexpected {α : Type} {ex : Expect} {Q : α → Prop} : bz B (unexpected ex : Prog α) Q := by
  apply bz_peekSkip
  · intro t sp h
    exact ⟨all_one h, trivial⟩
  · exact ⟨nofun, trivial⟩

def StepB {σ β : Type} (I : σ → Prop) (Q : β → Prop) : Step σ β → Prop
  | .next s => I s
  | .done b => Q b

theorem bz_loopM {σ β : Type} {step : σ → Prog (Step σ β)} {I : σ → Prop} {Q : β → Prop}
    (h : ∀ s, I s → bz B (step s) (StepB I Q)) : ∀ n s, I s → bz B (loopM step n s) Q
  | 0, _, _ => trivial
  | n + 1, s, hs => by
    refine bz_bind (h s hs) fun a ha => ?_
    cases a with
    | next s' => exact bz_loopM h n s' ha
    | done b => exact ha

theorem bz_expectEq {t : Token} : bz B (expectEq t) (Sp B) := by
  apply bz_peekSkip
  · intro _ _ _
    simp only
    split
    · exact fun x hx => hx
    · exact bz_unexpected
  · exact bz_unexpected

end Verif.Text
