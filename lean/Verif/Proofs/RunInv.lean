import Verif.Model.Parser
import Verif.Proofs.Tokens
/-!
Properties of the parser state that every grammar method keeps; in particular: a parse that recorded no error has
lexed every token of the source without an error.
-/
namespace Verif.Parse
open Lex

/-- `p` keeps the property `I` of the parser state, whatever its outcome. -/
def Keeps (I : PState → Prop) {α : Type} (p : P α) : Prop := ∀ s, I s → I (p s).2

theorem Keeps.bind {I : PState → Prop} {α β : Type} {p : P α} {f : α → P β} (hp : Keeps I p) (hf : ∀ a, Keeps I (f a)) :
    Keeps I (p >>= f) := by
  intro s hs
  have h1 := hp s hs
  show I (P.bind p f s).2
  unfold P.bind
  rcases h : p s with ⟨r, s'⟩
  rw [h] at h1
  cases r with
  | ok a => exact hf a s' h1
  | err => exact h1
  | panic => exact h1
  | oof => exact h1

theorem Keeps.pure {I : PState → Prop} {α : Type} (a : α) : Keeps I (pure a : P α) := fun _ h => h

/-- A property of the parser state that survives the primitive operations other than reporting an error. -/
structure Stable0 (I : PState → Prop) : Prop where
  peekComments : Keeps I P.peekComments
  bump : Keeps I P.bump
  comments : ∀ s c, I s → I { s with comments := c }
  tf : ∀ s b, I s → I { s with tf := b }
  clear : ∀ s, I s → I { s with peek := none }

/-- A property of the parser state that survives the primitive operations. -/
structure Stable (I : PState → Prop) : Prop extends Stable0 I where
  addError : ∀ s e, I s → I { s with errs := s.errs ++ [e] }

namespace Stable0
variable {I : PState → Prop} (hI : Stable0 I)
include hI

theorem onComments (f : CState → Option CState) : Keeps I (P.onComments f) := by
  intro s hs
  unfold P.onComments
  split
  · exact hI.comments s _ hs
  · exact hs

theorem peekSkipLoop : ∀ n, Keeps I (P.peekSkipLoop n)
  | 0 => fun _ h => h
  | n + 1 => by
    refine hI.peekComments.bind fun x => ?_
    cases x with
    | none => exact Keeps.pure _
    | some t =>
      dsimp only
      split
      · exact hI.bump.bind fun _ => peekSkipLoop n
      · exact Keeps.pure _

theorem peekSkip : Keeps I P.peekSkip := fun s hs => hI.peekSkipLoop _ s hs

theorem peekLoop : ∀ n, Keeps I (P.peekLoop n)
  | 0 => fun _ h => h
  | n + 1 => by
    refine hI.peekComments.bind fun x => ?_
    split
    · exact hI.bump.bind fun _ => (hI.onComments _).bind fun _ => peekLoop n
    · refine hI.bump.bind fun _ => (hI.onComments _).bind fun _ => hI.peekComments.bind fun y => ?_
      split
      · exact hI.bump.bind fun _ => peekLoop n
      · exact peekLoop n
    · exact hI.bump.bind fun _ => (hI.onComments _).bind fun _ => (hI.onComments _).bind fun _ => peekLoop n
    · exact (hI.onComments _).bind fun _ => Keeps.pure _
    · split
      · exact (hI.onComments _).bind fun _ => Keeps.pure _
      · exact Keeps.pure _

theorem peekRest : Keeps I P.peekRest := fun s hs => hI.peekLoop _ s hs

theorem peekFirst : Keeps I P.peekFirst := by
  refine hI.peekComments.bind fun x => ?_
  split
  · exact hI.bump.bind fun _ => (hI.onComments _).bind fun _ => (hI.onComments _).bind fun _ => hI.peekRest
  · refine hI.bump.bind fun _ => hI.peekComments.bind fun y => ?_
    split
    · exact hI.bump.bind fun _ => (hI.onComments _).bind fun _ => hI.peekRest
    · exact hI.peekSkip
  · exact hI.bump.bind fun _ => hI.peekRest
  · exact Keeps.pure _

theorem peek : Keeps I P.peek := by
  intro s hs
  unfold P.peek
  split
  · exact hI.peekFirst s hs
  · exact hI.peekRest s hs

theorem peekIgnore : Keeps I P.peekIgnore := by
  intro s hs
  have h := hI.peek s hs
  unfold P.peekIgnore
  rcases hp : P.peek s with ⟨r, s'⟩
  rw [hp] at h
  cases r <;> exact h

theorem leading : Keeps I P.leading :=
  hI.peekIgnore.bind fun _ => fun s hs => hI.comments s _ hs

theorem trailing (l) : Keeps I (P.trailing l) :=
  hI.peekIgnore.bind fun _ => Keeps.bind (fun s hs => hI.comments s _ hs) fun _ => Keeps.pure _

theorem skipUntil : ∀ n, Keeps I (P.skipUntil n)
  | 0 => fun _ h => h
  | n + 1 => by
    intro s hs
    have h := hI.peek s hs
    unfold P.skipUntil
    rcases hp : P.peek s with ⟨r, s'⟩
    rw [hp] at h
    rcases r with (_ | t) | _ | _ | _
    · exact h
    · dsimp only
      split
      · exact h
      · have h2 := hI.bump s' h
        rcases hb : P.bump s' with ⟨r2, s2⟩
        rw [hb] at h2
        cases r2 with
        | ok _ => exact skipUntil n s2 h2
        | _ => exact h2
    · exact skipUntil n _ (hI.clear s' h)
    · exact h
    · exact h

end Stable0

namespace Stable
variable {I : PState → Prop} (hI : Stable I)
include hI

theorem run {α : Type} (p : Prog α) : Keeps I p.run := by
  induction p with
  | ret a => exact fun _ h => h
  | peekThen k ih => exact hI.peek.bind ih
  | peekSkipThen k ih => exact hI.peekSkip.bind ih
  | bumpThen k ih => exact hI.bump.bind ih
  | addErrorThen e k ih =>
    exact Keeps.bind (p := P.addError e) (fun s hs => hI.addError s e hs) fun _ => ih
  | leadingThen k ih => exact hI.leading.bind ih
  | trailingThen l k ih => exact (hI.trailing l).bind ih
  | setTextModeThen b k ih => exact fun s hs => ih _ (hI.tf s b hs)
  | assertNoPeekThen k ih =>
    intro s hs
    show I (if s.peek.isNone then k.run s else (.panic, s)).2
    split
    · exact ih s hs
    · exact hs
  | failed => exact fun _ h => h
  | panicked => exact fun _ h => h
  | outOfFuel => exact fun _ h => h

theorem fileLoop [FloatFmt] (fuel : Nat) : ∀ n acc, Keeps I (P.fileLoop fuel n acc)
  | 0, _ => fun _ h => h
  | n + 1, acc => by
    intro s hs
    have h := hI.run (parseStatement fuel) s hs
    unfold P.fileLoop
    rcases hp : (parseStatement fuel).run s with ⟨r, s'⟩
    rw [hp] at h
    rcases r with (_ | t) | _ | _ | _
    · exact h
    · dsimp only
      split
      · exact fileLoop fuel n _ _ h
      · exact fileLoop fuel n _ _ (hI.addError _ _ h)
    · dsimp only
      split
      · exact h
      · have h2 := hI.skipUntil (s'.rest.length + 3) s' h
        rcases hb : P.skipUntil (s'.rest.length + 3) s' with ⟨r2, s2⟩
        rw [hb] at h2
        cases r2 with
        | ok _ => exact fileLoop fuel n _ s2 h2
        | _ => exact h2
    · exact h
    · exact h

theorem parseFile [FloatFmt] (fuel len : Nat) : Keeps I (P.parseFile fuel len) :=
  (hI.run _).bind fun _ => (hI.fileLoop _ _ _).bind fun _ => Keeps.pure _

end Stable

/-! ## The end of the file -/

/-- A look ahead that finds nothing has read the whole source. -/
def Eof (p : P (Option STok)) : Prop := ∀ s s', p s = (.ok none, s') → s'.rest = []

theorem eof_bind {α : Type} {p : P α} {f : α → P (Option STok)} (hf : ∀ a, Eof (f a)) : Eof (p >>= f) := by
  intro s s' h
  change P.bind p f s = _ at h
  unfold P.bind at h
  rcases hp : p s with ⟨r, s1⟩
  rw [hp] at h
  cases r with
  | ok a => exact hf a _ _ h
  | err => cases h
  | panic => cases h
  | oof => cases h

theorem eof_some (t : STok) : Eof (pure (some t)) := fun s s' h => by cases h

theorem peekComments_none {s s' : PState} (h : P.peekComments s = (.ok none, s')) : s'.rest = [] := by
  unfold P.peekComments at h
  split at h
  · cases h
  · cases h
  · have f := (next_facts s.tf s.pos s.rest s.errs).eof_rest
    generalize Lex.next s.tf s.pos s.rest s.errs = o at *
    cases hr : o.res with
    | eof => simp only [hr] at h; cases h; exact (f hr).1
    | tok t => simp only [hr] at h; cases h
    | error => simp only [hr] at h; cases h

theorem onComments_rest {f s s' x} (h : P.onComments f s = (.ok x, s')) : s'.rest = s.rest := by
  unfold P.onComments at h
  split at h
  · cases h; rfl
  · cases h

/-- After `peek_comments`. -/
theorem eof_peekComments {f : Option STok → P (Option STok)} (hn : ∀ s s', s.rest = [] → f none s = (.ok none, s') → s'.rest = [])
    (hs : ∀ t, Eof (f (some t))) : Eof (P.peekComments >>= f) := by
  intro s s' h
  change P.bind P.peekComments f s = _ at h
  unfold P.bind at h
  rcases hp : P.peekComments s with ⟨r, s1⟩
  rw [hp] at h
  rcases r with (_ | t) | _ | _ | _
  · exact hn _ _ (peekComments_none hp) h
  · exact hs t _ _ h
  · cases h
  · cases h
  · cases h

theorem eof_skip : ∀ n, Eof (P.peekSkipLoop n)
  | 0 => fun s s' h => by cases h
  | n + 1 => by
    refine eof_peekComments (fun s s' hr h => ?_) fun t => ?_
    · cases h; exact hr
    · dsimp only
      split
      · exact eof_bind fun _ => eof_skip n
      · exact eof_some _

theorem eof_loop : ∀ n, Eof (P.peekLoop n)
  | 0 => fun s s' h => by cases h
  | n + 1 => by
    refine eof_peekComments (fun s s' hr h => ?_) fun t => ?_
    · dsimp only at h
      change P.bind _ _ s = _ at h
      unfold P.bind at h
      rcases hp : P.onComments (·.flush) s with ⟨r, s1⟩
      rw [hp] at h
      cases r with
      | ok a => cases h; rw [onComments_rest hp, hr]
      | err => cases h
      | panic => cases h
      | oof => cases h
    · split
      · exact eof_bind fun _ => eof_bind fun _ => eof_loop n
      · refine eof_bind fun _ => eof_bind fun _ => eof_bind fun y => ?_
        split
        · exact eof_bind fun _ => eof_loop n
        · exact eof_loop n
      · exact eof_bind fun _ => eof_bind fun _ => eof_bind fun _ => eof_loop n
      · rename_i heq; cases heq
      · split
        · exact eof_bind fun _ => eof_some _
        · exact eof_some _

theorem eof_rest : Eof P.peekRest := fun s s' h => eof_loop _ s s' h

theorem eof_first : Eof P.peekFirst := by
  refine eof_peekComments (fun s s' hr h => ?_) fun t => ?_
  · cases h; exact hr
  · split
    · exact eof_bind fun _ => eof_bind fun _ => eof_bind fun _ => eof_rest
    · refine eof_bind fun _ => eof_bind fun y => ?_
      split
      · exact eof_bind fun _ => eof_bind fun _ => eof_rest
      · exact fun s s' h => eof_skip _ s s' h
    · exact eof_bind fun _ => eof_rest
    · exact eof_some _

theorem eof_peek : Eof P.peek := by
  intro s s' h
  unfold P.peek at h
  split at h
  · exact eof_first s s' h
  · exact eof_rest s s' h

/-- All results of the program satisfy `Q`. -/
def Rets {α : Type} (Q : α → Prop) : Prog α → Prop
  | .ret a => Q a
  | .peekThen k => ∀ x, Rets Q (k x)
  | .peekSkipThen k => ∀ x, Rets Q (k x)
  | .bumpThen k => ∀ x, Rets Q (k x)
  | .addErrorThen _ k => Rets Q k
  | .leadingThen k => ∀ x, Rets Q (k x)
  | .trailingThen _ k => ∀ x, Rets Q (k x)
  | .setTextModeThen _ k => Rets Q k
  | .assertNoPeekThen k => Rets Q k
  | .failed => True
  | .panicked => True
  | .outOfFuel => True

theorem rets_bind {α β : Type} {Q : β → Prop} (p : Prog α) {f : α → Prog β} (hf : ∀ a, Rets Q (f a)) : Rets Q (p >>= f) := by
  show Rets Q (p.bind f)
  induction p with
  | ret a => exact hf a
  | peekThen k ih => exact ih
  | peekSkipThen k ih => exact ih
  | bumpThen k ih => exact ih
  | addErrorThen e k ih => exact ih
  | leadingThen k ih => exact ih
  | trailingThen l k ih => exact ih
  | setTextModeThen b k ih => exact ih
  | assertNoPeekThen k ih => exact ih
  | failed => trivial
  | panicked => trivial
  | outOfFuel => trivial

theorem rets_run {α : Type} {Q : α → Prop} : ∀ (p : Prog α), Rets Q p → ∀ {s a s'}, p.run s = (.ok a, s') → Q a := by
  have bind : ∀ {β : Type} (q : P β) (f : β → P α), (∀ b s a s', f b s = (.ok a, s') → Q a) →
      ∀ s a s', P.bind q f s = (.ok a, s') → Q a := by
    intro β q f hf s a s' h
    unfold P.bind at h
    rcases hq : q s with ⟨r, s1⟩
    rw [hq] at h
    cases r with
    | ok b => exact hf b _ _ _ h
    | err => cases h
    | panic => cases h
    | oof => cases h
  intro p
  induction p with
  | ret a => intro hq s a s' h; cases h; exact hq
  | peekThen k ih => intro hq s a s' h; exact bind _ _ (fun b s a s' h => ih b (hq b) h) _ _ _ h
  | peekSkipThen k ih => intro hq s a s' h; exact bind _ _ (fun b s a s' h => ih b (hq b) h) _ _ _ h
  | bumpThen k ih => intro hq s a s' h; exact bind _ _ (fun b s a s' h => ih b (hq b) h) _ _ _ h
  | addErrorThen e k ih => intro hq s a s' h; exact bind _ _ (fun b s a s' h => ih hq h) _ _ _ h
  | leadingThen k ih => intro hq s a s' h; exact bind _ _ (fun b s a s' h => ih b (hq b) h) _ _ _ h
  | trailingThen l k ih => intro hq s a s' h; exact bind _ _ (fun b s a s' h => ih b (hq b) h) _ _ _ h
  | setTextModeThen b k ih => intro hq s a s' h; exact ih hq h
  | assertNoPeekThen k ih =>
    intro hq s a s' h
    simp only [Prog.run] at h
    split at h
    · exact ih hq h
    · cases h
  | failed => intro _ s a s' h; cases h
  | panicked => intro _ s a s' h; cases h
  | outOfFuel => intro _ s a s' h; cases h

theorem rets_some {α : Type} (a : α) : Rets (· ≠ none) (pure (some a) : Prog (Option α)) := by
  show some a ≠ none
  simp

theorem parseStatement_none [FloatFmt] {fuel s s'} (h : (parseStatement fuel).run s = (.ok none, s')) : s'.rest = [] := by
  unfold parseStatement at h
  change P.bind P.peek _ s = _ at h
  unfold P.bind at h
  rcases hp : P.peek s with ⟨r, s1⟩
  rw [hp] at h
  rcases r with (_ | t) | _ | _ | _
  · cases h
    exact eof_peek _ _ hp
  · dsimp only at h
    exfalso
    refine rets_run (Q := (· ≠ none)) _ ?_ h rfl
    have hu : Rets (· ≠ none) (unexpected Says.statement : Prog (Option Statement)) := by
      refine rets_bind _ fun x => ?_
      cases x <;> trivial
    simp only [Prog.bind]
    repeat' split
    all_goals first
      | exact rets_bind _ fun _ => rets_some _
      | exact hu
  · cases h
  · cases h
  · cases h

/-! ## Lexing errors -/

/-- If no error has been recorded and the rest lexes without errors then so does the whole source. -/
def LexedOk (src : Bytes) (s : PState) : Prop :=
  s.errs = [] → lexCleanIn true s.pos s.rest = true → lexCleanIn true 0 src = true

theorem next_clean_true {tf pos s errs} (h : (Lex.next tf pos s errs).errs = []) :
    errs = [] ∧ (Lex.next true pos s []).errs = [] := by
  have he : errs = [] := by
    cases errs with
    | nil => rfl
    | cons e es => exact absurd h ((next_facts tf pos s (e :: es)).errs_ne (by simp))
  subst he
  refine ⟨rfl, ?_⟩
  cases tf with
  | true => exact h
  | false => exact next_clean true pos pos s [] h

theorem lexedOk_stable (src : Bytes) : Stable (LexedOk src) where
  peekComments := by
    intro s hs
    unfold P.peekComments
    split
    · exact hs
    · exact hs
    · have main : (Lex.next s.tf s.pos s.rest s.errs).errs = [] →
          lexCleanIn true (Lex.next s.tf s.pos s.rest s.errs).span.stop (Lex.next s.tf s.pos s.rest s.errs).rest = true →
          lexCleanIn true 0 src = true := by
        intro h1 h2
        obtain ⟨h3, h4⟩ := next_clean_true h1
        refine hs h3 ?_
        obtain ⟨a1, a2, a3⟩ := next_same s.tf s.pos s.rest s.errs
        obtain ⟨b1, b2, b3⟩ := next_same true s.pos s.rest []
        rw [a2, a3, ← b2, ← b3] at h2
        rw [lexCleanIn_unfold, h4]
        simp only [decide_true, Bool.true_and]
        split
        · rfl
        · exact h2
      generalize Lex.next s.tf s.pos s.rest s.errs = o at *
      cases hr : o.res with
      | eof => simp only [hr]; exact main
      | tok t => simp only [hr]; exact main
      | error =>
        simp only [hr]
        intro h1
        simp at h1
  bump := by
    intro s hs
    unfold P.bump
    split
    · split <;> exact hs
    · exact hs
  comments := fun s c hs => hs
  addError := fun s e _ h => by simp at h
  tf := fun s b hs => hs
  clear := fun s hs => hs

theorem fileLoop_end [FloatFmt] {fuel : Nat} : ∀ n acc s a s', P.fileLoop fuel n acc s = (.ok a, s') → s'.rest = []
  | 0, _, _, _, _, h => by cases h
  | n + 1, acc, s, a, s', h => by
    unfold P.fileLoop at h
    rcases hp : (parseStatement fuel).run s with ⟨r, s1⟩
    rw [hp] at h
    rcases r with (_ | t) | _ | _ | _
    · cases h; exact parseStatement_none hp
    · dsimp only at h
      split at h
      · exact fileLoop_end n _ _ _ _ h
      · exact fileLoop_end n _ _ _ _ h
    · dsimp only at h
      split at h
      · cases h
      · rcases hb : P.skipUntil (s1.rest.length + 3) s1 with ⟨r2, s2⟩
        rw [hb] at h
        cases r2 with
        | ok _ => exact fileLoop_end n _ _ _ _ h
        | err => cases h
        | panic => cases h
        | oof => cases h
    · cases h
    · cases h

/-- A file that parses without errors lexes without errors (in the more permissive mode of the text format). -/
theorem parseFile_lexed [FloatFmt] {src : Bytes} {f} (h : parseFile src = .ok (.ok f)) : lexCleanIn true 0 src = true := by
  unfold parseFile at h
  rcases hp : P.parseFile (src.length + 3) src.length (PState.init src) with ⟨r, s⟩
  have hk := (lexedOk_stable src).parseFile (src.length + 3) src.length (PState.init src) (fun _ h => h)
  rw [hp] at h hk
  cases r with
  | ok a =>
    dsimp only at h
    split at h
    · rename_i he
      refine hk he ?_
      have hrest : s.rest = [] := by
        change P.bind _ _ _ = _ at hp
        unfold P.bind at hp
        rcases h1 : (parseHeader (src.length + 3) src.length).run (PState.init src) with ⟨r1, s1⟩
        rw [h1] at hp
        rcases r1 with ⟨syn, synSpan, span⟩ | _ | _ | _
        · dsimp only at hp
          change P.bind _ _ _ = _ at hp
          unfold P.bind at hp
          rcases h2 : P.fileLoop (src.length + 3) (src.length + 3) { span } s1 with ⟨r2, s2⟩
          rw [h2] at hp
          cases r2 with
          | ok _ => cases hp; exact fileLoop_end _ _ _ _ _ h2
          | err => cases hp
          | panic => cases hp
          | oof => cases hp
        · cases hp
        · cases hp
        · cases hp
      rw [hrest, lexCleanIn_unfold]
      simp [Lex.next]
    · cases h
  | err => cases h
  | panic => cases h
  | oof => cases h

end Verif.Parse
