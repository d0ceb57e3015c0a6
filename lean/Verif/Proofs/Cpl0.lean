import Verif.Spec.Modes
import Verif.Proofs.Snd7
import Verif.Proofs.RunInv
/-!
Completeness of the parser: weakest preconditions over sequences of tokens without errors, and their soundness for the
parser on source bytes.
-/
namespace Verif.Parse
open Lex

/-! ## Lexing without errors -/

theorem lexOkN_enough : ∀ (n k : Nat) (m : Mode) (pos : Nat) (s : Bytes), s.length < n → s.length < k →
    lexOkN n m pos s = lexOkN k m pos s := by
  intro n
  induction n with
  | zero => intro k m pos s h; omega
  | succ n ih =>
    intro k m pos s h1 h2
    cases k with
    | zero => omega
    | succ k =>
      simp only [lexOkN]
      have hlt := next_rest_lt' m.text pos s
      congr 1
      split
      · rfl
      · rename_i heq
        have := hlt (by simp [heq])
        rw [ih k] <;> omega
      · rfl

/-- The rest of a source lexes without errors. -/
def okFrom (m : Mode) (pos : Nat) (s : Bytes) : Bool := lexOkN (s.length + 1) m pos s

theorem okFrom_unfold (m : Mode) (pos : Nat) (s : Bytes) :
    okFrom m pos s = (decide ((Lex.next m.text pos s []).errs = []) &&
      match (Lex.next m.text pos s []).res with
      | .eof => true
      | .tok t => okFrom (m.step t) (Lex.next m.text pos s []).span.stop (Lex.next m.text pos s []).rest
      | .error => false) := by
  have hlt := next_rest_lt' m.text pos s
  rw [okFrom, lexOkN]
  rcases hr : (Lex.next m.text pos s []).res with _ | t | _
  · simp [hr]
  · rw [hr] at hlt
    have h := hlt (by simp)
    simp only [hr, okFrom]
    rw [lexOkN_enough s.length ((Lex.next m.text pos s []).rest.length + 1)] <;> omega
  · simp [hr]

theorem next_errs_nil {tf pos s errs} :
    (Lex.next tf pos s errs).errs = [] ↔ errs = [] ∧ (Lex.next tf pos s []).errs = [] := by
  cases errs with
  | nil => simp
  | cons e es => simp [(next_facts tf pos s (e :: es)).errs_ne (by simp)]

theorem Mode.step_trivia {t : Token} (h : t.isTrivia = true) (m : Mode) : m.step t = m := by
  cases t <;> first | (cases h; done) | (cases m <;> rfl) | (cases m <;> rename_i b <;> cases b <;> rfl)

/-! ## The invariant of lexing -/

/-- Where the token after the cached one stands. -/
def modeAt (m : Mode) : Option (Except Unit STok) → Mode
  | some (.ok t) => m.step t.1
  | _ => m

/-- `K`: the source lexes without errors. `m`: where the next token stands. -/
structure J (K : Prop) (m : Mode) (s : PState) : Prop where
  clean : K ↔ s.errs = [] ∧ okFrom (modeAt m s.peek) s.pos s.rest = true
  tf : s.tf = m.text ∨ ∃ t, s.peek = some (.ok t) ∧ t.1.isTrivia = false

/-- Results of `p` (from states with `A`). -/
def Hoare {α : Type} (A : PState → Prop) (p : P α) (B : α → PState → Prop) : Prop :=
  ∀ s a s', A s → p s = (.ok a, s') → B a s'

theorem Hoare.bind {α β : Type} {A : PState → Prop} {p : P α} {f : α → P β} {B : α → PState → Prop} {C : β → PState → Prop}
    (h1 : Hoare A p B) (h2 : ∀ a, Hoare (B a) (f a) C) : Hoare A (p >>= f) C := by
  intro s a s' hA h
  change P.bind p f s = _ at h
  unfold P.bind at h
  rcases hp : p s with ⟨r, s1⟩
  rw [hp] at h
  cases r with
  | ok b => exact h2 b _ _ _ (h1 _ _ _ hA hp) h
  | err => cases h
  | panic => cases h
  | oof => cases h

theorem Hoare.pure {α : Type} {A : PState → Prop} {B : α → PState → Prop} (a : α) (h : ∀ s, A s → B a s) :
    Hoare A (pure a : P α) B := by
  intro s b s' hA he
  cases he
  exact h s hA

section
variable {K : Prop} {m : Mode}

theorem J.comments {s : PState} (h : J K m s) (c) : J K m { s with comments := c } := ⟨h.clean, h.tf⟩

theorem peekComments_J : Hoare (J K m) P.peekComments (fun x s => J K m s ∧ s.peek = x.map Except.ok) := by
  intro s x s' h he
  unfold P.peekComments at he
  rcases hp : s.peek with _ | u | t
  · rw [hp] at he
    have htf : s.tf = m.text := by
      rcases h.tf with h1 | ⟨t, h1, _⟩
      · exact h1
      · rw [hp] at h1; cases h1
    have hc := h.clean
    rw [hp] at hc
    have hn := next_errs_nil (tf := m.text) (pos := s.pos) (s := s.rest) (errs := s.errs)
    obtain ⟨a1, a2, a3⟩ := next_same m.text s.pos s.rest s.errs
    obtain ⟨b1, b2, b3⟩ := next_same m.text s.pos s.rest []
    have hcl : K ↔ (Lex.next m.text s.pos s.rest s.errs).errs = [] ∧
      (match (Lex.next m.text s.pos s.rest s.errs).res with
      | .eof => true
      | .tok t => okFrom (m.step t) (Lex.next m.text s.pos s.rest s.errs).span.stop (Lex.next m.text s.pos s.rest s.errs).rest
      | .error => false) = true := by
      rw [hc]
      simp only [modeAt]
      rw [okFrom_unfold, hn, a1, a2, a3, b1, b2, b3]
      simp only [Bool.and_eq_true, decide_eq_true_eq]
      constructor
      · rintro ⟨h1, h2, h3⟩; exact ⟨⟨h1, h2⟩, h3⟩
      · rintro ⟨⟨h1, h2⟩, h3⟩; exact ⟨h1, h2, h3⟩
    have f := next_facts s.tf s.pos s.rest s.errs
    rw [← htf] at hcl
    simp only at he
    generalize Lex.next s.tf s.pos s.rest s.errs = o at *
    cases hr : o.res with
    | eof =>
      rw [hr] at he hcl
      cases he
      refine ⟨⟨?_, .inl htf⟩, rfl⟩
      rw [hcl]
      simp only [modeAt]
      rw [(f.eof_rest hr).1, okFrom_unfold]
      simp [Lex.next]
    | tok t =>
      rw [hr] at he hcl
      cases he
      exact ⟨⟨hcl, .inl htf⟩, rfl⟩
    | error =>
      rw [hr] at he
      cases he
  · rw [hp] at he; cases he
  · rw [hp] at he; cases he; exact ⟨h, hp⟩

theorem bump_J {t : STok} (ht : t.1.isTrivia = true) :
    Hoare (fun s => J K m s ∧ s.peek = (some t).map Except.ok) P.bump (fun _ => J K m) := by
  rintro s a s' ⟨h, hp⟩ he
  simp only [Option.map_some] at hp
  simp only [P.bump, hp, ht, if_true] at he
  cases he
  refine ⟨?_, ?_⟩
  · rw [h.clean, hp]
    simp only [modeAt, Mode.step_trivia ht]
  · rcases h.tf with h1 | ⟨t', h1, h2⟩
    · exact .inl h1
    · rw [hp] at h1; cases h1; rw [ht] at h2; cases h2

theorem onComments_J (f) : Hoare (J K m) (P.onComments f) (fun _ => J K m) := by
  intro s a s' h he
  unfold P.onComments at he
  split at he
  · cases he; exact h.comments _
  · cases he

theorem Hoare.pre {α : Type} {A A' : PState → Prop} {p : P α} {B : α → PState → Prop} (h : Hoare A' p B) (hA : ∀ s, A s → A' s) :
    Hoare A p B := fun s a s' hs => h s a s' (hA s hs)

theorem skipLoop_J : ∀ n, Hoare (J K m) (P.peekSkipLoop n) (fun _ => J K m)
  | 0 => fun s a s' _ h => by cases h
  | n + 1 => by
    refine peekComments_J.bind fun x => ?_
    cases x with
    | none => exact Hoare.pure _ fun s h => h.1
    | some t =>
      dsimp only
      split
      · rename_i ht
        exact (bump_J ht).bind fun _ => skipLoop_J n
      · exact Hoare.pure _ fun s h => h.1

theorem skip_J : Hoare (J K m) P.peekSkip (fun _ => J K m) := fun s a s' h he => skipLoop_J _ s a s' h he

theorem loop_J : ∀ n, Hoare (J K m) (P.peekLoop n) (fun _ => J K m)
  | 0 => fun s a s' _ h => by cases h
  | n + 1 => by
    refine peekComments_J.bind fun x => ?_
    split
    · exact (bump_J rfl).bind fun _ => (onComments_J _).bind fun _ => loop_J n
    · refine (bump_J rfl).bind fun _ => (onComments_J _).bind fun _ => peekComments_J.bind fun y => ?_
      split
      · exact (bump_J rfl).bind fun _ => loop_J n
      · exact (loop_J n).pre fun s h => h.1
    · exact (bump_J rfl).bind fun _ => (onComments_J _).bind fun _ => (onComments_J _).bind fun _ => loop_J n
    · exact ((onComments_J _).pre fun s h => h.1).bind fun _ => Hoare.pure _ fun s h => h
    · split
      · exact ((onComments_J _).pre fun s h => h.1).bind fun _ => Hoare.pure _ fun s h => h
      · exact Hoare.pure _ fun s h => h.1

theorem rest_J : Hoare (J K m) P.peekRest (fun _ => J K m) := fun s a s' h he => loop_J _ s a s' h he

theorem first_J : Hoare (J K m) P.peekFirst (fun _ => J K m) := by
  refine peekComments_J.bind fun x => ?_
  split
  · exact (bump_J rfl).bind fun _ => (onComments_J _).bind fun _ => (onComments_J _).bind fun _ => rest_J
  · refine (bump_J rfl).bind fun _ => peekComments_J.bind fun y => ?_
    split
    · exact (bump_J rfl).bind fun _ => (onComments_J _).bind fun _ => rest_J
    · exact skip_J.pre fun s h => h.1
  · exact (bump_J rfl).bind fun _ => rest_J
  · exact Hoare.pure _ fun s h => h.1

theorem peek_J : Hoare (J K m) P.peek (fun _ => J K m) := by
  intro s a s' h he
  unfold P.peek at he
  split at he
  · exact first_J s a s' h he
  · exact rest_J s a s' h he

end

/-! ## Weakest preconditions -/

/-- The parser as seen by a grammar method on input without errors. -/
structure TS where
  toks : List Token
  peeked : Bool
  tf : Bool
  mode : Mode

/-- Looking at the next token. -/
def TS.look (st : TS) : TS := { st with peeked := !st.toks.isEmpty }

/-- The next token is lexed in the mode it stands in. -/
def TS.ready (st : TS) : Prop := st.peeked = true ∨ st.tf = st.mode.text

/-- `wpc p Q st`: on the tokens of `st`, whatever their spans and the comments between them, `p` succeeds without
recording an error, with a result and a state that satisfy `Q`. -/
def wpc {α : Type} : Prog α → (α → TS → Prop) → TS → Prop
  | .ret a, Q, st => Q a st
  | .peekThen k, Q, st => st.ready ∧ ∀ sp, wpc (k (st.toks.head?.map (·, sp))) Q st.look
  | .peekSkipThen k, Q, st => st.ready ∧ ∀ sp, wpc (k (st.toks.head?.map (·, sp))) Q st.look
  | .bumpThen k, Q, st => match st.toks with
    | t :: r => st.peeked = true ∧ ∀ sp, wpc (k sp) Q ⟨r, false, st.tf, st.mode.step t⟩
    | [] => False
  | .addErrorThen _ _, _, _ => False
  | .leadingThen k, Q, st => st.ready ∧ ∀ c, wpc (k c) Q st.look
  | .trailingThen _ k, Q, st => st.ready ∧ ∀ c, wpc (k c) Q st.look
  | .setTextModeThen b k, Q, st => st.peeked = st.peeked ∧ wpc k Q { st with tf := b }
  | .assertNoPeekThen k, Q, st => st.peeked = false ∧ wpc k Q st
  | .failed, _, _ => False
  | .panicked, _, _ => False
  | .outOfFuel, _, _ => False

theorem wpc_bind {α β : Type} (p : Prog α) (f : α → Prog β) (Q : β → TS → Prop) (st : TS) :
    wpc (p >>= f) Q st ↔ wpc p (fun a st' => wpc (f a) Q st') st := by
  show wpc (p.bind f) Q st ↔ _
  induction p generalizing st with
  | ret a => exact Iff.rfl
  | peekThen k ih => simp only [Prog.bind, wpc, ih]
  | peekSkipThen k ih => simp only [Prog.bind, wpc, ih]
  | bumpThen k ih => simp only [Prog.bind, wpc]; split <;> simp [ih]
  | addErrorThen e k ih => exact Iff.rfl
  | leadingThen k ih => simp only [Prog.bind, wpc, ih]
  | trailingThen l k ih => simp only [Prog.bind, wpc, ih]
  | setTextModeThen b k ih => simp only [Prog.bind, wpc, ih]
  | assertNoPeekThen k ih => simp only [Prog.bind, wpc, ih]
  | failed => exact Iff.rfl
  | panicked => exact Iff.rfl
  | outOfFuel => exact Iff.rfl

theorem wpc_mono {α : Type} (p : Prog α) {Q Q' : α → TS → Prop} {st : TS} (hQ : ∀ a st, Q a st → Q' a st) (h : wpc p Q st) :
    wpc p Q' st := by
  induction p generalizing st with
  | ret a => exact hQ _ _ h
  | peekThen k ih => exact ⟨h.1, fun sp => ih _ (h.2 sp)⟩
  | peekSkipThen k ih => exact ⟨h.1, fun sp => ih _ (h.2 sp)⟩
  | bumpThen k ih =>
    simp only [wpc] at h ⊢
    split at h
    · exact ⟨h.1, fun sp => ih _ (h.2 sp)⟩
    · exact h
  | addErrorThen e k ih => exact h
  | leadingThen k ih => exact ⟨h.1, fun sp => ih _ (h.2 sp)⟩
  | trailingThen l k ih => exact ⟨h.1, fun sp => ih _ (h.2 sp)⟩
  | setTextModeThen b k ih => exact ⟨h.1, ih h.2⟩
  | assertNoPeekThen k ih => exact ⟨h.1, ih h.2⟩
  | failed => exact h
  | panicked => exact h
  | outOfFuel => exact h

/-! ## Soundness -/

/-- The byte-level parser and its token view. -/
structure Rc (L : Nat) (K : Prop) (s : PState) (st : TS) : Prop where
  r : ∃ ts : List STok, ts.map (·.1) = st.toks ∧ R L false s ⟨ts.map some, st.peeked, false⟩
  tf : s.tf = st.tf
  clean : K ↔ s.errs = [] ∧ okFrom (modeAt st.mode s.peek) s.pos s.rest = true

theorem Rc.j {L K s st} (h : Rc L K s st) (hr : st.ready) : J K st.mode s := by
  refine ⟨h.clean, ?_⟩
  rcases hr with hr | hr
  · obtain ⟨ts, _, hR⟩ := h.r
    have hp := hR.peeked
    simp only at hp
    rw [hr] at hp
    rcases hpk : s.peek with _ | u | t
    · rw [hpk] at hp; cases hp
    · have := hR.r0.cachedErr u hpk
      cases this
    · exact .inr ⟨t, rfl, hR.sig t hpk⟩
  · exact .inl (by rw [h.tf, hr])

theorem next_tf {s s' : PState} {a} (h : P.peekComments s = (.ok a, s')) : s'.tf = s.tf := by
  unfold P.peekComments at h
  split at h
  · cases h; rfl
  · cases h
  · dsimp only at h
    generalize Lex.next s.tf s.pos s.rest s.errs = o at h
    cases hr : o.res <;> rw [hr] at h <;> cases h <;> rfl

/-- `tf` is not changed by looking ahead. -/
theorem tf_stable (b : Bool) : Keeps (fun s => s.tf = b) P.peek ∧ Keeps (fun s => s.tf = b) P.peekSkip := by
  have pc : Keeps (fun s => s.tf = b) P.peekComments := by
    intro s hs
    unfold P.peekComments
    split
    · exact hs
    · exact hs
    · dsimp only
      generalize Lex.next s.tf s.pos s.rest s.errs = o
      cases hr : o.res <;> exact hs
  have bp : Keeps (fun s => s.tf = b) P.bump := by
    intro s hs
    unfold P.bump
    split
    · split <;> exact hs
    · exact hs
  have oc : ∀ f, Keeps (fun s => s.tf = b) (P.onComments f) := by
    intro f s hs
    unfold P.onComments
    split <;> exact hs
  have sl : ∀ n, Keeps (fun s => s.tf = b) (P.peekSkipLoop n) := by
    intro n
    induction n with
    | zero => exact fun _ h => h
    | succ n ih =>
      refine pc.bind fun x => ?_
      cases x with
      | none => exact Keeps.pure _
      | some t =>
        dsimp only
        split
        · exact bp.bind fun _ => ih
        · exact Keeps.pure _
  have pl : ∀ n, Keeps (fun s => s.tf = b) (P.peekLoop n) := by
    intro n
    induction n with
    | zero => exact fun _ h => h
    | succ n ih =>
      refine pc.bind fun x => ?_
      split
      · exact bp.bind fun _ => (oc _).bind fun _ => ih
      · refine bp.bind fun _ => (oc _).bind fun _ => pc.bind fun y => ?_
        split
        · exact bp.bind fun _ => ih
        · exact ih
      · exact bp.bind fun _ => (oc _).bind fun _ => (oc _).bind fun _ => ih
      · exact (oc _).bind fun _ => Keeps.pure _
      · split
        · exact (oc _).bind fun _ => Keeps.pure _
        · exact Keeps.pure _
  have ps : Keeps (fun s => s.tf = b) P.peekSkip := fun s hs => sl _ s hs
  have pr : Keeps (fun s => s.tf = b) P.peekRest := fun s hs => pl _ s hs
  refine ⟨?_, ps⟩
  intro s hs
  unfold P.peek
  split
  · refine Keeps.bind pc (fun x => ?_) s hs
    split
    · exact bp.bind fun _ => (oc _).bind fun _ => (oc _).bind fun _ => pr
    · refine bp.bind fun _ => pc.bind fun y => ?_
      split
      · exact bp.bind fun _ => (oc _).bind fun _ => pr
      · exact ps
    · exact bp.bind fun _ => pr
    · exact Keeps.pure _
  · exact pr s hs

/-- Looking ahead on input without errors. -/
theorem look_complete {L K s st} (h : Rc L K s st) (hr : st.ready) {pk : P (Option STok)}
    (hpk : pk = P.peek ∨ pk = P.peekSkip) :
    ∃ sp s', pk s = (.ok (st.toks.head?.map (·, sp)), s') ∧ Rc L K s' st.look := by
  obtain ⟨ts, hts, hR⟩ := h.r
  have hpk' : Pk L false (ts.map some) false (pk s) := by
    rcases hpk with rfl | rfl
    · exact peek_spec hR.r0
    · exact peekSkip_spec hR.r0
  have hj : ∀ a s', pk s = (.ok a, s') → J K st.mode s' := by
    intro a s' he
    rcases hpk with rfl | rfl
    · exact peek_J s a s' (h.j hr) he
    · exact skip_J s a s' (h.j hr) he
  have htf : (pk s).2.tf = st.tf := by
    rcases hpk with rfl | rfl
    · exact (tf_stable _).1 s h.tf
    · exact (tf_stable _).2 s h.tf
  rcases hres : pk s with ⟨x, s'⟩
  rw [hres] at hpk' htf
  have hlook : st.look.toks = st.toks ∧ st.look.tf = st.tf ∧ st.look.mode = st.mode := ⟨rfl, rfl, rfl⟩
  rcases x with (_ | t) | _ | _ | _
  · have h0 : ts = [] := by
      have := hpk'.2.1
      cases ts with
      | nil => rfl
      | cons => cases this
    subst h0
    have h1 : st.toks = [] := by rw [← hts]; rfl
    refine ⟨⟨0, 0⟩, s', by rw [h1]; rfl, ⟨[], by simp [TS.look, h1], ?_⟩, htf, (hj _ _ hres).clean⟩
    have := Pk.R (st := ⟨[], st.peeked, false⟩) hpk'
    simp only [AS.look] at this
    simpa [TS.look, h1] using this
  · obtain ⟨r, hr'⟩ := hpk'.tok
    cases ts with
    | nil => cases hr'
    | cons t' ts =>
      simp only [List.map_cons, List.cons.injEq, Option.some.injEq] at hr'
      obtain ⟨rfl, rfl⟩ := hr'
      have h1 : st.toks = t'.1 :: ts.map (·.1) := by rw [← hts]; rfl
      refine ⟨t'.2, s', by rw [h1]; rfl, ⟨t' :: ts, by simp [TS.look, h1], ?_⟩, htf, (hj _ _ hres).clean⟩
      have := Pk.R (st := ⟨(t' :: ts).map some, st.peeked, false⟩) hpk'
      simp only [AS.look, List.map_cons] at this
      simpa [TS.look, h1] using this
  · obtain ⟨⟨r, hr'⟩, _⟩ := hpk'
    cases ts <;> cases hr'
  · exact hpk'.elim
  · exact hpk'.elim

theorem Rc.comments {L K s st} (h : Rc L K s st) {c : CState} (hc : c.isTrailing = true → c.leadingDetached = []) :
    Rc L K { s with comments := c } st := by
  obtain ⟨ts, hts, hR⟩ := h.r
  exact ⟨⟨ts, hts, hR.r0.comments hc, hR.peeked, hR.sig⟩, h.tf, h.clean⟩

theorem Rc.comm {L K s st} (h : Rc L K s st) : s.comments.isTrailing = true → s.comments.leadingDetached = [] := by
  obtain ⟨ts, hts, hR⟩ := h.r
  exact hR.r0.comm

theorem leading_complete {L K s st} (h : Rc L K s st) (hr : st.ready) :
    ∃ c s', P.leading s = (.ok c, s') ∧ Rc L K s' st.look := by
  obtain ⟨sp, s', e, h'⟩ := look_complete h hr (.inl rfl)
  have e' : P.peekIgnore s = (.ok (), s') := by unfold P.peekIgnore; rw [e]
  unfold P.leading
  rw [bind_eq, e']
  exact ⟨_, _, rfl, h'.comments (by simp)⟩

theorem trailing_complete {L K s st} (l) (h : Rc L K s st) (hr : st.ready) :
    ∃ c s', P.trailing l s = (.ok c, s') ∧ Rc L K s' st.look := by
  obtain ⟨sp, s', e, h'⟩ := look_complete h hr (.inl rfl)
  have e' : P.peekIgnore s = (.ok (), s') := by unfold P.peekIgnore; rw [e]
  unfold P.trailing
  rw [bind_eq, e']
  simp only
  rw [bind_eq]
  simp only [P.takeTrailing]
  exact ⟨_, _, rfl, h'.comments h'.comm⟩

/-- Soundness of `wpc` for the parser on source bytes. -/
theorem run_complete {L : Nat} {K : Prop} {α : Type} (p : Prog α) {Q : α → TS → Prop} {s : PState} {st : TS} (h : Rc L K s st)
    (hw : wpc p Q st) : ∃ a s' st', p.run s = (.ok a, s') ∧ Rc L K s' st' ∧ Q a st' := by
  induction p generalizing s st with
  | ret a => exact ⟨a, s, st, rfl, h, hw⟩
  | peekThen k ih =>
    obtain ⟨sp, s', e, h'⟩ := look_complete h hw.1 (.inl rfl)
    show ∃ a s' st', P.bind P.peek _ s = _ ∧ _
    unfold P.bind
    rw [e]
    exact ih _ h' (hw.2 sp)
  | peekSkipThen k ih =>
    obtain ⟨sp, s', e, h'⟩ := look_complete h hw.1 (.inr rfl)
    show ∃ a s' st', P.bind P.peekSkip _ s = _ ∧ _
    unfold P.bind
    rw [e]
    exact ih _ h' (hw.2 sp)
  | bumpThen k ih =>
    simp only [wpc] at hw
    split at hw
    · rename_i t r heq
      obtain ⟨ts, hts, hR⟩ := h.r
      have hpk := hR.peeked
      simp only [hw.1] at hpk
      rcases hp : s.peek with _ | u | t'
      · rw [hp] at hpk; cases hpk
      · have := hR.r0.cachedErr u hp
        cases this
      · have hs := hR.sig t' hp
        obtain ⟨s', r', e, ht, hr, hn, _⟩ := bump_sig hR.r0 hp hs
        have e' := e
        simp only [P.bump, hp, hs, Bool.false_eq_true, if_false] at e'
        cases ts with
        | nil => cases ht
        | cons t2 ts =>
          simp only [List.map_cons, List.cons.injEq, Option.some.injEq] at ht
          obtain ⟨rfl, rfl⟩ := ht
          rw [heq] at hts
          simp only [List.map_cons, List.cons.injEq] at hts
          show ∃ a s' st', P.bind P.bump _ s = _ ∧ _
          unfold P.bind
          rw [e]
          refine ih _ (st := ⟨r, false, st.tf, st.mode.step t⟩) ⟨⟨ts, hts.2, hr, by simp [hn], by simp [hn]⟩, ?_, ?_⟩ (hw.2 t2.2)
          · cases e'; exact h.tf
          · rw [h.clean, hp]
            cases e'
            simp only [modeAt, hts.1]
    · exact hw.elim
  | addErrorThen e k ih => exact hw.elim
  | leadingThen k ih =>
    obtain ⟨c, s', e, h'⟩ := leading_complete h hw.1
    show ∃ a s' st', P.bind P.leading _ s = _ ∧ _
    unfold P.bind
    rw [e]
    exact ih c h' (hw.2 c)
  | trailingThen l k ih =>
    obtain ⟨c, s', e, h'⟩ := trailing_complete l h hw.1
    show ∃ a s' st', P.bind (P.trailing l) _ s = _ ∧ _
    unfold P.bind
    rw [e]
    exact ih c h' (hw.2 c)
  | setTextModeThen b k ih =>
    obtain ⟨ts, hts, hR⟩ := h.r
    refine ih (s := { s with tf := b }) (st := { st with tf := b }) ⟨⟨ts, hts, ?_⟩, rfl, h.clean⟩ hw.2
    exact ⟨⟨hR.r0.len, hR.r0.toks, hR.r0.cachedSpan, hR.r0.errsOk, hR.r0.cachedErr,
      hR.r0.badErrs, hR.r0.cleanRest, hR.r0.clean, hR.r0.comm⟩, hR.peeked, hR.sig⟩
  | assertNoPeekThen k ih =>
    obtain ⟨ts, hts, hR⟩ := h.r
    have : s.peek = none := by
      have := hR.peeked
      simp only [hw.1] at this
      cases hp : s.peek with
      | none => rfl
      | some x => rw [hp] at this; cases this
    simp only [Prog.run, this, Option.isNone_none, if_true]
    exact ih h hw.2
  | failed => exact hw.elim
  | panicked => exact hw.elim
  | outOfFuel => exact hw.elim

end Verif.Parse
