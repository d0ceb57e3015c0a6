import Verif.Model.ParserCore
import Verif.Proofs.Tokens
/-!
Weakest preconditions of grammar methods over the list of significant tokens, and their soundness for the
parser that works on source bytes: whatever comments the byte-level parser finds, its outcome satisfies the
weakest precondition computed on tokens.
-/
namespace Verif.Parse
open Lex

/-- The parser as seen by a grammar method: the significant tokens left, whether the first one is cached, and
whether an error has been recorded. -/
structure AS where
  toks : List (Option STok)
  peeked : Bool
  bad : Bool

/-- Looking at the next token, ignoring errors. -/
def AS.look (st : AS) : AS :=
  match st.toks with
  | [] => { st with peeked := false }
  | none :: _ => { st with peeked := true, bad := true }
  | some _ :: _ => { st with peeked := true }

/-- Looking at the next token with `?`. -/
def AS.peekK (st : AS) (K : Option STok → AS → Prop) (E : AS → Prop) : Prop :=
  match st.toks with
  | [] => K none st.look
  | none :: _ => E st.look
  | some t :: _ => K (some t) st.look

/-- `wp L p Q E st`: run from `st`, `p` does not panic or run out of fuel, records only error spans inside a
source of `L` bytes, returns only results with `Q`, and fails only in states with `E`. -/
def wp (L : Nat) {α : Type} : Prog α → (α → AS → Prop) → (AS → Prop) → AS → Prop
  | .ret a, Q, _, st => Q a st
  | .peekThen k, Q, E, st => st.peekK (fun x => wp L (k x) Q E) E
  | .peekSkipThen k, Q, E, st => st.peekK (fun x => wp L (k x) Q E) E
  | .bumpThen k, Q, E, st => match st.toks with
    | some t :: r => st.peeked = true ∧ wp L (k t.2) Q E ⟨r, false, st.bad⟩
    | _ => False
  | .addErrorThen e k, Q, E, st => (∀ sp ∈ e.spans, SpanOk L sp) ∧ wp L k Q E { st with bad := true }
  | .leadingThen k, Q, E, st => ∀ c, wp L (k c) Q E st.look
  | .trailingThen _ k, Q, E, st => ∀ c, wp L (k c) Q E st.look
  | .setTextModeThen _ k, Q, E, st => wp L k Q E st
  | .assertNoPeekThen k, Q, E, st => st.peeked = false ∧ wp L k Q E st
  | .failed, _, E, st => E st
  | .panicked, _, _, _ => False
  | .outOfFuel, _, _, _ => False

theorem wp_bind {L : Nat} {α β : Type} (p : Prog α) (f : α → Prog β) (Q : β → AS → Prop) (E : AS → Prop) (st : AS) :
    wp L (p.bind f) Q E st ↔ wp L p (fun a st' => wp L (f a) Q E st') E st := by
  induction p generalizing st with
  | ret a => exact Iff.rfl
  | peekThen k ih => simp only [Prog.bind, wp, AS.peekK]; split <;> simp [ih]
  | peekSkipThen k ih => simp only [Prog.bind, wp, AS.peekK]; split <;> simp [ih]
  | bumpThen k ih => simp only [Prog.bind, wp]; split <;> simp [ih]
  | addErrorThen e k ih => simp only [Prog.bind, wp, ih]
  | leadingThen k ih => simp only [Prog.bind, wp, ih]
  | trailingThen l k ih => simp only [Prog.bind, wp, ih]
  | setTextModeThen b k ih => simp only [Prog.bind, wp, ih]
  | assertNoPeekThen k ih => simp only [Prog.bind, wp, ih]
  | failed => exact Iff.rfl
  | panicked => exact Iff.rfl
  | outOfFuel => exact Iff.rfl

theorem wp_mono {L : Nat} {α : Type} (p : Prog α) {Q Q' : α → AS → Prop} {E E' : AS → Prop} {st : AS}
    (hQ : ∀ a st, Q a st → Q' a st) (hE : ∀ st, E st → E' st) (h : wp L p Q E st) : wp L p Q' E' st := by
  induction p generalizing st with
  | ret a => exact hQ _ _ h
  | peekThen k ih =>
    simp only [wp, AS.peekK] at h ⊢; split at h
    · exact ih _ h
    · exact hE _ h
    · exact ih _ h
  | peekSkipThen k ih =>
    simp only [wp, AS.peekK] at h ⊢; split at h
    · exact ih _ h
    · exact hE _ h
    · exact ih _ h
  | bumpThen k ih =>
    simp only [wp] at h ⊢; split at h
    · exact ⟨h.1, ih _ h.2⟩
    · exact h
  | addErrorThen e k ih => exact ⟨h.1, ih h.2⟩
  | leadingThen k ih => exact fun c => ih c (h c)
  | trailingThen l k ih => exact fun c => ih c (h c)
  | setTextModeThen b k ih => exact ih h
  | assertNoPeekThen k ih => exact ⟨h.1, ih h.2⟩
  | failed => exact hE _ h
  | panicked => exact h
  | outOfFuel => exact h

/-! ## The byte-level parser -/

/-- The significant token in the cache. -/
def cached : Option (Except Unit STok) → List (Option STok)
  | none => []
  | some (.error _) => [none]
  | some (.ok t) => if t.1.isTrivia then [] else [some t]

/-- Invariant of the byte-level parser, and its token view (`bad`: an error has been recorded; `C`: the whole
source lexes without errors). -/
structure R0 (L : Nat) (C : Bool) (s : PState) (toks : List (Option STok)) (bad : Bool) : Prop where
  len : s.pos + s.rest.length = L
  toks : toks = cached s.peek ++ sigToks s.pos s.rest
  cachedSpan : ∀ t, s.peek = some (.ok t) → t.2.start < t.2.stop ∧ t.2.stop ≤ s.pos
  errsOk : ErrsOk L s.errs
  cachedErr : ∀ u, s.peek = some (.error u) → bad = true
  badErrs : bad = true → s.errs ≠ []
  cleanRest : C = true → lexClean s.pos s.rest = true
  clean : C = true → bad = false → s.errs = []
  comm : s.comments.isTrailing = true → s.comments.leadingDetached = []

/-- The invariant between two steps of a grammar method: the cached token, if any, is significant. -/
structure R (L : Nat) (C : Bool) (s : PState) (st : AS) : Prop where
  r0 : R0 L C s st.toks st.bad
  peeked : st.peeked = s.peek.isSome
  sig : ∀ t, s.peek = some (.ok t) → t.1.isTrivia = false

theorem R0.comments {L C s toks bad} (h : R0 L C s toks bad) {c : CState}
    (hc : c.isTrailing = true → c.leadingDetached = []) : R0 L C { s with comments := c } toks bad :=
  ⟨h.len, h.toks, h.cachedSpan, h.errsOk, h.cachedErr, h.badErrs, h.cleanRest, h.clean, hc⟩

/-- Outcome of `peek_comments`. -/
def Pc (L : Nat) (C : Bool) (s : PState) (toks : List (Option STok)) (bad : Bool) :
    Res (Option STok) × PState → Prop
  | (.ok (some t), s') => s'.peek = some (.ok t) ∧ R0 L C s' toks bad ∧
      (s.peek = none → s'.rest.length < s.rest.length) ∧ (s.peek ≠ none → s' = s) ∧
      s'.comments = s.comments
  | (.ok none, s') => s'.peek = none ∧ s.peek = none ∧ toks = [] ∧ R0 L C s' toks bad ∧
      s'.comments = s.comments ∧ s'.rest = []
  | (.err, s') => (∃ r, toks = none :: r) ∧ (∃ u, s'.peek = some (.error u)) ∧ R0 L C s' toks true
  | _ => False

theorem peekComments_spec {L C s toks bad} (h : R0 L C s toks bad) :
    Pc L C s toks bad (P.peekComments s) := by
  unfold P.peekComments
  rcases hp : s.peek with _ | u | t
  · obtain ⟨e1, e2, e3⟩ := next_same s.tf s.pos s.rest s.errs
    have f := next_facts s.tf s.pos s.rest s.errs
    have hcl := next_clean s.tf s.pos s.pos s.rest s.errs
    have hsig := sigToks_unfold s.pos s.rest
    have hlc := h.cleanRest
    rw [lexClean_unfold s.pos s.rest] at hlc
    have htoks : toks = sigToks s.pos s.rest := by rw [h.toks, hp]; rfl
    rw [← e1, ← e2, ← e3] at hsig hlc
    rw [hsig] at htoks
    generalize Lex.next s.tf s.pos s.rest s.errs = o at *
    have errsOk : ErrsOk L o.errs := f.errs_ok L h.errsOk (by rw [h.len]; exact Nat.le_refl _)
    have len : o.span.stop + o.rest.length = L := by rw [f.stop_rest, h.len]
    have clean : C = true → bad = false → o.errs = [] := by
      intro h1 h2
      have := hlc h1
      simp only [Bool.and_eq_true, decide_eq_true_eq] at this
      rw [hcl this.1]
      exact h.clean h1 h2
    have crest : o.res ≠ .eof → C = true → lexClean o.span.stop o.rest = true := by
      intro h1 h2
      have := hlc h2
      simp only [Bool.and_eq_true, decide_eq_true_eq] at this
      exact this.2
    simp only
    cases hr : o.res with
    | eof =>
      rw [hr] at htoks
      have h0 := (f.eof_rest hr).1
      refine ⟨rfl, hp, htoks, ⟨len, ?_, ?_, errsOk, ?_, ?_, ?_, clean, h.comm⟩, rfl, h0⟩
      all_goals simp only
      · rw [htoks, h0, sigToks_unfold]
        simp [cached, Lex.next]
      · nofun
      · nofun
      · intro hb; exact f.errs_ne (h.badErrs hb)
      · intro _
        rw [h0, lexClean_unfold]
        simp [Lex.next]
    | tok t =>
      rw [hr] at htoks
      have hne := f.nonempty (by simp [hr])
      have hge := f.start_ge
      have hst := f.stop_rest
      refine ⟨rfl, ⟨len, ?_, ?_, errsOk, ?_, ?_, ?_, clean, h.comm⟩, ?_, ?_, rfl⟩
      · rw [htoks]
        simp only [cached]
        split <;> rfl
      · intro t' ht
        simp only [Option.some.injEq, Except.ok.injEq] at ht
        subst ht
        exact ⟨hne, Nat.le_refl _⟩
      · nofun
      · intro hb; exact f.errs_ne (h.badErrs hb)
      · exact crest (by simp [hr])
      · intro _; simp only; omega
      · intro hh; exact absurd hp hh
    | error =>
      rw [hr] at htoks
      have hst := f.stop_rest
      refine ⟨⟨_, htoks⟩, ⟨(), rfl⟩, ⟨len, ?_, ?_, ?_, ?_, ?_, ?_, ?_, ?_⟩⟩
      · rw [htoks]; rfl
      · nofun
      · apply errsOk.append
        intro sp hsp
        simp only [ParseErrorKind.spans, List.mem_singleton] at hsp
        subst hsp
        exact ⟨f.start_le, by omega⟩
      · intro _ _; rfl
      · intro _; simp
      · exact crest (by simp [hr])
      · nofun
      · simp [CState.reset]
  · have hb := h.cachedErr u hp
    subst hb
    refine ⟨⟨sigToks s.pos s.rest, ?_⟩, ⟨u, hp⟩, h⟩
    rw [h.toks, hp]; rfl
  · exact ⟨hp, h, by simp [hp], fun _ => rfl, rfl⟩

/-- `bump` of a comment or newline. -/
theorem bump_trivia {L C s toks bad t} (h : R0 L C s toks bad) (hp : s.peek = some (.ok t))
    (ht : t.1.isTrivia = true) :
    P.bump s = (.ok t.2, { s with peek := none }) ∧ R0 L C { s with peek := none } toks bad := by
  constructor
  · simp [P.bump, hp, ht]
  · refine ⟨h.len, ?_, nofun, h.errsOk, nofun, h.badErrs, h.cleanRest, h.clean, h.comm⟩
    have := h.toks
    rw [hp] at this
    simpa [cached, ht] using this

/-- `bump` of a significant token. -/
theorem bump_sig {L C s toks bad t} (h : R0 L C s toks bad) (hp : s.peek = some (.ok t))
    (ht : t.1.isTrivia = false) :
    ∃ s' r, P.bump s = (.ok t.2, s') ∧ toks = some t :: r ∧ R0 L C s' r bad ∧ s'.peek = none ∧
      s'.rest = s.rest := by
  have htk := h.toks
  rw [hp] at htk
  simp only [cached, ht, Bool.false_eq_true, if_false, List.cons_append, List.nil_append] at htk
  refine ⟨{ s with peek := none, comments := s.comments.reset }, _, by simp [P.bump, hp, ht], htk, ?_, rfl, rfl⟩
  exact ⟨h.len, rfl, nofun, h.errsOk, nofun, h.badErrs, h.cleanRest, h.clean, by simp [CState.reset]⟩

/-- The comment machine never fails its assertion. -/
def COk (c : CState) : Prop := c.isTrailing = true → c.leadingDetached = []

theorem flush_ok {c : CState} (h : COk c) : ∃ c', c.flush = some c' ∧ COk c' := by
  unfold CState.flush
  split
  · rename_i ht
    rw [if_pos (h ht)]
    exact ⟨_, rfl, nofun⟩
  · rename_i ht
    exact ⟨_, rfl, fun h' => absurd h' ht⟩

theorem blockComment_ok {c : CState} (t : Bytes) (h : COk c) : ∃ c', c.blockComment t = some c' ∧ COk c' := by
  unfold CState.blockComment
  split
  · obtain ⟨c', h1, h2⟩ := flush_ok h
    exact ⟨{ c' with leading := some t }, by simp [h1], h2⟩
  · exact ⟨_, rfl, h⟩

theorem lineComment_ok {c : CState} (t : Bytes) (h : COk c) : ∃ c', c.lineComment t = some c' ∧ COk c' := by
  unfold CState.lineComment
  have key : ∀ c : CState, COk c → ∃ c', (some c).map (fun c => match c.leading with
      | none => { c with leading := some t, isLine := true }
      | some cur => { c with leading := some (cur ++ t), isLine := true }) = some c' ∧ COk c' := by
    intro c hc
    refine ⟨_, rfl, ?_⟩
    simp only
    split <;> exact hc
  split
  · obtain ⟨c', h1, h2⟩ := flush_ok h
    rw [h1]; exact key c' h2
  · exact key c h

theorem detach_ok {c : CState} (_ : COk c) : COk c.detach := nofun

/-- Outcome of `peek` and `peek_skip_comments`. -/
def Pk (L : Nat) (C : Bool) (toks : List (Option STok)) (bad : Bool) : Res (Option STok) × PState → Prop
  | (.ok (some t), s') => s'.peek = some (.ok t) ∧ t.1.isTrivia = false ∧ R0 L C s' toks bad
  | (.ok none, s') => s'.peek = none ∧ toks = [] ∧ R0 L C s' toks bad
  | (.err, s') => (∃ r, toks = none :: r) ∧ (∃ u, s'.peek = some (.error u)) ∧ R0 L C s' toks true
  | _ => False

/-- Number of tokens still to be looked at. -/
def left (s : PState) : Nat := s.rest.length + (if s.peek.isSome then 1 else 0)

/-- Sequencing. -/
theorem bind_eq {α β : Type} (p : P α) (f : α → P β) (s : PState) :
    (p >>= f) s = match p s with
      | (.ok a, s') => f a s'
      | (.err, s') => (.err, s')
      | (.panic, s') => (.panic, s')
      | (.oof, s') => (.oof, s') := rfl

/-- After `peek_comments`: either done, or a cached token and no more work than before. -/
theorem peekComments_cases {L C s toks bad} (h : R0 L C s toks bad) :
    (∃ t s', P.peekComments s = (.ok (some t), s') ∧ s'.peek = some (.ok t) ∧ R0 L C s' toks bad ∧
      left s' ≤ left s ∧ COk s'.comments) ∨
    (∃ s', P.peekComments s = (.ok none, s') ∧ s'.peek = none ∧ toks = [] ∧ R0 L C s' toks bad ∧
      s'.rest = []) ∨
    (∃ s', P.peekComments s = (.err, s') ∧ Pk L C toks bad (.err, s')) := by
  have hs := peekComments_spec h
  rcases hres : P.peekComments s with ⟨r, s'⟩
  rw [hres] at hs
  rcases r with (_ | t) | _ | _ | _
  · exact .inr (.inl ⟨s', rfl, hs.1, hs.2.2.1, hs.2.2.2.1, hs.2.2.2.2.2⟩)
  · refine .inl ⟨t, s', rfl, hs.1, hs.2.1, ?_, hs.2.1.comm⟩
    unfold left
    rcases hp : s.peek with _ | x
    · have := hs.2.2.1 hp
      rw [hs.1]; simp; omega
    · have := hs.2.2.2.1 (by simp [hp])
      subst this; simp [hp]
  · exact .inr (.inr ⟨s', rfl, hs⟩)
  · exact hs.elim
  · exact hs.elim

theorem peekSkipLoop_spec {L C} : ∀ (n : Nat) {s toks bad}, R0 L C s toks bad → left s < n →
    Pk L C toks bad (P.peekSkipLoop n s) := by
  intro n
  induction n with
  | zero => intro s toks bad h hl; omega
  | succ n ih =>
    intro s toks bad h hl
    unfold P.peekSkipLoop
    rw [bind_eq]
    rcases peekComments_cases h with ⟨t, s', e, hp, hr, hle, _⟩ | ⟨s', e, hp, ht, hr, _⟩ | ⟨s', e, hpk⟩
    · rw [e]
      simp only
      split
      · rename_i htr
        obtain ⟨e2, hr2⟩ := bump_trivia hr hp htr
        rw [bind_eq, e2]
        apply ih hr2
        simp only [left, hp] at *
        simp at *
        omega
      · rename_i htr
        exact ⟨hp, by simpa using htr, hr⟩
    · rw [e]
      exact ⟨hp, ht, hr⟩
    · rw [e]
      exact hpk

theorem peekSkip_spec {L C s toks bad} (h : R0 L C s toks bad) : Pk L C toks bad (P.peekSkip s) := by
  apply peekSkipLoop_spec _ h
  unfold left; split <;> omega

/-- Updating the comments keeps the invariant. -/
theorem onComments_spec {L C s toks bad} {f : CState → Option CState} (h : R0 L C s toks bad)
    (hf : ∀ c, COk c → ∃ c', f c = some c' ∧ COk c') :
    ∃ s', P.onComments f s = (.ok (), s') ∧ R0 L C s' toks bad ∧ s'.peek = s.peek ∧ s'.rest = s.rest := by
  obtain ⟨c', h1, h2⟩ := hf s.comments h.comm
  exact ⟨{ s with comments := c' }, by simp [P.onComments, h1], h.comments h2, rfl, rfl⟩

theorem peekLoop_spec {L C} : ∀ (n : Nat) {s toks bad}, R0 L C s toks bad → left s < n →
    Pk L C toks bad (P.peekLoop n s) := by
  intro n
  induction n with
  | zero => intro s toks bad h hl; omega
  | succ n ih =>
    intro s toks bad h hl
    have cont : ∀ {s1 : PState}, R0 L C s1 toks bad → s1.rest.length + 1 ≤ left s → s1.peek = none →
        Pk L C toks bad (P.peekLoop n s1) := by
      intro s1 h1 h2 h3
      apply ih h1
      unfold left; rw [h3]; simp; omega
    unfold P.peekLoop
    rw [bind_eq]
    rcases peekComments_cases h with ⟨⟨t, sp⟩, s', e, hp, hr, hle, _⟩ | ⟨s', e, hp, ht, hr, _⟩ | ⟨s', e, hpk⟩
    · rw [e]
      have hl' : s'.rest.length + 1 ≤ left s := by simpa [left, hp] using hle
      have fin : t.isTrivia = false → Pk L C toks bad
          ((if t = .rightBrace ∨ t = .rightBracket ∨ t = .rightParen then do
            P.onComments (·.flush)
            pure (some (t, sp))
          else pure (some (t, sp)) : P (Option STok)) s') := by
        intro htr
        split
        · rw [bind_eq]
          obtain ⟨s2, e2, h2, h3, h4⟩ := onComments_spec hr (f := (·.flush)) (fun c hc => flush_ok hc)
          rw [e2]
          exact ⟨by rw [h3, hp], htr, h2⟩
        · exact ⟨hp, htr, hr⟩
      cases t with
      | lineComment c =>
        simp only
        obtain ⟨e2, hr2⟩ := bump_trivia hr hp rfl
        obtain ⟨s3, e3, h3, h4, h5⟩ := onComments_spec hr2 (f := (·.lineComment c)) (fun x hx => lineComment_ok c hx)
        rw [bind_eq, e2]; simp only
        rw [bind_eq, e3]; simp only
        exact cont h3 (by rw [h5]; exact hl') (by rw [h4])
      | blockComment c =>
        simp only
        obtain ⟨e2, hr2⟩ := bump_trivia hr hp rfl
        obtain ⟨s3, e3, h3, h4, h5⟩ := onComments_spec hr2 (f := (·.blockComment c)) (fun x hx => blockComment_ok c hx)
        rw [bind_eq, e2]; simp only
        rw [bind_eq, e3]; simp only
        rw [bind_eq]
        have hpn : s3.peek = none := by rw [h4]
        have hrest : s3.rest = s'.rest := by rw [h5]
        rcases peekComments_cases h3 with ⟨⟨t4, sp4⟩, s4, e4, hp4, hr4, hle4, _⟩ | ⟨s4, e4, hp4, ht4, hr4, hr4r⟩ | ⟨s4, e4, hpk4⟩
        · rw [e4]
          simp only
          have hl4 : s4.rest.length + 1 ≤ s3.rest.length := by
            have := hle4; simp [left, hp4, hpn] at this; exact this
          have goon : Pk L C toks bad (P.peekLoop n s4) := by
            apply ih hr4
            unfold left; rw [hp4]; simp; rw [hrest] at hl4; omega
          cases t4 with
          | newline =>
            obtain ⟨e5, hr5⟩ := bump_trivia hr4 hp4 rfl
            simp only
            rw [bind_eq, e5]; simp only
            exact cont hr5 (by simp only; rw [hrest] at hl4; omega) rfl
          | _ => exact goon
        · rw [e4]
          simp only
          apply ih hr4
          unfold left; rw [hp4, hr4r]; simp; omega
        · rw [e4]
          exact hpk4
      | newline =>
        simp only
        obtain ⟨e2, hr2⟩ := bump_trivia hr hp rfl
        obtain ⟨s3, e3, h3, h4, h5⟩ := onComments_spec hr2 (f := (·.flush)) (fun x hx => flush_ok hx)
        obtain ⟨s6, e6, h6, h7, h8⟩ := onComments_spec h3 (f := (fun c => some c.detach))
          (fun x hx => ⟨_, rfl, detach_ok hx⟩)
        rw [bind_eq, e2]; simp only
        rw [bind_eq, e3]; simp only
        rw [bind_eq, e6]; simp only
        exact cont h6 (by rw [h8, h5]; exact hl') (by rw [h7, h4])
      | _ => exact fin rfl
    · rw [e]
      simp only
      obtain ⟨s2, e2, h2, h3, h4⟩ := onComments_spec hr (f := (·.flush)) (fun c hc => flush_ok hc)
      rw [bind_eq, e2]
      exact ⟨by rw [h3, hp], ht, h2⟩
    · rw [e]
      exact hpk

theorem peekRest_spec {L C s toks bad} (h : R0 L C s toks bad) : Pk L C toks bad (P.peekRest s) := by
  apply peekLoop_spec _ h
  unfold left; split <;> omega

theorem peekFirst_spec {L C s toks bad} (h : R0 L C s toks bad) : Pk L C toks bad (P.peekFirst s) := by
  unfold P.peekFirst
  rw [bind_eq]
  rcases peekComments_cases h with ⟨⟨t, sp⟩, s', e, hp, hr, hle, _⟩ | ⟨s', e, hp, ht, hr, _⟩ | ⟨s', e, hpk⟩
  · rw [e]
    cases t with
    | lineComment c =>
      simp only
      obtain ⟨e2, hr2⟩ := bump_trivia hr hp rfl
      obtain ⟨s3, e3, h3, _, _⟩ := onComments_spec hr2 (f := (·.lineComment c)) (fun x hx => lineComment_ok c hx)
      obtain ⟨s4, e4, h4, _, _⟩ := onComments_spec h3 (f := (·.flush)) (fun x hx => flush_ok hx)
      rw [bind_eq, e2]; simp only
      rw [bind_eq, e3]; simp only
      rw [bind_eq, e4]; simp only
      exact peekRest_spec h4
    | blockComment c =>
      simp only
      obtain ⟨e2, hr2⟩ := bump_trivia hr hp rfl
      rw [bind_eq, e2]; simp only
      rw [bind_eq]
      rcases peekComments_cases hr2 with ⟨⟨t4, sp4⟩, s4, e4, hp4, hr4, hle4, _⟩ | ⟨s4, e4, hp4, ht4, hr4, hr4r⟩ | ⟨s4, e4, hpk4⟩
      · rw [e4]
        cases t4 with
        | newline =>
          obtain ⟨e5, hr5⟩ := bump_trivia hr4 hp4 rfl
          obtain ⟨s6, e6, h6, _, _⟩ := onComments_spec hr5 (f := (·.blockComment c)) (fun x hx => blockComment_ok c hx)
          simp only
          rw [bind_eq, e5]; simp only
          rw [bind_eq, e6]; simp only
          exact peekRest_spec h6
        | _ => exact peekSkip_spec hr4
      · rw [e4]
        exact peekSkip_spec hr4
      · rw [e4]
        exact hpk4
    | newline =>
      simp only
      obtain ⟨e2, hr2⟩ := bump_trivia hr hp rfl
      rw [bind_eq, e2]; simp only
      exact peekRest_spec hr2
    | _ => exact ⟨hp, rfl, hr⟩
  · rw [e]
    exact ⟨hp, ht, hr⟩
  · rw [e]
    exact hpk

theorem peek_spec {L C s toks bad} (h : R0 L C s toks bad) : Pk L C toks bad (P.peek s) := by
  unfold P.peek
  split
  · exact peekFirst_spec h
  · exact peekRest_spec h

theorem Pk.tok {L C s toks bad} {t : STok} (h : Pk L C toks bad (.ok (some t), s)) :
    ∃ r, toks = some t :: r := by
  have := h.2.2.toks
  rw [h.1] at this
  simp only [cached, h.2.1] at this
  exact ⟨_, this⟩

theorem Pk.R {L C s} {st : AS} {x : Res (Option STok)} (h : Pk L C st.toks st.bad (x, s)) : R L C s st.look := by
  rcases x with (_ | t) | _ | _ | _
  · obtain ⟨h1, h2, h3⟩ := h
    have : st.look = { st with peeked := false } := by simp [AS.look, h2]
    rw [this]
    exact ⟨h3, by simp [h1], by simp [h1]⟩
  · obtain ⟨r, hr⟩ := h.tok
    obtain ⟨h1, h2, h3⟩ := h
    have : st.look = { st with peeked := true } := by simp [AS.look, hr]
    rw [this]
    refine ⟨h3, by simp [h1], ?_⟩
    intro t' ht
    rw [h1] at ht
    cases ht; exact h2
  · obtain ⟨⟨r, hr⟩, ⟨u, hu⟩, h3⟩ := h
    have : st.look = { st with peeked := true, bad := true } := by simp [AS.look, hr]
    rw [this]
    exact ⟨h3, by simp [hu], by simp [hu]⟩
  · exact h.elim
  · exact h.elim

/-- `peek` inside `parse_leading_comments` and `parse_trailing_comment`. -/
theorem peekIgnore_spec {L C s} {st : AS} (h : R L C s st) :
    ∃ s', P.peekIgnore s = (.ok (), s') ∧ R L C s' st.look := by
  have hp := peek_spec h.r0
  unfold P.peekIgnore
  rcases hres : P.peek s with ⟨r, s'⟩
  rw [hres] at hp
  rcases r with x | _ | _ | _
  · exact ⟨s', rfl, hp.R⟩
  · exact ⟨s', rfl, hp.R⟩
  · exact hp.elim
  · exact hp.elim

theorem leading_spec {L C s} {st : AS} (h : R L C s st) :
    ∃ c s', P.leading s = (.ok c, s') ∧ R L C s' st.look := by
  obtain ⟨s', e, h'⟩ := peekIgnore_spec h
  unfold P.leading
  rw [bind_eq, e]
  exact ⟨_, _, rfl, h'.r0.comments (by simp), h'.peeked, h'.sig⟩

theorem trailing_spec {L C s} {st : AS} (l) (h : R L C s st) :
    ∃ c s', P.trailing l s = (.ok c, s') ∧ R L C s' st.look := by
  obtain ⟨s', e, h'⟩ := peekIgnore_spec h
  unfold P.trailing
  rw [bind_eq, e]
  simp only
  rw [bind_eq]
  simp only [P.takeTrailing]
  exact ⟨_, _, rfl, h'.r0.comments h'.r0.comm, h'.peeked, h'.sig⟩

/-- What a weakest precondition promises about the byte-level run. -/
def Outcome (L : Nat) (C : Bool) {α : Type} (Q : α → AS → Prop) (E : AS → Prop) : Res α × PState → Prop
  | (.ok a, s') => ∃ st', R L C s' st' ∧ Q a st'
  | (.err, s') => ∃ st', R L C s' st' ∧ E st'
  | _ => False

/-- Soundness of `wp` for the parser on source bytes. -/
theorem run_sound {L : Nat} {C : Bool} {α : Type} (p : Prog α) {Q : α → AS → Prop} {E : AS → Prop} {s : PState}
    {st : AS} (h : R L C s st) (hw : wp L p Q E st) : Outcome L C Q E (p.run s) := by
  have peekCase : ∀ (pk : P (Option STok)) (k : Option STok → Prog α) {s : PState} {st : AS},
      Pk L C st.toks st.bad (pk s) →
      (∀ x {s : PState} {st : AS}, R L C s st → wp L (k x) Q E st → Outcome L C Q E ((k x).run s)) →
      st.peekK (fun x => wp L (k x) Q E) E →
      Outcome L C Q E (P.bind pk (fun x => (k x).run) s) := by
    intro pk k s st hp ih hw
    unfold P.bind
    unfold AS.peekK at hw
    rcases hres : pk s with ⟨r, s'⟩
    rw [hres] at hp
    rcases r with (_ | t) | _ | _ | _
    · rw [hp.2.1] at hw
      exact ih none hp.R hw
    · obtain ⟨r, hr⟩ := hp.tok
      rw [hr] at hw
      exact ih (some t) hp.R hw
    · obtain ⟨⟨r, hr⟩, _⟩ := id hp
      rw [hr] at hw
      exact ⟨_, hp.R, hw⟩
    · exact hp.elim
    · exact hp.elim
  induction p generalizing s st with
  | ret a => exact ⟨st, h, hw⟩
  | peekThen k ih => exact peekCase P.peek k (peek_spec h.r0) (fun x _ _ hr hw => ih x hr hw) hw
  | peekSkipThen k ih => exact peekCase P.peekSkip k (peekSkip_spec h.r0) (fun x _ _ hr hw => ih x hr hw) hw
  | bumpThen k ih =>
    simp only [wp] at hw
    split at hw
    · rename_i t r heq
      have hpk := h.peeked
      rw [hw.1] at hpk
      have htk := h.r0.toks
      rcases hp : s.peek with _ | u | t'
      · rw [hp] at hpk; cases hpk
      · rw [hp, heq] at htk
        simp [cached] at htk
      · have hs := h.sig t' hp
        obtain ⟨s', r', e, ht, hr, hn, _⟩ := bump_sig h.r0 hp hs
        rw [heq] at ht
        injection ht with h1 h2
        injection h1 with h1
        subst h1 h2
        show Outcome L C Q E (P.bind P.bump _ s)
        unfold P.bind
        rw [e]
        exact ih _ (st := ⟨r, false, st.bad⟩) ⟨hr, by simp [hn], by simp [hn]⟩ hw.2
    · exact hw.elim
  | addErrorThen e k ih =>
    apply ih (st := { st with bad := true }) _ hw.2
    refine ⟨⟨h.r0.len, h.r0.toks, h.r0.cachedSpan, h.r0.errsOk.append hw.1, ?_, ?_, h.r0.cleanRest, ?_, h.r0.comm⟩,
      h.peeked, h.sig⟩
    · intro _ _; rfl
    · intro _; simp
    · nofun
  | leadingThen k ih =>
    obtain ⟨c, s', e, h'⟩ := leading_spec h
    show Outcome L C Q E (P.bind P.leading _ s)
    unfold P.bind
    rw [e]
    exact ih c h' (hw c)
  | trailingThen l k ih =>
    obtain ⟨c, s', e, h'⟩ := trailing_spec l h
    show Outcome L C Q E (P.bind (P.trailing l) _ s)
    unfold P.bind
    rw [e]
    exact ih c h' (hw c)
  | setTextModeThen b k ih =>
    exact ih (s := { s with tf := b }) ⟨⟨h.r0.len, h.r0.toks, h.r0.cachedSpan, h.r0.errsOk, h.r0.cachedErr,
      h.r0.badErrs, h.r0.cleanRest, h.r0.clean, h.r0.comm⟩, h.peeked, h.sig⟩ hw
  | assertNoPeekThen k ih =>
    have : s.peek = none := by
      have := h.peeked
      rw [hw.1] at this
      cases hp : s.peek <;> simp_all
    simp only [Prog.run, this, Option.isNone_none, if_true]
    exact ih h hw.2
  | failed => exact ⟨st, h, hw⟩
  | panicked => exact hw.elim
  | outOfFuel => exact hw.elim

end Verif.Parse
