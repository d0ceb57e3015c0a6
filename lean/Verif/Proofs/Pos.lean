import Verif.Proofs.PeekComm
import Verif.Proofs.RunInv
/-!
Grammar methods over tokens with places and comments: a weakest precondition for successful runs without errors, and its
soundness for the parser on source bytes.
-/
namespace Verif.Pos
open Verif.Parse Verif.Spec

/-- Whether the comments in front of the next token have been read, and which of them are still there. -/
inductive Gap where
  | fresh
  | seen (lead trail : Bool)

/-- The parser as seen by a grammar method: the tokens left, the state of the comments, and the last token. -/
structure AS where
  toks : List ATok
  gap : Gap
  last : Option ATok

/-- After `peek`. -/
def AS.look (st : AS) : AS := match st.gap with
  | .fresh => { st with gap := .seen true true }
  | _ => st

/-- After `peek_skip_comments`. -/
def AS.skip (st : AS) : AS := match st.gap with
  | .fresh => { st with gap := .seen false false }
  | _ => st

/-- The comments before the next token are there, or will be after `peek`. -/
def AS.lead (st : AS) : Bool := match st.gap with
  | .fresh => true
  | .seen l _ => l

/-- The trailing comment of the last token is there, or will be after `peek`. -/
def AS.trail (st : AS) : Bool := match st.gap with
  | .fresh => true
  | .seen _ t => t

/-- After `parse_leading_comments`. -/
def AS.noLead (st : AS) : AS := { st with gap := .seen false st.trail }
/-- After `parse_trailing_comment`. -/
def AS.noTrail (st : AS) : AS := { st with gap := .seen st.lead false }

/-- The next token as `peek` returns it. -/
def AS.next (st : AS) : Option STok := st.toks.head?.map fun a => (a.tok, a.span)

/-- Every successful run of `p` from `st` without errors ends with `Q`. -/
def wp {α : Type} : Prog α → (α → AS → Prop) → AS → Prop
  | .ret a, Q, st => Q a st
  | .peekThen k, Q, st => wp (k st.next) Q st.look
  | .peekSkipThen k, Q, st => wp (k st.next) Q st.skip
  | .bumpThen k, Q, st => ∀ a r, st.toks = a :: r → wp (k a.span) Q ⟨r, .fresh, some a⟩
  | .addErrorThen _ _, _, _ => True
  | .leadingThen k, Q, st =>
    ∀ c, (st.lead = true → ∀ a, st.toks.head? = some a → c = (a.detached, a.leading)) → wp (k c) Q st.noLead
  | .trailingThen l k, Q, st =>
    ∀ x, (st.trail = true → ∀ z, st.last = some z → x = z.trailing) → wp (k ⟨l.1, l.2, x⟩) Q st.noTrail
  | .setTextModeThen _ k, Q, st => wp k Q st
  | .assertNoPeekThen k, Q, st => wp k Q st
  | .failed, _, _ => True
  | .panicked, _, _ => True
  | .outOfFuel, _, _ => True

theorem wp_bind {α β : Type} (p : Prog α) (f : α → Prog β) (Q : β → AS → Prop) (st : AS) :
    wp (p.bind f) Q st ↔ wp p (fun a st' => wp (f a) Q st') st := by
  induction p generalizing st with
  | ret a => exact Iff.rfl
  | peekThen k ih => simp only [Prog.bind, wp, ih]
  | peekSkipThen k ih => simp only [Prog.bind, wp, ih]
  | bumpThen k ih => simp only [Prog.bind, wp, ih]
  | addErrorThen e k ih => exact Iff.rfl
  | leadingThen k ih => simp only [Prog.bind, wp, ih]
  | trailingThen l k ih => simp only [Prog.bind, wp, ih]
  | setTextModeThen b k ih => simp only [Prog.bind, wp, ih]
  | assertNoPeekThen k ih => simp only [Prog.bind, wp, ih]
  | failed => exact Iff.rfl
  | panicked => exact Iff.rfl
  | outOfFuel => exact Iff.rfl

theorem wp_mono {α : Type} (p : Prog α) {Q Q' : α → AS → Prop} {st : AS} (hQ : ∀ a st, Q a st → Q' a st)
    (h : wp p Q st) : wp p Q' st := by
  induction p generalizing st with
  | ret a => exact hQ _ _ h
  | peekThen k ih => exact ih _ h
  | peekSkipThen k ih => exact ih _ h
  | bumpThen k ih => exact fun a r e => ih _ (h a r e)
  | addErrorThen e k ih => trivial
  | leadingThen k ih => exact fun c hc => ih _ (h c hc)
  | trailingThen l k ih => exact fun c hc => ih _ (h c hc)
  | setTextModeThen b k ih => exact ih h
  | assertNoPeekThen k ih => exact ih h
  | failed => trivial
  | panicked => trivial
  | outOfFuel => trivial

/-! ## The annotated tokens -/

theorem annotate_gap (start : Bool) (gap : List Token) (ts : List STok) :
    annotate start gap ts = match afterGap ts with
      | [] => []
      | t :: r =>
        let s := split start (closes (t :: r)) (gap ++ gapOf ts)
        ⟨t.1, t.2, s.detached, s.leading, (splitAhead false r).trailing⟩ :: annotate false [] r := by
  induction ts generalizing gap with
  | nil => simp [annotate, afterGap]
  | cons t r ih =>
    cases h : t.1.isTrivia with
    | true =>
      rw [annotate, if_pos h, ih, afterGap_trivia h, gapOf_trivia h]
      simp
    | false =>
      rw [annotate, if_neg (by simp [h]), afterGap_sig h, gapOf_sig h]
      simp

/-- The annotated tokens ahead of a state in which nothing is cached. -/
theorem annotate_ahead (start : Bool) (ts : List STok) :
    annotate start [] ts = match afterGap ts with
      | [] => []
      | t :: r => ⟨t.1, t.2, (splitAhead start ts).detached, (splitAhead start ts).leading, (splitAhead false r).trailing⟩ ::
          annotate false [] r := by
  rw [annotate_gap]
  cases h : afterGap ts with
  | nil => rfl
  | cons t r => simp [splitAhead, h]

/-! ## The invariant -/

/-- Invariant between two steps of a grammar method. -/
structure R (s : PState) (st : AS) : Prop where
  wf : Wf s
  last : st.last ≠ none → 0 < s.pos
  gap : match st.gap with
    | .fresh => s.peek = none ∧ st.toks = annotate st.last.isNone [] (ahead s) ∧
        (st.last = none → s.span = ⟨0, 0⟩ ∧ s.comments = {}) ∧
        ∀ z, st.last = some z → s.comments = { isTrailing := true } ∧ z.trailing = (splitAhead false (ahead s)).trailing
    | .seen l t =>
      ((∃ x a, s.peek = some (.ok x) ∧ x.1.isTrivia = false ∧ a.tok = x.1 ∧ a.span = x.2 ∧ a.trailing = (splitAhead false (ahead s)).trailing ∧
          st.toks = a :: annotate false [] (ahead s) ∧
          (l = true → s.comments.leadingDetached = a.detached ∧ s.comments.leading = a.leading)) ∨
        (s.peek = none ∧ ahead s = [] ∧ st.toks = [])) ∧
      (t = true → ∀ z, st.last = some z → s.comments.trailing = z.trailing)

theorem afterGap_head {l : List STok} {t r} (h : afterGap l = t :: r) : t.1.isTrivia = false := by
  induction l with
  | nil => simp [afterGap] at h
  | cons x l ih =>
    unfold afterGap at h
    split at h
    · exact ih h
    · rename_i hx
      cases h; simpa using hx

/-- From a fresh state, after the token has been found. -/
theorem R.found {s s' : PState} {st : AS} {x} (h : R s st) (hg : st.gap = .fresh) (f : Found s x s') (l t : Bool)
    (hl : l = true ∨ t = true → Shows s'.comments (splitAhead st.last.isNone (cur s))) :
    R s' { st with gap := .seen l t } ∧ x = st.next := by
  have hgap := h.gap
  rw [hg] at hgap
  obtain ⟨hp, ht, hn, hz⟩ := hgap
  have hc : cur s = ahead s := cur_none hp
  rw [annotate_ahead] at ht
  have trail : t = true → ∀ z, st.last = some z → s'.comments.trailing = z.trailing := by
    intro h1 z h2
    rw [(hl (.inr h1)).trailing, (hz z h2).2, h2, hc]
    rfl
  cases ha : afterGap (ahead s) with
  | nil =>
    rw [ha] at ht
    have hx : x = none := by rw [f.head, hc, ha]; rfl
    subst hx
    refine ⟨⟨f.mv.wf, fun h' => Nat.lt_of_lt_of_le (h.last h') f.mv.pos, ?_⟩, ?_⟩
    · refine ⟨.inr ⟨f.peek, ?_, ht⟩, trail⟩
      rw [← cur_none f.peek, f.cur, hc, ha]
    · simp [AS.next, ht]
  | cons q r =>
    rw [ha] at ht
    have hx : x = some q := by rw [f.head, hc, ha]; rfl
    subst hx
    have hr : ahead s' = r := by
      have := f.cur
      rw [cur_some f.peek, hc, ha] at this
      simpa using this
    refine ⟨⟨f.mv.wf, fun h' => Nat.lt_of_lt_of_le (h.last h') f.mv.pos, ?_⟩, ?_⟩
    · refine ⟨.inl ⟨q, _, f.peek, afterGap_head ha, rfl, rfl, ?_, by rw [hr]; exact ht, ?_⟩, trail⟩
      · rw [hr]
      · intro h1
        have := hl (.inl h1)
        rw [hc] at this
        exact ⟨this.detached, this.leading⟩
    · simp [AS.next, ht]

theorem peekComments_cached {s : PState} {x : STok} (h : s.peek = some (.ok x)) : P.peekComments s = (.ok (some x), s) := by
  simp [P.peekComments, h]

/-- With the token cached, looking at it again changes nothing. -/
theorem R.again {s : PState} {st : AS} {l t} (h : R s st) (hg : st.gap = .seen l t) (p : P (Option STok))
    (hp : p = P.peek ∨ p = P.peekSkip) {y s'} (hr : p s = (.ok y, s')) : R s' st ∧ y = st.next := by
  have hgap := h.gap
  rw [hg] at hgap
  obtain ⟨hgap, htr⟩ := hgap
  rcases hgap with ⟨x, a, h1, h0, h2, h3, h4, h5, h6⟩ | ⟨h1, h2, h3⟩
  · have : p s = (.ok (some x), s) := by
      rcases hp with rfl | rfl
      · unfold P.peek
        have hpos := h.wf.pos (by simp [h1])
        have hsp : s.span ≠ ⟨0, 0⟩ := by
          intro e
          have := h.wf.span
          rw [e] at this
          simp at this
          omega
        rw [if_pos hsp]
        unfold P.peekFirst
        rw [bind_eq, peekComments_cached h1]
        obtain ⟨x1, x2⟩ := x
        cases x1 <;> first | rfl | cases h0
      · unfold P.peekSkip P.peekSkipLoop
        rw [bind_eq, peekComments_cached h1]
        simp only
        rw [if_neg (by simp [h0])]
        rfl
    rw [this] at hr
    cases hr
    refine ⟨h, ?_⟩
    simp [AS.next, h5, h2, h3]
  · have hcur : cur s = [] := by rw [cur_none h1, h2]
    rcases hp with rfl | rfl
    · unfold P.peek at hr
      split at hr
      · unfold P.peekFirst at hr
        obtain ⟨q, s1, e1, hr⟩ := bind_ok hr
        obtain ⟨m1, c1, cu1, hd1, p1, _, _⟩ := peekComments_ok h.wf e1
        rw [hcur] at hd1 cu1
        simp only [List.head?_nil] at hd1
        subst hd1
        simp only at hr
        cases hr
        refine ⟨⟨m1.wf, fun h' => Nat.lt_of_lt_of_le (h.last h') m1.pos, ?_⟩, by simp [AS.next, h3]⟩
        rw [hg]
        exact ⟨.inr ⟨p1, by rw [← cur_none p1, cu1], h3⟩, by rw [c1]; exact htr⟩
      · rename_i hsp
        obtain ⟨f, _⟩ := peekRest_ok h.wf hr
        have hy : y = none := by rw [f.head, hcur]; rfl
        subst hy
        have hl : st.last = none := by
          cases hh : st.last with
          | none => rfl
          | some z =>
            have h0 := h.last (by simp [hh])
            have := h.wf.span
            simp only [ne_eq, Decidable.not_not] at hsp
            rw [hsp] at this
            simp at this
            omega
        refine ⟨⟨f.mv.wf, fun h' => absurd hl h', ?_⟩, by simp [AS.next, h3]⟩
        rw [hg]
        refine ⟨.inr ⟨f.peek, by rw [← cur_none f.peek, f.cur, hcur]; rfl, h3⟩, ?_⟩
        intro _ z hz
        rw [hl] at hz; cases hz
    · obtain ⟨f, c⟩ := peekSkip_ok h.wf hr
      have hy : y = none := by rw [f.head, hcur]; rfl
      subst hy
      refine ⟨⟨f.mv.wf, fun h' => Nat.lt_of_lt_of_le (h.last h') f.mv.pos, ?_⟩, by simp [AS.next, h3]⟩
      rw [hg]
      exact ⟨.inr ⟨f.peek, by rw [← cur_none f.peek, f.cur, hcur]; rfl, h3⟩, by rw [c]; exact htr⟩

theorem R.peek {s s' : PState} {st : AS} {y} (h : R s st) (hr : P.peek s = (.ok y, s')) : R s' st.look ∧ y = st.next := by
  cases hg : st.gap with
  | seen l t =>
    have : st.look = st := by simp [AS.look, hg]
    rw [this]
    exact h.again hg P.peek (.inl rfl) hr
  | fresh =>
    have : st.look = { st with gap := .seen true true } := by simp [AS.look, hg]
    rw [this]
    have hgap := h.gap
    rw [hg] at hgap
    obtain ⟨hp, ht, hn, hz⟩ := hgap
    unfold P.peek at hr
    cases hl : st.last with
    | none =>
      rw [if_neg (by simp [(hn hl).1])] at hr
      obtain ⟨f, c⟩ := peekRest_start h.wf hr (hn hl).2
      have r := h.found hg f true true (fun _ => by rw [hl]; exact c)
      rw [hl] at r; exact r
    | some z =>
      have hsp : s.span ≠ ⟨0, 0⟩ := by
        intro e
        have h1 := h.wf.span
        have h2 := h.last (by simp [hl])
        rw [e] at h1
        simp at h1
        omega
      rw [if_pos hsp] at hr
      obtain ⟨f, c⟩ := peekFirst_ok h.wf hp hr (hz z hl).1
      have r := h.found hg f true true (fun _ => by rw [hl]; exact c)
      rw [hl] at r; exact r

theorem R.peekSkip {s s' : PState} {st : AS} {y} (h : R s st) (hr : P.peekSkip s = (.ok y, s')) :
    R s' st.skip ∧ y = st.next := by
  cases hg : st.gap with
  | seen l t =>
    have : st.skip = st := by simp [AS.skip, hg]
    rw [this]
    exact h.again hg P.peekSkip (.inr rfl) hr
  | fresh =>
    have : st.skip = { st with gap := .seen false false } := by simp [AS.skip, hg]
    rw [this]
    exact h.found hg (peekSkip_ok h.wf hr).1 false false (by simp)

theorem R.bump {s s' : PState} {st : AS} {sp} (h : R s st) (hr : P.bump s = (.ok sp, s')) :
    ∃ a r, st.toks = a :: r ∧ sp = a.span ∧ R s' ⟨r, .fresh, some a⟩ := by
  have hgap := h.gap
  unfold P.bump at hr
  split at hr
  · rename_i t sp' hp
    cases hg : st.gap with
    | fresh => rw [hg] at hgap; rw [hgap.1] at hp; cases hp
    | seen l tt =>
      rw [hg] at hgap
      rcases hgap.1 with ⟨x, a, h1, h0, h2, h3, h4, h5, h6⟩ | ⟨h1, _⟩
      · rw [hp] at h1
        cases h1
        simp only [h0] at hr
        cases hr
        refine ⟨a, _, h5, h3.symm, ⟨h.wf.span, nofun⟩, ?_, ?_⟩
        · intro _; exact h.wf.pos (by simp [hp])
        · refine ⟨rfl, rfl, nofun, ?_⟩
          rintro z hz
          cases hz
          exact ⟨rfl, h4⟩
      · rw [hp] at h1; cases h1
  · simp at hr

/-! ## Errors stay -/

theorem stable_errs : Stable (fun s => s.errs ≠ []) where
  peekComments := by
    intro s hs
    unfold P.peekComments
    split
    · exact hs
    · exact hs
    · have f := Lex.next_facts s.tf s.pos s.rest s.errs
      simp only
      generalize Lex.next s.tf s.pos s.rest s.errs = o at *
      have := f.errs_ne hs
      split
      · exact this
      · exact this
      · simp
  bump := by
    intro s hs
    unfold P.bump
    split
    · simp only; split <;> exact hs
    · exact hs
  comments := fun _ _ h => h
  addError := fun _ _ _ => by simp
  tf := fun _ _ h => h
  clear := fun _ h => h

/-- A cached error has been recorded. -/
def Cached (s : PState) : Prop := ∀ u, s.peek = some (.error u) → s.errs ≠ []

/-- Whenever `p` fails it has recorded an error. -/
def Rec {α : Type} (p : P α) : Prop := ∀ s, Cached s → Cached (p s).2 ∧ ∀ s', p s = (.err, s') → s'.errs ≠ []

theorem Rec.bind {α β : Type} {p : P α} {f : α → P β} (hp : Rec p) (hf : ∀ a, Rec (f a)) : Rec (p >>= f) := by
  intro s hs
  have h1 := hp s hs
  show Cached (P.bind p f s).2 ∧ ∀ s', P.bind p f s = (.err, s') → s'.errs ≠ []
  unfold P.bind
  rcases h : p s with ⟨r, s1⟩
  rw [h] at h1
  cases r with
  | ok a => exact hf a s1 h1.1
  | err => exact ⟨h1.1, fun s' e => by cases e; exact h1.2 _ rfl⟩
  | panic => exact ⟨h1.1, nofun⟩
  | oof => exact ⟨h1.1, nofun⟩

theorem Rec.pure {α : Type} (a : α) : Rec (pure a : P α) := fun _ h => ⟨h, nofun⟩

theorem rec_peekComments : Rec P.peekComments := by
  intro s hs
  unfold P.peekComments
  split
  · exact ⟨hs, nofun⟩
  · rename_i u hu
    exact ⟨hs, fun s' e => by cases e; exact hs _ hu⟩
  · rename_i hp
    simp only
    split
    · exact ⟨fun u hu => (by rw [show s.peek = none from hp] at hu; cases hu), nofun⟩
    · exact ⟨nofun, nofun⟩
    · exact ⟨fun _ _ => by simp, fun s' e => by cases e; simp⟩

theorem rec_bump : Rec P.bump := by
  intro s hs
  unfold P.bump
  split
  · simp only
    split <;> exact ⟨nofun, nofun⟩
  · exact ⟨hs, nofun⟩

theorem rec_onComments (f) : Rec (P.onComments f) := by
  intro s hs
  unfold P.onComments
  split
  · exact ⟨hs, nofun⟩
  · exact ⟨hs, nofun⟩

theorem rec_peekSkipLoop : ∀ n, Rec (P.peekSkipLoop n)
  | 0 => fun _ h => ⟨h, nofun⟩
  | n + 1 => by
    refine rec_peekComments.bind fun x => ?_
    cases x with
    | none => exact Rec.pure _
    | some t =>
      dsimp only
      split
      · exact rec_bump.bind fun _ => rec_peekSkipLoop n
      · exact Rec.pure _

theorem rec_peekSkip : Rec P.peekSkip := fun s hs => rec_peekSkipLoop _ s hs

theorem rec_peekLoop : ∀ n, Rec (P.peekLoop n)
  | 0 => fun _ h => ⟨h, nofun⟩
  | n + 1 => by
    refine rec_peekComments.bind fun x => ?_
    split
    · exact rec_bump.bind fun _ => (rec_onComments _).bind fun _ => rec_peekLoop n
    · refine rec_bump.bind fun _ => (rec_onComments _).bind fun _ => rec_peekComments.bind fun y => ?_
      split
      · exact rec_bump.bind fun _ => rec_peekLoop n
      · exact rec_peekLoop n
    · exact rec_bump.bind fun _ => (rec_onComments _).bind fun _ => (rec_onComments _).bind fun _ => rec_peekLoop n
    · exact (rec_onComments _).bind fun _ => Rec.pure _
    · split
      · exact (rec_onComments _).bind fun _ => Rec.pure _
      · exact Rec.pure _

theorem rec_peekRest : Rec P.peekRest := fun s hs => rec_peekLoop _ s hs

theorem rec_peekFirst : Rec P.peekFirst := by
  refine rec_peekComments.bind fun x => ?_
  split
  · exact rec_bump.bind fun _ => (rec_onComments _).bind fun _ => (rec_onComments _).bind fun _ => rec_peekRest
  · refine rec_bump.bind fun _ => rec_peekComments.bind fun y => ?_
    split
    · exact rec_bump.bind fun _ => (rec_onComments _).bind fun _ => rec_peekRest
    · exact rec_peekSkip
  · exact rec_bump.bind fun _ => rec_peekRest
  · exact Rec.pure _

theorem rec_peek : Rec P.peek := by
  intro s hs
  unfold P.peek
  split
  · exact rec_peekFirst s hs
  · exact rec_peekRest s hs

theorem R.cached {s : PState} {st : AS} (h : R s st) : Cached s := by
  intro u hu
  have hgap := h.gap
  cases hg : st.gap with
  | fresh => rw [hg] at hgap; rw [hgap.1] at hu; cases hu
  | seen l t =>
    rw [hg] at hgap
    rcases hgap.1 with ⟨x, a, h1, _⟩ | ⟨h1, _⟩ <;> (rw [h1] at hu; cases hu)

/-- `let _ = self.peek()`: if no error is recorded in the end, it succeeded. -/
theorem R.peekIgnore {s s' : PState} {st : AS} {y} (h : R s st) (hr : P.peekIgnore s = (.ok y, s')) (he : s'.errs = []) :
    R s' st.look := by
  unfold P.peekIgnore at hr
  rcases hp : P.peek s with ⟨r, s1⟩
  rw [hp] at hr
  cases r with
  | ok x => cases hr; exact (h.peek hp).1
  | err => cases hr; exact absurd he ((rec_peek s h.cached).2 _ hp)
  | panic => cases hr
  | oof => cases hr

theorem AS.look_lead (st : AS) : ∃ l t, st.look.gap = .seen l t ∧ st.lead = l ∧ st.trail = t ∧ st.look.toks = st.toks ∧ st.look.last = st.last := by
  obtain ⟨toks, gap, last⟩ := st
  cases gap with
  | fresh => exact ⟨true, true, rfl, rfl, rfl, rfl, rfl⟩
  | seen l t => exact ⟨l, t, rfl, rfl, rfl, rfl, rfl⟩

theorem R.leading {s s' : PState} {st : AS} {c} (h : R s st) (hr : P.leading s = (.ok c, s')) (he : s'.errs = []) :
    (st.lead = true → ∀ a, st.toks.head? = some a → c = (a.detached, a.leading)) ∧ R s' st.noLead := by
  unfold P.leading at hr
  obtain ⟨_, s1, h1, hr⟩ := bind_ok hr
  simp only [P.takeLeading] at hr
  cases hr
  have h2 := h.peekIgnore h1 he
  obtain ⟨l, t, e1, e2, e3, e4, e5⟩ := AS.look_lead st
  have hgap := h2.gap
  rw [e1] at hgap
  obtain ⟨hgap, htr⟩ := hgap
  rw [e5] at htr
  rw [e4] at hgap
  constructor
  · intro hl a ha
    rcases hgap with ⟨x, a', _, _, _, _, _, h5, h6⟩ | ⟨_, _, h3⟩
    · rw [h5] at ha
      cases ha
      have := h6 (e2 ▸ hl)
      rw [this.1, this.2]
    · rw [h3] at ha; cases ha
  · refine ⟨⟨h2.wf.span, h2.wf.pos⟩, fun h' => h2.last (by rw [e5]; exact h'), ?_⟩
    refine ⟨?_, ?_⟩
    · rcases hgap with ⟨x, a', g1, g2, g3, g4, g5, g6, _⟩ | ⟨g1, g2, g3⟩
      · exact .inl ⟨x, a', g1, g2, g3, g4, g5, g6, nofun⟩
      · exact .inr ⟨g1, g2, g3⟩
    · rw [e3]; exact htr

theorem R.trailing {s s' : PState} {st : AS} {l c} (h : R s st) (hr : P.trailing l s = (.ok c, s')) (he : s'.errs = []) :
    ∃ x, c = ⟨l.1, l.2, x⟩ ∧ (st.trail = true → ∀ z, st.last = some z → x = z.trailing) ∧ R s' st.noTrail := by
  unfold P.trailing at hr
  obtain ⟨_, s1, h1, hr⟩ := bind_ok hr
  obtain ⟨y, s2, h2, hr⟩ := bind_ok hr
  simp only [P.takeTrailing] at h2
  cases h2
  cases hr
  have h2 := h.peekIgnore h1 he
  obtain ⟨l', t, e1, e2, e3, e4, e5⟩ := AS.look_lead st
  have hgap := h2.gap
  rw [e1] at hgap
  obtain ⟨hgap, htr⟩ := hgap
  rw [e5] at htr
  rw [e4] at hgap
  refine ⟨_, rfl, fun ht z hz => htr (e3 ▸ ht) z hz, ⟨h2.wf.span, h2.wf.pos⟩, fun h' => h2.last (by rw [e5]; exact h'), ?_⟩
  refine ⟨?_, nofun⟩
  rcases hgap with ⟨x, a', g1, g2, g3, g4, g5, g6, g7⟩ | ⟨g1, g2, g3⟩
  · exact .inl ⟨x, a', g1, g2, g3, g4, g5, g6, by rw [e2]; exact g7⟩
  · exact .inr ⟨g1, g2, g3⟩

/-- Soundness of `wp`. -/
theorem run_sound {α : Type} (p : Prog α) {Q : α → AS → Prop} {s s' : PState} {st : AS} {v : α} (h : R s st)
    (hw : wp p Q st) (hr : p.run s = (.ok v, s')) (he : s'.errs = []) : ∃ st', R s' st' ∧ Q v st' := by
  have back : ∀ {β : Type} (q : Prog β) {s1 : PState} {w}, q.run s1 = (.ok w, s') → s1.errs = [] := by
    intro β q s1 w hq
    cases hs : s1.errs with
    | nil => rfl
    | cons e l =>
      have := stable_errs.run q s1 (by simp [hs])
      rw [hq] at this
      exact absurd he this
  induction p generalizing s st with
  | ret a => cases hr; exact ⟨st, h, hw⟩
  | peekThen k ih =>
    obtain ⟨x, s1, h1, hr⟩ := bind_ok (p := P.peek) hr
    obtain ⟨h2, rfl⟩ := h.peek h1
    exact ih _ h2 hw hr
  | peekSkipThen k ih =>
    obtain ⟨x, s1, h1, hr⟩ := bind_ok (p := P.peekSkip) hr
    obtain ⟨h2, rfl⟩ := h.peekSkip h1
    exact ih _ h2 hw hr
  | bumpThen k ih =>
    obtain ⟨x, s1, h1, hr⟩ := bind_ok (p := P.bump) hr
    obtain ⟨a, r, ht, rfl, h2⟩ := h.bump h1
    exact ih _ h2 (hw a r ht) hr
  | addErrorThen e k ih =>
    obtain ⟨x, s1, h1, hr⟩ := bind_ok (p := P.addError e) hr
    have := back k hr
    unfold P.addError at h1
    cases h1
    simp at this
  | leadingThen k ih =>
    obtain ⟨x, s1, h1, hr⟩ := bind_ok (p := P.leading) hr
    obtain ⟨h2, h3⟩ := h.leading h1 (back _ hr)
    exact ih _ h3 (hw x h2) hr
  | trailingThen l k ih =>
    obtain ⟨x, s1, h1, hr⟩ := bind_ok (p := P.trailing l) hr
    obtain ⟨y, rfl, h2, h3⟩ := h.trailing h1 (back _ hr)
    exact ih _ h3 (hw y h2) hr
  | setTextModeThen b k ih =>
    exact ih (s := { s with tf := b }) ⟨⟨h.wf.span, h.wf.pos⟩, h.last, h.gap⟩ hw hr
  | assertNoPeekThen k ih =>
    simp only [Prog.run] at hr
    split at hr
    · exact ih h hw hr
    · cases hr
  | failed => cases hr
  | panicked => cases hr
  | outOfFuel => cases hr

end Verif.Pos
