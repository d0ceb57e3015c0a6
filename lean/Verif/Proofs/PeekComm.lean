import Verif.Proofs.Comm
/-! What `peek` leaves in the comment state, in terms of the tokens ahead. -/
namespace Verif.Parse
open Verif.Spec Lex

/-- The tokens the lexer has not read yet. -/
def ahead (s : PState) : List STok := (rawToks s.pos s.rest).filterMap fun x => x.1.map (·, x.2)

/-- The tokens ahead, with the cached one. -/
def cur (s : PState) : List STok :=
  match s.peek with
  | some (.ok t) => t :: ahead s
  | _ => ahead s

theorem cur_none {s : PState} (h : s.peek = none) : cur s = ahead s := by simp [cur, h]
theorem cur_some {s : PState} {t} (h : s.peek = some (.ok t)) : cur s = t :: ahead s := by simp [cur, h]

/-- The end of `lexer.span()` is the position of the lexer, and reading a token moves it. -/
structure Wf (s : PState) : Prop where
  span : s.span.stop = s.pos
  pos : s.peek ≠ none → 0 < s.pos

/-- Between two states of the parser, the lexer moved on. -/
structure Mv (s s' : PState) : Prop where
  wf : Wf s'
  pos : s.pos ≤ s'.pos

theorem Mv.trans {a b c : PState} (h : Mv a b) (h' : Mv b c) : Mv a c := ⟨h'.wf, Nat.le_trans h.pos h'.pos⟩

theorem peekComments_ok {s s' : PState} {x} (w : Wf s) (h : P.peekComments s = (.ok x, s')) :
    Mv s s' ∧ s'.comments = s.comments ∧ cur s' = cur s ∧ x = (cur s).head? ∧ s'.peek = x.map .ok ∧
    (x = none → cur s = []) ∧ ∀ t, x = some t → cur s = t :: ahead s' := by
  unfold P.peekComments at h
  rcases hp : s.peek with _ | u | t
  · rw [hp] at h
    obtain ⟨e1, e2, e3⟩ := next_same s.tf s.pos s.rest s.errs
    have f := Lex.next_facts s.tf s.pos s.rest s.errs
    have hraw := rawToks_unfold s.pos s.rest
    rw [← e1, ← e2, ← e3] at hraw
    simp only at h
    generalize Lex.next s.tf s.pos s.rest s.errs = o at *
    have hge := f.start_ge
    have hle := f.start_le
    cases hr : o.res with
    | eof =>
      rw [hr] at h hraw
      simp only [Prod.mk.injEq, Res.ok.injEq] at h
      obtain ⟨rfl, rfl⟩ := h
      have h0 := (f.eof_rest hr).1
      have c1 : cur s = [] := by rw [cur_none hp, ahead, hraw]; rfl
      refine ⟨⟨⟨rfl, by simp⟩, ?_⟩, rfl, ?_, by rw [c1]; rfl, rfl, fun _ => c1, nofun⟩
      · simp only; omega
      · rw [c1, cur_none rfl]
        simp only [ahead]
        rw [h0, rawToks_unfold]
        simp [Lex.next]
    | tok t =>
      rw [hr] at h hraw
      simp only [Prod.mk.injEq, Res.ok.injEq] at h
      obtain ⟨rfl, rfl⟩ := h
      have hne := f.nonempty (by simp [hr])
      have c1 : cur s = (t, o.span) :: ahead { s with rest := o.rest, pos := o.span.stop, span := o.span, errs := o.errs, peek := some (.ok (t, o.span)) } := by
        rw [cur_none hp, ahead, hraw]; rfl
      refine ⟨⟨⟨rfl, fun _ => by simp only; omega⟩, ?_⟩, rfl, ?_, by rw [c1]; rfl, rfl, nofun, ?_⟩
      · simp only; omega
      · rw [c1, cur_some rfl]
      · rintro t' ht
        cases ht
        exact c1
    | error =>
      rw [hr] at h
      simp at h
  · rw [hp] at h; simp at h
  · rw [hp] at h
    simp only [Prod.mk.injEq, Res.ok.injEq] at h
    obtain ⟨rfl, rfl⟩ := h
    refine ⟨⟨w, Nat.le_refl _⟩, rfl, rfl, by rw [cur_some hp]; rfl, hp, nofun, ?_⟩
    rintro t' ht
    cases ht
    exact cur_some hp

/-- Sequencing of successful steps. -/
theorem bind_ok {α β : Type} {p : P α} {f : α → P β} {s s' : PState} {b : β} (h : (p >>= f) s = (.ok b, s')) :
    ∃ a s1, p s = (.ok a, s1) ∧ f a s1 = (.ok b, s') := by
  rw [bind_eq] at h
  split at h
  · exact ⟨_, _, ‹_›, h⟩
  all_goals simp at h

/-- `bump` of a comment or newline. -/
theorem bump_trivia_ok {s s' : PState} {t : STok} {x} (w : Wf s) (hp : s.peek = some (.ok t)) (ht : t.1.isTrivia = true)
    (h : P.bump s = (.ok x, s')) : Mv s s' ∧ s'.comments = s.comments ∧ s'.peek = none ∧ cur s' = ahead s ∧ s'.rest = s.rest := by
  simp only [P.bump, hp, ht, if_true, Prod.mk.injEq, Res.ok.injEq] at h
  obtain ⟨_, rfl⟩ := h
  exact ⟨⟨⟨w.span, nofun⟩, Nat.le_refl _⟩, rfl, rfl, rfl, rfl⟩

theorem onComments_ok {s s' : PState} {f x} (w : Wf s) (h : P.onComments f s = (.ok x, s')) :
    Mv s s' ∧ f s.comments = some s'.comments ∧ s'.peek = s.peek ∧ cur s' = cur s := by
  unfold P.onComments at h
  split at h
  · rename_i c hc
    simp only [Prod.mk.injEq, Res.ok.injEq] at h
    obtain ⟨_, rfl⟩ := h
    exact ⟨⟨⟨w.span, w.pos⟩, Nat.le_refl _⟩, hc, rfl, rfl⟩
  · simp at h

/-- The significant token ahead has been found. -/
structure Found (s : PState) (x : Option STok) (s' : PState) : Prop where
  mv : Mv s s'
  cur : cur s' = afterGap (cur s)
  head : x = (afterGap (Parse.cur s)).head?
  peek : s'.peek = x.map .ok

theorem Found.from {s s1 s' : PState} {x} (h : Found s1 x s') (m : Mv s s1)
    (e : afterGap (Parse.cur s1) = afterGap (Parse.cur s)) : Found s x s' :=
  ⟨m.trans h.mv, h.cur.trans e, by rw [← e]; exact h.head, h.peek⟩

theorem afterGap_trivia {t : STok} {r} (h : t.1.isTrivia = true) : afterGap (t :: r) = afterGap r := by simp [afterGap, h]
theorem gapOf_trivia {t : STok} {r} (h : t.1.isTrivia = true) : gapOf (t :: r) = t.1 :: gapOf r := by simp [gapOf, h]
theorem afterGap_sig {t : STok} {r} (h : t.1.isTrivia = false) : afterGap (t :: r) = t :: r := by simp [afterGap, h]
theorem gapOf_sig {t : STok} {r} (h : t.1.isTrivia = false) : gapOf (t :: r) = [] := by simp [gapOf, h]

theorem gapOf_all (l : List STok) : ∀ t ∈ gapOf l, t.isTrivia = true := by
  induction l with
  | nil => simp [gapOf]
  | cons t r ih =>
    unfold gapOf
    split
    · rename_i h
      intro t' ht'
      cases ht' with
      | head => exact h
      | tail _ h' => exact ih t' h'
    · simp

theorem peekSkipLoop_ok : ∀ (n : Nat) {s s' : PState} {x}, Wf s → P.peekSkipLoop n s = (.ok x, s') →
    Found s x s' ∧ s'.comments = s.comments
  | 0, _, _, _, _, h => by simp [P.peekSkipLoop] at h
  | n + 1, s, s', x, w, h => by
    unfold P.peekSkipLoop at h
    obtain ⟨y, s1, h1, h⟩ := bind_ok h
    obtain ⟨m1, c1, cu1, hd1, p1, e1, t1⟩ := peekComments_ok w h1
    cases y with
    | none =>
      simp only at h
      cases h
      have := e1 rfl
      exact ⟨⟨m1, by rw [cu1, this]; rfl, by rw [this]; rfl, p1⟩, c1⟩
    | some t =>
      have ht := t1 t rfl
      simp only at h
      split at h
      · rename_i htr
        obtain ⟨_, s2, h2, h⟩ := bind_ok h
        obtain ⟨m2, c2, p2, cu2, _⟩ := bump_trivia_ok m1.wf p1 htr h2
        obtain ⟨f, c⟩ := peekSkipLoop_ok n m2.wf h
        exact ⟨f.from (m1.trans m2) (by rw [cu2, ht, afterGap_trivia htr]), by rw [c, c2, c1]⟩
      · rename_i htr
        simp only [Bool.not_eq_true] at htr
        cases h
        exact ⟨⟨m1, by rw [cu1, ht, afterGap_sig htr], by rw [ht, afterGap_sig htr]; rfl, p1⟩, c1⟩

theorem peekSkip_ok {s s' : PState} {x} (w : Wf s) (h : P.peekSkip s = (.ok x, s')) :
    Found s x s' ∧ s'.comments = s.comments := peekSkipLoop_ok _ w h

theorem mEnd_line (closed : Bool) (c : CState) (t : Bytes) (r : List Token) :
    mEnd closed c (.lineComment t :: r) = (c.lineComment t).bind fun c => mEnd closed c r := by
  unfold mEnd; rw [mRun, Option.bind_assoc]

theorem mEnd_newline (closed : Bool) (c : CState) (r : List Token) :
    mEnd closed c (.newline :: r) = c.flush.bind fun c => mEnd closed c.detach r := by
  unfold mEnd; rw [mRun, Option.bind_assoc]

theorem mEnd_blockNl (closed : Bool) (c : CState) (t : Bytes) (r : List Token) :
    mEnd closed c (.blockComment t :: .newline :: r) = (c.blockComment t).bind fun c => mEnd closed c r := by
  unfold mEnd; rw [mRun, Option.bind_assoc]

theorem mEnd_block (closed : Bool) (c : CState) (t : Bytes) (r : List Token) (h : ∀ r', r ≠ .newline :: r') :
    mEnd closed c (.blockComment t :: r) = (c.blockComment t).bind fun c => mEnd closed c r := by
  unfold mEnd
  rw [mRun, Option.bind_assoc]
  exact h

theorem peekLoop_ok : ∀ (n : Nat) {s s' : PState} {x}, Wf s → P.peekLoop n s = (.ok x, s') →
    Found s x s' ∧ mEnd (closes (afterGap (cur s))) s.comments (gapOf (cur s)) = some s'.comments
  | 0, _, _, _, _, h => by simp [P.peekLoop] at h
  | n + 1, s, s', x, w, h => by
    unfold P.peekLoop at h
    obtain ⟨y, s1, h1, h⟩ := bind_ok h
    obtain ⟨m1, c1, cu1, hd1, p1, e1, t1⟩ := peekComments_ok w h1
    rcases y with _ | ⟨t, sp⟩
    · simp only at h
      obtain ⟨_, s2, h2, h⟩ := bind_ok h
      obtain ⟨m2, f2, p2, cu2⟩ := onComments_ok m1.wf h2
      cases h
      have := e1 rfl
      refine ⟨⟨m1.trans m2, by rw [cu2, cu1, this]; rfl, by rw [this]; rfl, by rw [p2, p1]⟩, ?_⟩
      rw [this]
      rw [c1] at f2
      exact f2
    · have ht := t1 _ rfl
      have fin : t.isTrivia = false →
          ((if t = .rightBrace ∨ t = .rightBracket ∨ t = .rightParen then do
            P.onComments (·.flush)
            pure (some (t, sp))
          else pure (some (t, sp)) : P (Option STok)) s1) = (.ok x, s') →
          Found s x s' ∧ mEnd (closes (afterGap (cur s))) s.comments (gapOf (cur s)) = some s'.comments := by
        intro htr h
        rw [ht, afterGap_sig htr, gapOf_sig htr]
        split at h
        · rename_i hc
          obtain ⟨_, s2, h2, h⟩ := bind_ok h
          obtain ⟨m2, f2, p2, cu2⟩ := onComments_ok m1.wf h2
          cases h
          refine ⟨⟨m1.trans m2, by rw [cu2, cu1, ht, afterGap_sig htr], by rw [ht, afterGap_sig htr]; rfl, by rw [p2, p1]⟩, ?_⟩
          rw [c1] at f2
          simpa [mEnd, mRun, closes, hc] using f2
        · rename_i hc
          cases h
          refine ⟨⟨m1, by rw [cu1, ht, afterGap_sig htr], by rw [ht, afterGap_sig htr]; rfl, p1⟩, ?_⟩
          simp [mEnd, mRun, closes, hc, c1]
      cases t with
      | lineComment c =>
        simp only at h
        obtain ⟨_, s2, h2, h⟩ := bind_ok h
        obtain ⟨m2, c2, p2, cu2, _⟩ := bump_trivia_ok m1.wf p1 rfl h2
        obtain ⟨_, s3, h3, h⟩ := bind_ok h
        obtain ⟨m3, f3, p3, cu3⟩ := onComments_ok m2.wf h3
        obtain ⟨f, e⟩ := peekLoop_ok n m3.wf h
        have hc : cur s3 = ahead s1 := cu3.trans cu2
        rw [hc] at e
        rw [c2, c1] at f3
        refine ⟨f.from ((m1.trans m2).trans m3) (by rw [hc, ht]; rfl), ?_⟩
        rw [ht, afterGap_trivia rfl, gapOf_trivia rfl, mEnd_line, f3]
        exact e
      | newline =>
        simp only at h
        obtain ⟨_, s2, h2, h⟩ := bind_ok h
        obtain ⟨m2, c2, p2, cu2, _⟩ := bump_trivia_ok m1.wf p1 rfl h2
        obtain ⟨_, s3, h3, h⟩ := bind_ok h
        obtain ⟨m3, f3, p3, cu3⟩ := onComments_ok m2.wf h3
        obtain ⟨_, s4, h4, h⟩ := bind_ok h
        obtain ⟨m4, f4, p4, cu4⟩ := onComments_ok m3.wf h4
        obtain ⟨f, e⟩ := peekLoop_ok n m4.wf h
        have hc : cur s4 = ahead s1 := cu4.trans (cu3.trans cu2)
        rw [hc] at e
        rw [c2, c1] at f3
        simp only [Option.some.injEq] at f4
        refine ⟨f.from (((m1.trans m2).trans m3).trans m4) (by rw [hc, ht]; rfl), ?_⟩
        rw [ht, afterGap_trivia rfl, gapOf_trivia rfl, mEnd_newline, f3]
        simp only [Option.bind_some]
        rw [f4]
        exact e
      | blockComment c =>
        simp only at h
        obtain ⟨_, s2, h2, h⟩ := bind_ok h
        obtain ⟨m2, c2, p2, cu2, _⟩ := bump_trivia_ok m1.wf p1 rfl h2
        obtain ⟨_, s3, h3, h⟩ := bind_ok h
        obtain ⟨m3, f3, p3, cu3⟩ := onComments_ok m2.wf h3
        obtain ⟨y, s4, h4, h⟩ := bind_ok h
        obtain ⟨m4, c4, cu4, hd4, p4, e4, t4⟩ := peekComments_ok m3.wf h4
        have hc3 : cur s3 = ahead s1 := cu3.trans cu2
        rw [c2, c1] at f3
        have other : P.peekLoop n s4 = (.ok x, s') → (∀ sp r, ahead s1 ≠ (.newline, sp) :: r) →
            Found s x s' ∧ mEnd (closes (afterGap (cur s))) s.comments (gapOf (cur s)) = some s'.comments := by
          intro h hne
          obtain ⟨f, e⟩ := peekLoop_ok n m4.wf h
          have hc : cur s4 = ahead s1 := cu4.trans hc3
          rw [hc, c4] at e
          refine ⟨f.from (((m1.trans m2).trans m3).trans m4) (by rw [hc, ht]; rfl), ?_⟩
          rw [ht, afterGap_trivia rfl, gapOf_trivia rfl, mEnd_block, f3]
          · exact e
          · intro r' hr'
            cases ha : ahead s1 with
            | nil => rw [ha] at hr'; simp [gapOf] at hr'
            | cons q l =>
              rw [ha] at hr'
              unfold gapOf at hr'
              split at hr'
              · simp only [List.cons.injEq] at hr'
                exact hne q.2 l (by rw [ha, ← hr'.1])
              · simp at hr'
        cases y with
        | none =>
          simp only at h
          have := e4 rfl
          rw [hc3] at this
          exact other h (by simp [this])
        | some q =>
          obtain ⟨q, qsp⟩ := q
          have hq := t4 _ rfl
          rw [hc3] at hq
          by_cases hn : q = .newline
          · subst hn
            simp only at h
            obtain ⟨_, s5, h5, h⟩ := bind_ok h
            obtain ⟨m5, c5, p5, cu5, _⟩ := bump_trivia_ok m4.wf p4 rfl h5
            obtain ⟨f, e⟩ := peekLoop_ok n m5.wf h
            rw [cu5, c5, c4] at e
            refine ⟨f.from ((((m1.trans m2).trans m3).trans m4).trans m5) (by rw [cu5, ht, hq]; rfl), ?_⟩
            rw [ht, afterGap_trivia rfl, gapOf_trivia rfl, hq, afterGap_trivia rfl, gapOf_trivia rfl, mEnd_blockNl, f3]
            exact e
          · refine other ?_ (by rw [hq]; simp [hn])
            cases q <;> first | exact absurd rfl hn | exact h
      | _ => exact fin rfl h

theorem peekRest_ok {s s' : PState} {x} (w : Wf s) (h : P.peekRest s = (.ok x, s')) :
    Found s x s' ∧ mEnd (closes (afterGap (cur s))) s.comments (gapOf (cur s)) = some s'.comments :=
  peekLoop_ok _ w h

/-- `peek` at the start of the file: the comment state shows the split of the comments ahead. -/
theorem peekRest_start {s s' : PState} {x} (w : Wf s) (h : P.peekRest s = (.ok x, s')) (hc : s.comments = {}) :
    Found s x s' ∧ Shows s'.comments (splitAhead true (cur s)) := by
  obtain ⟨f, e⟩ := peekRest_ok w h
  refine ⟨f, ?_⟩
  rw [hc] at e
  obtain ⟨c, h1, h2⟩ := (mEnd_before (closes (afterGap (cur s))) _ (gapOf (cur s)) (Nat.lt_succ_self _) (gapOf_all _) [] none).1
  have : some c = some s'.comments := h1.symm.trans e
  simp only [Option.some.injEq] at this
  subst this
  refine ⟨?_, ?_, h2.leading⟩
  · rw [h2.trailing]
    exact (before_trailing _ _).symm
  · rw [h2.detached]; rfl

/-- `peek` after a token: the comment state shows the split of the comments ahead. -/
theorem peekFirst_ok {s s' : PState} {x} (w : Wf s) (hp : s.peek = none) (h : P.peekFirst s = (.ok x, s'))
    (hc : s.comments = { isTrailing := true }) :
    Found s x s' ∧ Shows s'.comments (splitAhead false (cur s)) := by
  unfold P.peekFirst at h
  obtain ⟨y, s1, h1, h⟩ := bind_ok h
  obtain ⟨m1, c1, cu1, hd1, p1, e1, t1⟩ := peekComments_ok w h1
  rw [hc] at c1
  have empty : Shows s1.comments {} := by rw [c1]; exact ⟨rfl, rfl, rfl⟩
  rcases y with _ | ⟨t, sp⟩
  · simp only at h
    cases h
    have := e1 rfl
    refine ⟨⟨m1, by rw [cu1, this]; rfl, by rw [this]; rfl, p1⟩, ?_⟩
    rw [this]; exact empty
  · have ht := t1 _ rfl
    have sig : t.isTrivia = false → (pure (some (t, sp)) : P (Option STok)) s1 = (.ok x, s') →
        Found s x s' ∧ Shows s'.comments (splitAhead false (cur s)) := by
      intro htr h
      cases h
      refine ⟨⟨m1, by rw [cu1, ht, afterGap_sig htr], by rw [ht, afterGap_sig htr]; rfl, p1⟩, ?_⟩
      rw [ht, splitAhead, gapOf_sig htr]
      exact empty
    cases t with
    | lineComment c =>
      simp only at h
      obtain ⟨_, s2, h2, h⟩ := bind_ok h
      obtain ⟨m2, c2, p2, cu2, _⟩ := bump_trivia_ok m1.wf p1 rfl h2
      obtain ⟨_, s3, h3, h⟩ := bind_ok h
      obtain ⟨m3, f3, p3, cu3⟩ := onComments_ok m2.wf h3
      obtain ⟨_, s4, h4, h⟩ := bind_ok h
      obtain ⟨m4, f4, p4, cu4⟩ := onComments_ok m3.wf h4
      obtain ⟨f, e⟩ := peekRest_ok m4.wf h
      have hcu : cur s4 = ahead s1 := cu4.trans (cu3.trans cu2)
      rw [c2, c1] at f3
      rw [line_none, Option.some.injEq] at f3
      rw [← f3, flush_t, Option.some.injEq] at f4
      rw [hcu, ← f4] at e
      refine ⟨f.from (((m1.trans m2).trans m3).trans m4) (by rw [hcu, ht]; rfl), ?_⟩
      obtain ⟨c', g1, g2⟩ := (mEnd_before (closes (afterGap (ahead s1))) _ (gapOf (ahead s1)) (Nat.lt_succ_self _) (gapOf_all _) [] (some c)).1
      rw [g1, Option.some.injEq] at e
      subst e
      rw [ht, splitAhead, afterGap_trivia rfl, gapOf_trivia rfl]
      exact ⟨g2.trailing, g2.detached.trans (by rfl), g2.leading⟩
    | newline =>
      simp only at h
      obtain ⟨_, s2, h2, h⟩ := bind_ok h
      obtain ⟨m2, c2, p2, cu2, _⟩ := bump_trivia_ok m1.wf p1 rfl h2
      obtain ⟨f, e⟩ := peekRest_ok m2.wf h
      rw [cu2, c2, c1] at e
      refine ⟨f.from (m1.trans m2) (by rw [cu2, ht]; rfl), ?_⟩
      obtain ⟨c', g1, g2⟩ := (mEnd_between (closes (afterGap (ahead s1))) _ (gapOf (ahead s1)) (Nat.lt_succ_self _) (gapOf_all _)).1
      rw [g1, Option.some.injEq] at e
      subst e
      rw [ht, splitAhead, afterGap_trivia rfl, gapOf_trivia rfl]
      exact g2
    | blockComment c =>
      simp only at h
      obtain ⟨_, s2, h2, h⟩ := bind_ok h
      obtain ⟨m2, c2, p2, cu2, _⟩ := bump_trivia_ok m1.wf p1 rfl h2
      obtain ⟨y, s4, h4, h⟩ := bind_ok h
      obtain ⟨m4, c4, cu4, hd4, p4, e4, t4⟩ := peekComments_ok m2.wf h4
      have other : P.peekSkip s4 = (.ok x, s') → (∀ sp r, ahead s1 ≠ (.newline, sp) :: r) →
          Found s x s' ∧ Shows s'.comments (splitAhead false (cur s)) := by
        intro h hne
        obtain ⟨f, e⟩ := peekSkip_ok m4.wf h
        have hcu : cur s4 = ahead s1 := cu4.trans cu2
        refine ⟨f.from ((m1.trans m2).trans m4) (by rw [hcu, ht]; rfl), ?_⟩
        rw [ht, splitAhead, afterGap_trivia rfl, gapOf_trivia rfl]
        have : split false (closes (afterGap (ahead s1))) (.blockComment c :: gapOf (ahead s1)) = {} := by
          unfold split
          simp only [Bool.false_eq_true, if_false]
          cases ha : ahead s1 with
          | nil => simp [gapOf]
          | cons q l =>
            unfold gapOf
            split
            · rename_i heq; cases heq
            · rename_i c' r heq
              simp only [List.cons.injEq] at heq
              obtain ⟨_, heq⟩ := heq
              split at heq
              · simp only [List.cons.injEq] at heq
                exact absurd (by rw [ha, ← heq.1] : ahead s1 = (.newline, q.2) :: l) (hne _ _)
              · cases heq
            · rfl
            · rename_i heq; cases heq
            · rfl
        show Shows s'.comments (split false (closes (afterGap (ahead s1))) (.blockComment c :: gapOf (ahead s1)))
        rw [this, e, c4, c2]
        exact empty
      cases y with
      | none =>
        simp only at h
        have := e4 rfl
        rw [cu2] at this
        exact other h (by simp [this])
      | some q =>
        obtain ⟨q, qsp⟩ := q
        have hq := t4 _ rfl
        rw [cu2] at hq
        by_cases hn : q = .newline
        · subst hn
          simp only at h
          obtain ⟨_, s5, h5, h⟩ := bind_ok h
          obtain ⟨m5, c5, p5, cu5, _⟩ := bump_trivia_ok m4.wf p4 rfl h5
          obtain ⟨_, s6, h6, h⟩ := bind_ok h
          obtain ⟨m6, f6, p6, cu6⟩ := onComments_ok m5.wf h6
          obtain ⟨f, e⟩ := peekRest_ok m6.wf h
          have hcu : cur s6 = ahead s4 := cu6.trans cu5
          rw [c5, c4, c2, c1, block_none, Option.some.injEq] at f6
          rw [hcu, ← f6] at e
          refine ⟨f.from ((((m1.trans m2).trans m4).trans m5).trans m6) (by rw [hcu, ht, hq]; rfl), ?_⟩
          obtain ⟨c', g1, g2⟩ := (mEnd_between (closes (afterGap (ahead s4))) _ (gapOf (ahead s4)) (Nat.lt_succ_self _) (gapOf_all _)).2 c false
          rw [g1, Option.some.injEq] at e
          subst e
          rw [ht, splitAhead, afterGap_trivia rfl, gapOf_trivia rfl, hq, afterGap_trivia rfl, gapOf_trivia rfl]
          exact g2
        · refine other ?_ (by rw [hq]; simp [hn])
          cases q <;> first | exact absurd rfl hn | exact h
    | _ => exact sig rfl h

end Verif.Parse
