import Verif.Model.Lexer
/-! Basic facts about the lexer: lengths, independence of the token from mode and errors, error spans. -/
namespace Verif.Lex

theorem takeWhile_length_le {α} (p : α → Bool) (l : List α) : (l.takeWhile p).length ≤ l.length :=
  (List.takeWhile_sublist p).length_le

theorem takeWhile_dropWhile_length {α} (p : α → Bool) (l : List α) :
    (l.takeWhile p).length + (l.dropWhile p).length = l.length := by
  rw [← List.length_append, List.takeWhile_append_dropWhile]

theorem exponentLen_le (s : Bytes) : exponentLen s ≤ s.length := by
  unfold exponentLen
  split
  · rename_i e r
    split
    · split
      · rename_i s' r'
        have h1 := takeWhile_length_le isDigit r'
        have h2 := takeWhile_length_le isDigit (s' :: r')
        split
        · split <;> simp <;> omega
        · split <;> simp at * <;> omega
      · simp
    · simp
  · simp

theorem suffixLen_le (s : Bytes) : suffixLen s ≤ s.length := by
  unfold suffixLen
  split
  · split <;> simp
  · simp

theorem errLen_bounds (s : Bytes) (h : s ≠ []) : 1 ≤ errLen s ∧ errLen s ≤ s.length := by
  cases s with
  | nil => exact absurd rfl h
  | cons b r =>
    have := takeWhile_length_le isCont r
    simp [errLen]; omega

theorem float_len (tf pos n hs s errs) : (float tf pos n hs s errs).2.1 = n := by
  unfold float; split <;> rfl

theorem strComp_len (s : Bytes) (h : s ≠ []) : 1 ≤ (strComp s).2 ∧ (strComp s).2 ≤ s.length := by
  cases s with
  | nil => exact absurd rfl h
  | cons b r =>
    have he := errLen_bounds (b :: r) (by simp)
    simp only [strComp]
    split
    · simp
    · split
      · split
        · simp
        · rename_i c r'
          split
          · have := takeWhile_length_le isHexDigit (r'.take 2)
            simp at this ⊢; omega
          · split
            · have := takeWhile_length_le isOctDigit ((c :: r').take 3)
              simp at this ⊢; omega
            · split
              · rename_i h4
                simp at h4; simp; omega
              · split
                · rename_i h8
                  simp at h8; simp; omega
                · split
                  · simp
                  · exact he
      · split
        · rename_i hp
          have := takeWhile_length_le isPlain (b :: r)
          refine ⟨?_, this⟩
          simp [hp]
        · exact he

/-- Spans recorded in errors lie inside the source of length `L`. -/
def SpanOk (L : Nat) (s : Span) : Prop := s.start ≤ s.stop ∧ s.stop ≤ L

/-- All spans of all errors lie inside the source of length `L`. -/
def ErrsOk (L : Nat) (errs : List ParseErrorKind) : Prop := ∀ e ∈ errs, ∀ s ∈ e.spans, SpanOk L s

theorem ErrsOk.append {L errs e} (h : ErrsOk L errs) (he : ∀ s ∈ ParseErrorKind.spans e, SpanOk L s) :
    ErrsOk L (errs ++ [e]) := by
  intro x hx
  rcases List.mem_append.1 hx with h1 | h1
  · exact h x h1
  · simp at h1; subst h1; exact he

theorem ErrsOk.nil {L} : ErrsOk L [] := by intro e he; cases he

theorem strError_ok (sl : Bytes) (span : Span) (errs L) (h : ErrsOk L errs) (hs : SpanOk L span) :
    ErrsOk L (strError sl span errs) := by
  have fresh : ErrsOk L (if sl.head? = some 92 then errs ++ [.invalidStringEscape span]
    else errs ++ [.invalidStringCharacters span]) := by
    split <;> exact h.append (by simpa [ParseErrorKind.spans] using hs)
  have merge : ∀ (k : Span → ParseErrorKind) (_ : ∀ s, (k s).spans = [s]) (e : Span),
      errs.getLast? = some (k e) → e.stop = span.start → ErrsOk L (errs.dropLast ++ [k ⟨e.start, span.stop⟩]) := by
    intro k hk e hl he
    have hmem : k e ∈ errs := List.mem_of_getLast? hl
    have hok := h (k e) hmem e (by simp [hk])
    refine ErrsOk.append (fun x hx => h x ((List.dropLast_sublist _).subset hx)) ?_
    intro s hs'
    simp [hk] at hs'; subst hs'
    simp only [SpanOk] at *
    omega
  unfold strError
  simp only
  split
  · rename_i e hl
    split
    · exact merge _ (fun _ => rfl) e hl (by assumption)
    · exact fresh
  · rename_i e hl
    split
    · exact merge _ (fun _ => rfl) e hl (by assumption)
    · exact fresh
  · exact fresh

theorem strError_ne (sl : Bytes) (span : Span) (errs) : strError sl span errs ≠ [] := by
  unfold strError
  simp only
  repeat' split
  all_goals simp

theorem strLoop_len (term : UInt8) : ∀ (fuel pos : Nat) (s : Bytes) (n : Nat) (acc errs),
    (strLoop term fuel pos s n acc errs).2.1 ≤ n + s.length := by
  intro fuel
  induction fuel with
  | zero => intro pos s n acc errs; simp [strLoop]
  | succ fuel ih =>
    intro pos s n acc errs
    simp only [strLoop]
    cases s with
    | nil => simp
    | cons b r =>
      simp only
      have hl := strComp_len (b :: r) (by simp)
      have hstep : ∀ (len : Nat) acc' errs' pos', 1 ≤ len → len ≤ (b :: r).length →
          (strLoop term fuel pos' ((b :: r).drop len) (n + len) acc' errs').2.1 ≤ n + (b :: r).length := by
        intro len acc' errs' pos' h1 h2
        have := ih pos' ((b :: r).drop len) (n + len) acc' errs'
        rw [List.length_drop] at this; omega
      split
      all_goals (rename_i heq; rw [heq] at hl; simp only at hl)
      · exact hstep _ _ _ _ hl.1 hl.2
      · split
        · simp only; omega
        · exact hstep _ _ _ _ hl.1 hl.2
      · exact hstep _ _ _ _ hl.1 hl.2
      · exact hstep _ _ _ _ hl.1 hl.2
      · split
        · simp only; omega
        · exact hstep _ _ _ _ hl.1 hl.2

theorem strLoop_errs (term : UInt8) (L : Nat) : ∀ (fuel pos : Nat) (s : Bytes) (n : Nat) (acc errs),
    ErrsOk L errs → pos + s.length ≤ L → ErrsOk L (strLoop term fuel pos s n acc errs).2.2 := by
  intro fuel
  induction fuel with
  | zero => intro pos s n acc errs h _; exact h
  | succ fuel ih =>
    intro pos s n acc errs h hL
    simp only [strLoop]
    cases s with
    | nil => exact h.append (by simp [ParseErrorKind.spans])
    | cons b r =>
      simp only
      have hl := strComp_len (b :: r) (by simp)
      have hstep : ∀ (len : Nat) n' acc' errs', len ≤ (b :: r).length → ErrsOk L errs' →
          ErrsOk L (strLoop term fuel (pos + len) ((b :: r).drop len) n' acc' errs').2.2 := by
        intro len n' acc' errs' h2 h3
        apply ih _ _ _ _ _ h3
        rw [List.length_drop]; omega
      split
      all_goals (rename_i heq; rw [heq] at hl; simp only at hl)
      · exact hstep _ _ _ _ hl.2 h
      · split
        · exact h
        · exact hstep _ _ _ _ hl.2 h
      · exact hstep _ _ _ _ hl.2 h
      · exact hstep _ _ _ _ hl.2 h
      · have hs : SpanOk L ⟨pos, pos + (strComp (b :: r)).2⟩ := by
          rw [heq]; simp only [SpanOk]; omega
        rw [heq] at hs
        split
        · exact h.append (by simpa [ParseErrorKind.spans] using hs)
        · exact hstep _ _ _ _ hl.2 (strError_ok _ _ _ _ h hs)

theorem strLoop_errs_ne (term : UInt8) : ∀ (fuel pos : Nat) (s : Bytes) (n : Nat) (acc errs),
    errs ≠ [] → (strLoop term fuel pos s n acc errs).2.2 ≠ [] := by
  intro fuel
  induction fuel with
  | zero => intro pos s n acc errs h; exact h
  | succ fuel ih =>
    intro pos s n acc errs h
    simp only [strLoop]
    cases s with
    | nil => simp
    | cons b r =>
      simp only
      split
      · exact ih _ _ _ _ _ h
      · split
        · exact h
        · exact ih _ _ _ _ _ h
      · exact ih _ _ _ _ _ h
      · exact ih _ _ _ _ _ h
      · split
        · simp
        · exact ih _ _ _ _ _ (strError_ne _ _ _)

/-- The value and the length of a string do not depend on the position and the earlier errors. -/
theorem strLoop_indep (term : UInt8) : ∀ (fuel pos pos' : Nat) (s : Bytes) (n : Nat) (acc errs errs'),
    (strLoop term fuel pos s n acc errs).1 = (strLoop term fuel pos' s n acc errs').1 ∧
    (strLoop term fuel pos s n acc errs).2.1 = (strLoop term fuel pos' s n acc errs').2.1 := by
  intro fuel
  induction fuel with
  | zero => intros; exact ⟨rfl, rfl⟩
  | succ fuel ih =>
    intro pos pos' s n acc errs errs'
    simp only [strLoop]
    cases s with
    | nil => exact ⟨rfl, rfl⟩
    | cons b r =>
      simp only
      split
      · exact ih _ _ _ _ _ _ _
      · split
        · exact ⟨rfl, rfl⟩
        · exact ih _ _ _ _ _ _ _
      · exact ih _ _ _ _ _ _ _
      · exact ih _ _ _ _ _ _ _
      · split
        · exact ⟨rfl, rfl⟩
        · exact ih _ _ _ _ _ _ _

/-- A string without errors leaves the error list unchanged whatever it was. -/
theorem strLoop_clean (term : UInt8) : ∀ (fuel pos pos' : Nat) (s : Bytes) (n : Nat) (acc errs),
    (strLoop term fuel pos s n acc []).2.2 = [] → (strLoop term fuel pos' s n acc errs).2.2 = errs := by
  intro fuel
  induction fuel with
  | zero => intros; rfl
  | succ fuel ih =>
    intro pos pos' s n acc errs h
    simp only [strLoop] at h ⊢
    cases s with
    | nil => simp at h
    | cons b r =>
      simp only at h ⊢
      split <;> rename_i heq <;> rw [heq] at h <;> simp only at h
      · exact ih _ _ _ _ _ _ h
      · split
        · rfl
        · rename_i ht; rw [if_neg ht] at h; exact ih _ _ _ _ _ _ h
      · exact ih _ _ _ _ _ _ h
      · exact ih _ _ _ _ _ _ h
      · exfalso
        split at h
        · simp at h
        · exact strLoop_errs_ne _ _ _ _ _ _ _ (strError_ne _ _ _) h

theorem trimStart_length : ∀ (n : Nat) (s : Bytes), s.length ≤ n → (trimStart s).length ≤ s.length := by
  intro n
  induction n with
  | zero =>
    intro s hs
    have : s = [] := List.length_eq_zero_iff.1 (by omega)
    subst this; simp [trimStart]
  | succ n ih =>
    intro s hs
    unfold trimStart
    split
    · simp
    · rename_i b r
      simp only [List.length_cons] at hs
      split
      · have := ih r (by omega); simp; omega
      · split
        all_goals try split
        all_goals try simp
        all_goals (
          have := ih ‹Bytes› (by simp only [List.length_cons] at hs; omega)
          try omega)

theorem trimStart_le (s : Bytes) : (trimStart s).length ≤ s.length := trimStart_length s.length s (Nat.le_refl _)

/-- The rest after a newline inside a block comment. -/
theorem comment_newline_le (r : Bytes) : (skipStar (trimStart r)).length ≤ r.length := by
  have := trimStart_le r
  generalize trimStart r = t at *
  unfold skipStar
  split
  · exact this
  · simp at this; omega
  · exact this

theorem commentLoop_len : ∀ (fuel pos : Nat) (s : Bytes) (n total depth : Nat) (lastEnd : Option Nat) (acc errs),
    n + s.length ≤ total → (∀ e, lastEnd = some e → e ≤ total) →
    (commentLoop fuel pos s n total depth lastEnd acc errs).2.1 ≤ total := by
  intro fuel
  induction fuel with
  | zero => intro pos s n total depth lastEnd acc errs h _; simp [commentLoop]; omega
  | succ fuel ih =>
    intro pos s n total depth lastEnd acc errs h he
    simp only [commentLoop]
    split
    · split
      · exact he _ rfl
      · simp
    · rename_i r
      have := takeWhile_length_le isSkip r
      simp only [List.length_cons] at h
      split
      · simp only; omega
      · apply ih
        · rw [List.length_drop]; simp only [List.length_cons]; omega
        · intro e h'; injection h' with h'; omega
    · simp only [List.length_cons] at h
      exact ih _ _ _ _ _ _ _ _ (by omega) he
    · rename_i r
      simp only [List.length_cons] at h
      have := comment_newline_le r
      apply ih _ _ _ _ _ _ _ _ _ he
      simp only [List.length_cons]
      omega
    · rename_i b r _ _ _
      have := errLen_bounds (b :: r) (by simp)
      apply ih _ _ _ _ _ _ _ _ _ he
      rw [List.length_drop]; omega

theorem commentLoop_errs (L : Nat) : ∀ (fuel pos : Nat) (s : Bytes) (n total depth : Nat) (lastEnd : Option Nat) (acc errs),
    ErrsOk L errs → pos + s.length ≤ L →
    ErrsOk L (commentLoop fuel pos s n total depth lastEnd acc errs).2.2 := by
  intro fuel
  induction fuel with
  | zero => intro pos s n total depth lastEnd acc errs h _; exact h
  | succ fuel ih =>
    intro pos s n total depth lastEnd acc errs h hL
    simp only [commentLoop]
    split
    · split
      · exact h
      · exact h.append (by simp [ParseErrorKind.spans])
    · rename_i r
      have := takeWhile_length_le isSkip r
      simp only [List.length_cons] at hL
      split
      · exact h
      · apply ih _ _ _ _ _ _ _ _ h
        rw [List.length_drop]; simp only [List.length_cons]; omega
    · simp only [List.length_cons] at hL
      apply ih _ _ _ _ _ _ _ _ _ (by omega)
      apply h.append
      intro s hs
      simp [ParseErrorKind.spans] at hs; subst hs
      simp only [SpanOk]; omega
    · rename_i r
      simp only [List.length_cons] at hL
      have := comment_newline_le r
      apply ih _ _ _ _ _ _ _ _ h
      simp only [List.length_cons]
      omega
    · rename_i b r _ _ _
      have := errLen_bounds (b :: r) (by simp)
      apply ih _ _ _ _ _ _ _ _ h
      rw [List.length_drop]; omega

theorem commentLoop_errs_ne : ∀ (fuel pos : Nat) (s : Bytes) (n total depth : Nat) (lastEnd : Option Nat) (acc errs),
    errs ≠ [] → (commentLoop fuel pos s n total depth lastEnd acc errs).2.2 ≠ [] := by
  intro fuel
  induction fuel with
  | zero => intro pos s n total depth lastEnd acc errs h; exact h
  | succ fuel ih =>
    intro pos s n total depth lastEnd acc errs h
    simp only [commentLoop]
    split
    · split
      · exact h
      · simp
    · split
      · exact h
      · exact ih _ _ _ _ _ _ _ _ h
    · exact ih _ _ _ _ _ _ _ _ (by simp)
    · exact ih _ _ _ _ _ _ _ _ h
    · exact ih _ _ _ _ _ _ _ _ h

theorem commentLoop_indep : ∀ (fuel pos pos' : Nat) (s : Bytes) (n total depth : Nat) (lastEnd : Option Nat) (acc errs errs'),
    (commentLoop fuel pos s n total depth lastEnd acc errs).1 =
      (commentLoop fuel pos' s n total depth lastEnd acc errs').1 ∧
    (commentLoop fuel pos s n total depth lastEnd acc errs).2.1 =
      (commentLoop fuel pos' s n total depth lastEnd acc errs').2.1 := by
  intro fuel
  induction fuel with
  | zero => intros; exact ⟨rfl, rfl⟩
  | succ fuel ih =>
    intro pos pos' s n total depth lastEnd acc errs errs'
    simp only [commentLoop]
    split
    · split <;> exact ⟨rfl, rfl⟩
    · split
      · exact ⟨rfl, rfl⟩
      · exact ih _ _ _ _ _ _ _ _ _ _
    all_goals exact ih _ _ _ _ _ _ _ _ _ _

theorem commentLoop_clean : ∀ (fuel pos pos' : Nat) (s : Bytes) (n total depth : Nat) (lastEnd : Option Nat) (acc errs),
    (commentLoop fuel pos s n total depth lastEnd acc []).2.2 = [] →
    (commentLoop fuel pos' s n total depth lastEnd acc errs).2.2 = errs := by
  intro fuel
  induction fuel with
  | zero => intros; rfl
  | succ fuel ih =>
    intro pos pos' s n total depth lastEnd acc errs h
    simp only [commentLoop] at h ⊢
    split at h
    · split at h
      · rfl
      · simp at h
    · split at h
      · rename_i hd; rw [if_pos hd]
      · rename_i hd; rw [if_neg hd]; exact ih _ _ _ _ _ _ _ _ _ h
    · exact absurd h (commentLoop_errs_ne _ _ _ _ _ _ _ _ _ (by simp))
    · exact ih _ _ _ _ _ _ _ _ _ h
    · exact ih _ _ _ _ _ _ _ _ _ h

theorem noSpace_errs {L span rest errs} (h : ErrsOk L errs) (hs : span.start ≤ span.stop)
    (hL : span.stop + rest.length ≤ L) : ErrsOk L (noSpace span rest errs) := by
  unfold noSpace
  cases rest with
  | nil => exact h
  | cons ch r =>
    simp only
    have := takeWhile_length_le isAlpha r
    simp only [List.length_cons] at hL
    split
    · apply h.append
      intro s hs'
      simp [ParseErrorKind.spans] at hs'; subst hs'
      simp only [SpanOk]; omega
    · exact h

theorem noSpace_ne {span rest errs} (h : errs ≠ []) : noSpace span rest errs ≠ [] := by
  unfold noSpace
  split
  · split
    · simp
    · exact h
  · exact h

theorem noSpace_clean {span span' rest errs} (h : noSpace span rest [] = []) :
    noSpace span' rest errs = errs := by
  unfold noSpace at h ⊢
  cases rest with
  | nil => rfl
  | cons ch r =>
    simp only at h ⊢
    split at h
    · simp at h
    · rename_i hc; rw [if_neg hc]

theorem int_errs {L radix pre pos len ds rest errs} (h : ErrsOk L errs)
    (hpre : pre ≤ len) (hL : pos + len + rest.length ≤ L) :
    ErrsOk L (int radix pre pos len ds rest errs).2 := by
  unfold int
  have h1 : ErrsOk L (noSpace ⟨pos + pre, pos + len⟩ rest errs) :=
    noSpace_errs h (by simp; omega) hL
  simp only
  split
  · exact h1
  · apply h1.append
    intro s hs
    simp [ParseErrorKind.spans] at hs; subst hs
    simp only [SpanOk]; omega

theorem int_indep (radix pre pos pos' len ds rest errs errs') :
    (int radix pre pos len ds rest errs).1 = (int radix pre pos' len ds rest errs').1 := by
  unfold int
  simp only
  split <;> rfl

theorem int_errs_ne {radix pre pos len ds rest errs} (h : errs ≠ []) :
    (int radix pre pos len ds rest errs).2 ≠ [] := by
  unfold int
  simp only
  split
  · exact noSpace_ne h
  · simp

theorem int_clean {radix pre pos pos' len ds rest errs} (h : (int radix pre pos len ds rest []).2 = []) :
    (int radix pre pos' len ds rest errs).2 = errs := by
  unfold int at h ⊢
  simp only at h ⊢
  split at h
  · exact noSpace_clean h
  · simp at h

theorem float_errs {L tf pos n hs s errs} (h : ErrsOk L errs) (hL : pos + n ≤ L) :
    ErrsOk L (float tf pos n hs s errs).2.2 := by
  unfold float
  split
  · simp only
    split
    · exact h
    · apply h.append
      intro s hs
      simp [ParseErrorKind.spans] at hs; subst hs
      simp only [SpanOk]; omega
  · exact h

theorem float_indep (tf tf' pos pos' n hs s errs errs') :
    (float tf pos n hs s errs).1 = (float tf' pos' n hs s errs').1 := by
  unfold float; split <;> rfl

theorem float_errs_ne {tf pos n hs s errs} (h : errs ≠ []) : (float tf pos n hs s errs).2.2 ≠ [] := by
  unfold float
  split
  · simp only; split
    · exact h
    · simp
  · exact h

theorem float_clean {tf pos pos' n hs s errs} (h : (float false pos n hs s []).2.2 = []) :
    (float tf pos' n hs s errs).2.2 = errs := by
  unfold float at h ⊢
  split at h
  · simp at h
  · rename_i hc; rw [if_neg hc]

end Verif.Lex
