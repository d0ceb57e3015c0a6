import Verif.Spec.Tokens
import Verif.Proofs.Lexer2
/-! Unfolding the token sequence of a source. -/
namespace Verif
open Lex

theorem next_rest_lt (pos : Nat) (s : Bytes) (h : (Lex.next false pos s []).res ≠ .eof) :
    (Lex.next false pos s []).rest.length < s.length := by
  have f := next_facts false pos s []
  have := f.nonempty h
  have := f.start_ge
  have := f.stop_rest
  omega

theorem rawToksN_enough : ∀ (n m pos : Nat) (s : Bytes), s.length < n → s.length < m →
    rawToksN n pos s = rawToksN m pos s := by
  intro n
  induction n with
  | zero => intro m pos s h; omega
  | succ n ih =>
    intro m pos s h1 h2
    cases m with
    | zero => omega
    | succ m =>
      simp only [rawToksN]
      have hlt := next_rest_lt pos s
      split
      · rfl
      all_goals
        rename_i heq
        rw [heq] at hlt
        rw [ih m]
        · have := hlt (by simp); omega
        · have := hlt (by simp); omega

theorem rawToks_unfold (pos : Nat) (s : Bytes) :
    rawToks pos s = match (Lex.next false pos s []).res with
      | .eof => []
      | .tok t => (some t, (Lex.next false pos s []).span) ::
          rawToks (Lex.next false pos s []).span.stop (Lex.next false pos s []).rest
      | .error => (none, (Lex.next false pos s []).span) ::
          rawToks (Lex.next false pos s []).span.stop (Lex.next false pos s []).rest := by
  have hlt := next_rest_lt pos s
  rw [rawToks, rawToksN]
  rcases hr : (Lex.next false pos s []).res with _ | t | _
  · simp [hr]
  all_goals
    rw [hr] at hlt
    have h := hlt (by simp)
    simp only [hr, rawToks]
    rw [rawToksN_enough s.length ((Lex.next false pos s []).rest.length + 1)] <;> omega

/-- Results of the lexer in terms of a run with the same position in strict mode. -/
theorem next_same (tf pos s errs) :
    (Lex.next tf pos s errs).res = (Lex.next false pos s []).res ∧
    (Lex.next tf pos s errs).rest = (Lex.next false pos s []).rest ∧
    (Lex.next tf pos s errs).span = (Lex.next false pos s []).span := by
  obtain ⟨h1, h2, h3, h4⟩ := next_indep tf false pos pos s errs []
  refine ⟨h1, h2, ?_⟩
  have h3 : (Lex.next tf pos s errs).span.start = (Lex.next false pos s []).span.start := by omega
  have h4 : (Lex.next tf pos s errs).span.stop = (Lex.next false pos s []).span.stop := by omega
  cases hh : (Lex.next tf pos s errs).span
  cases hg : (Lex.next false pos s []).span
  simp_all

theorem next_rest_lt' (tf : Bool) (pos : Nat) (s : Bytes) (h : (Lex.next tf pos s []).res ≠ .eof) :
    (Lex.next tf pos s []).rest.length < s.length := by
  obtain ⟨h1, h2, _⟩ := next_same tf pos s []
  rw [h1] at h
  rw [h2]
  exact next_rest_lt pos s h

theorem lexCleanN_enough (tf : Bool) : ∀ (n m pos : Nat) (s : Bytes), s.length < n → s.length < m →
    lexCleanN tf n pos s = lexCleanN tf m pos s := by
  intro n
  induction n with
  | zero => intro m pos s h; omega
  | succ n ih =>
    intro m pos s h1 h2
    cases m with
    | zero => omega
    | succ m =>
      simp only [lexCleanN]
      have hlt := next_rest_lt' tf pos s
      congr 1
      split
      · rfl
      · rename_i heq
        have := hlt heq
        rw [ih m] <;> omega

theorem lexCleanIn_unfold (tf : Bool) (pos : Nat) (s : Bytes) :
    lexCleanIn tf pos s = (decide ((Lex.next tf pos s []).errs = []) &&
      match (Lex.next tf pos s []).res with
      | .eof => true
      | _ => lexCleanIn tf (Lex.next tf pos s []).span.stop (Lex.next tf pos s []).rest) := by
  have hlt := next_rest_lt' tf pos s
  rw [lexCleanIn, lexCleanN]
  rcases hr : (Lex.next tf pos s []).res with _ | t | _
  · simp [hr]
  all_goals
    rw [hr] at hlt
    have h := hlt (by simp)
    simp only [hr, lexCleanIn]
    rw [lexCleanN_enough tf s.length ((Lex.next tf pos s []).rest.length + 1)] <;> omega

theorem lexClean_unfold (pos : Nat) (s : Bytes) :
    lexClean pos s = (decide ((Lex.next false pos s []).errs = []) &&
      match (Lex.next false pos s []).res with
      | .eof => true
      | _ => lexClean (Lex.next false pos s []).span.stop (Lex.next false pos s []).rest) :=
  lexCleanIn_unfold false pos s

theorem sigToks_unfold (pos : Nat) (s : Bytes) :
    sigToks pos s = match (Lex.next false pos s []).res with
      | .eof => []
      | .tok t => if t.isTrivia then
          sigToks (Lex.next false pos s []).span.stop (Lex.next false pos s []).rest
        else some (t, (Lex.next false pos s []).span) ::
          sigToks (Lex.next false pos s []).span.stop (Lex.next false pos s []).rest
      | .error => none :: sigToks (Lex.next false pos s []).span.stop (Lex.next false pos s []).rest := by
  rw [sigToks, rawToks_unfold]
  split <;> simp only [significant, List.filterMap_cons, List.filterMap_nil]
  · split <;> simp_all [sigToks, significant]
  · rfl

/-- The spans of a token list are in order, non-overlapping, non-empty, between `a` and `b`. -/
def Chain (a : Nat) : List (Option STok) → Nat → Prop
  | [], b => a ≤ b
  | none :: ts, b => Chain a ts b
  | some t :: ts, b => a ≤ t.2.start ∧ t.2.start < t.2.stop ∧ Chain t.2.stop ts b

theorem Chain.mono {a a' : Nat} {ts b} (h : Chain a ts b) (ha : a' ≤ a) : Chain a' ts b := by
  induction ts with
  | nil => exact Nat.le_trans ha h
  | cons t ts ih =>
    cases t with
    | none => exact ih h
    | some t => exact ⟨Nat.le_trans ha h.1, h.2⟩

theorem Chain.le {a : Nat} {ts b} (h : Chain a ts b) : a ≤ b := by
  induction ts generalizing a with
  | nil => exact h
  | cons t ts ih =>
    cases t with
    | none => exact ih h
    | some t => have := ih h.2.2; have := h.1; have := h.2.1; omega

theorem chain_sigToks : ∀ (n pos : Nat) (s : Bytes), s.length < n →
    Chain pos (sigToks pos s) (pos + s.length) := by
  intro n
  induction n with
  | zero => intro pos s h; omega
  | succ n ih =>
    intro pos s h
    rw [sigToks_unfold]
    have f := next_facts false pos s []
    have hlt := next_rest_lt pos s
    have hs := f.stop_rest
    have hge := f.start_ge
    have hle := f.start_le
    split
    · simp [Chain]
    · rename_i t heq
      have hlt := hlt (by simp [heq])
      have hne := f.nonempty (by simp [heq])
      have := ih (Lex.next false pos s []).span.stop (Lex.next false pos s []).rest (by omega)
      rw [hs] at this
      split
      · exact this.mono (by omega)
      · exact ⟨hge, hne, this⟩
    · rename_i heq
      have hlt := hlt (by simp [heq])
      have := ih (Lex.next false pos s []).span.stop (Lex.next false pos s []).rest (by omega)
      rw [hs] at this
      exact Chain.mono (ts := _) this (by omega)

end Verif
