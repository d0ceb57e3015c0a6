import Verif.Proofs.Relex
/-! A token of a source is what the lexer reads at its beginning. -/
namespace Verif
open Verif.Spec

/-- What the lexer returns for a token or error. -/
def resOf : Option Token → Lex.Res
  | some t => .tok t
  | none => .error

theorem dropWhile_stop {p : UInt8 → Bool} : ∀ s : Bytes, (s.dropWhile p).takeWhile p = [] ∧ (s.dropWhile p).dropWhile p = s.dropWhile p
  | [] => ⟨rfl, rfl⟩
  | b :: s => by
    by_cases hb : p b = true
    · simpa [List.dropWhile_cons, hb] using dropWhile_stop s
    · simp [List.dropWhile_cons, List.takeWhile_cons, hb]

theorem drop_takeWhile {p : UInt8 → Bool} : ∀ s : Bytes, s.drop (s.takeWhile p).length = s.dropWhile p
  | [] => rfl
  | b :: s => by
    by_cases hb : p b = true
    · simpa [List.dropWhile_cons, List.takeWhile_cons, hb] using drop_takeWhile s
    · simp [List.dropWhile_cons, List.takeWhile_cons, hb]

/-- Blanks before a token do not matter. -/
theorem next_at (tf pos s errs) (h : (Lex.next tf pos s errs).res ≠ .eof) :
    pos ≤ (Lex.next tf pos s errs).span.start ∧
    Lex.next tf (Lex.next tf pos s errs).span.start (s.drop ((Lex.next tf pos s errs).span.start - pos)) errs =
      Lex.next tf pos s errs := by
  have hst : (Lex.next tf pos s errs).span.start = pos + (s.takeWhile Lex.isSkip).length := by
    unfold Lex.next
    simp only
    split
    · rfl
    · split <;> rfl
  rw [hst]
  refine ⟨Nat.le_add_right _ _, ?_⟩
  rw [Nat.add_sub_cancel_left, drop_takeWhile]
  unfold Lex.next
  simp only [(dropWhile_stop s).1, (dropWhile_stop s).2, List.length_nil, Nat.add_zero]

theorem rawToks_at (src : Bytes) : ∀ (n : Nat) (pre s : Bytes), s.length < n → src = pre ++ s →
    ∀ x ∈ rawToks pre.length s,
      (Lex.next false x.2.start (src.drop x.2.start) []).res = resOf x.1 ∧
      (Lex.next false x.2.start (src.drop x.2.start) []).span = x.2 ∧
      ∀ tf, lexCleanIn tf pre.length s = true → (Lex.next tf x.2.start (src.drop x.2.start) []).errs = [] := by
  intro n
  induction n with
  | zero => intro pre s h; omega
  | succ n ih =>
    intro pre s hn hsrc x hx
    have hat : ∀ tf, (Lex.next tf pre.length s []).res ≠ .eof →
        Lex.next tf (Lex.next tf pre.length s []).span.start (src.drop (Lex.next tf pre.length s []).span.start) [] =
          Lex.next tf pre.length s [] := by
      intro tf hne
      obtain ⟨h1, h2⟩ := next_at tf pre.length s [] hne
      generalize (Lex.next tf pre.length s []).span.start = st at h1 h2 ⊢
      rw [hsrc, List.drop_append, List.drop_eq_nil_of_le h1, List.nil_append]
      exact h2
    have hlt := next_rest_lt pre.length s
    obtain ⟨b, t, e1, hb, h1, h2, h3, _⟩ := Lex.next_split false pre.length s []
    have hrest : (Lex.next false pre.length s []).res ≠ .eof →
        x ∈ rawToks (Lex.next false pre.length s []).span.stop (Lex.next false pre.length s []).rest →
        (Lex.next false x.2.start (src.drop x.2.start) []).res = resOf x.1 ∧
        (Lex.next false x.2.start (src.drop x.2.start) []).span = x.2 ∧
        ∀ tf, lexCleanIn tf pre.length s = true → (Lex.next tf x.2.start (src.drop x.2.start) []).errs = [] := by
      intro hne hx
      have hst : (Lex.next false pre.length s []).span.stop = (pre ++ b ++ t).length := by simp; omega
      rw [hst] at hx
      obtain ⟨i1, i2, i3⟩ := ih (pre ++ b ++ t) _ (by have := hlt hne; omega) (by rw [hsrc]; simpa only [List.append_assoc] using congrArg (pre ++ ·) e1) x hx
      refine ⟨i1, i2, fun tf hcl => i3 tf ?_⟩
      obtain ⟨g1, g2, g3⟩ := next_same tf pre.length s []
      rw [lexCleanIn_unfold, g1, g2, g3] at hcl
      simp only [Bool.and_eq_true] at hcl
      have := hcl.2
      rwa [hst] at this
    have hhead : ∀ y, (Lex.next false pre.length s []).res = resOf y → x = (y, (Lex.next false pre.length s []).span) →
        (Lex.next false x.2.start (src.drop x.2.start) []).res = resOf x.1 ∧
        (Lex.next false x.2.start (src.drop x.2.start) []).span = x.2 ∧
        ∀ tf, lexCleanIn tf pre.length s = true → (Lex.next tf x.2.start (src.drop x.2.start) []).errs = [] := by
      rintro y hy rfl
      have hne : (Lex.next false pre.length s []).res ≠ .eof := by rw [hy]; cases y <;> nofun
      simp only
      refine ⟨by rw [hat _ hne, hy], by rw [hat _ hne], fun tf hcl => ?_⟩
      obtain ⟨g1, g2, g3⟩ := next_same tf pre.length s []
      have := hat tf (by rw [g1]; exact hne)
      rw [g3] at this
      rw [this]
      rw [lexCleanIn_unfold] at hcl
      simp only [Bool.and_eq_true, decide_eq_true_eq] at hcl
      exact hcl.1
    rw [rawToks_unfold] at hx
    cases hr : (Lex.next false pre.length s []).res with
    | eof => rw [hr] at hx; cases hx
    | tok k =>
      rw [hr] at hx
      rcases List.mem_cons.1 hx with hx | hx
      · exact hhead (some k) hr hx
      · exact hrest (by rw [hr]; nofun) hx
    | error =>
      rw [hr] at hx
      rcases List.mem_cons.1 hx with hx | hx
      · exact hhead none hr hx
      · exact hrest (by rw [hr]; nofun) hx

theorem rawToks_here {src : Bytes} {x} (hx : x ∈ rawToks 0 src) :
    (Lex.next false x.2.start (src.drop x.2.start) []).res = resOf x.1 ∧
    (Lex.next false x.2.start (src.drop x.2.start) []).span = x.2 ∧
    ∀ tf, lexCleanIn tf 0 src = true → (Lex.next tf x.2.start (src.drop x.2.start) []).errs = [] :=
  rawToks_at src (src.length + 1) [] src (by omega) rfl x hx

end Verif
