import Verif.Spec.Text
import Verif.Proofs.Utf8
import Verif.Proofs.Lexer2
/-! Cutting UTF-8 text: which prefixes and suffixes of a valid text are valid. -/
namespace Verif.Text
open Lex

abbrev V (s : Bytes) : Prop := utf8Valid s = true

theorem v_nil : V [] := rfl

theorem v_ascii {b : UInt8} {r : Bytes} (hb : b < 128) : V (b :: r) ↔ V r := by
  unfold V
  rw [utf8Valid.eq_def]
  simp only
  rw [if_pos (by exact hb)]

theorem v_append {a b : Bytes} (ha : V a) (hb : V b) : V (a ++ b) := by
  unfold V; rw [utf8_append ha]; exact hb

theorem v_of_append {a b : Bytes} (ha : V a) (h : V (a ++ b)) : V b := by
  unfold V at h ⊢; rw [utf8_append ha] at h; exact h

/-- Cutting after ASCII bytes. -/
theorem v_drop_ascii {s : Bytes} (h : V s) : ∀ k, (∀ b ∈ s.take k, b < (128 : UInt8)) → V (s.drop k) := by
  intro k
  induction k generalizing s with
  | zero => intro _; exact h
  | succ k ih =>
    intro ha
    cases s with
    | nil => exact v_nil
    | cons b r =>
      have hb := ha b (by simp)
      exact ih ((v_ascii hb).1 h) fun x hx => ha x (by simp [hx])

theorem v_all_ascii {s : Bytes} (h : ∀ b ∈ s, b < (128 : UInt8)) : V s := by
  induction s with
  | nil => exact v_nil
  | cons b r ih => exact (v_ascii (h b (by simp))).2 (ih fun x hx => h x (by simp [hx]))

theorem drop_takeWhile {α} (p : α → Bool) (l : List α) : l.drop (l.takeWhile p).length = l.dropWhile p := by
  induction l with
  | nil => rfl
  | cons a r ih =>
    cases h : p a with
    | true => simp [h, ih]
    | false => simp [h]

theorem take_takeWhile {α} (p : α → Bool) (l : List α) : l.take (l.takeWhile p).length = l.takeWhile p := by
  induction l with
  | nil => rfl
  | cons a r ih =>
    cases h : p a with
    | true => simp [h, ih]
    | false => simp [h]

theorem takeWhile_mem {α} {p : α → Bool} {l : List α} {x : α} (h : x ∈ l.takeWhile p) : p x = true := by
  induction l with
  | nil => cases h
  | cons a r ih =>
    rw [List.takeWhile_cons] at h
    split at h
    · rcases List.mem_cons.1 h with rfl | h
      · assumption
      · exact ih h
    · cases h

/-- Cutting before an ASCII byte. -/
theorem v_while {p : UInt8 → Bool} (hp : ∀ b, p b = false → b < (128 : UInt8)) {s : Bytes} (h : V s) :
    V (s.takeWhile p) ∧ V (s.dropWhile p) := by
  have hs := List.takeWhile_append_dropWhile (p := p) (l := s)
  cases hd : s.dropWhile p with
  | nil =>
    rw [hd, List.append_nil] at hs
    rw [hs]; exact ⟨h, v_nil⟩
  | cons x r =>
    have hx : p x = false := by
      cases hc : p x with
      | false => rfl
      | true =>
        have := List.head?_dropWhile_not p s
        rw [hd] at this
        simp [hc] at this
    have hx := hp x hx
    rw [hd] at hs
    rw [← hs] at h
    have := utf8_split hx h
    exact ⟨this.1, (v_ascii hx).2 this.2⟩

/-- The first character, as the lexers cut it off. -/
theorem v_errLen {b : UInt8} {r : Bytes} (h : V (b :: r)) :
    V ((b :: r).take (errLen (b :: r))) ∧ V ((b :: r).drop (errLen (b :: r))) := by
  obtain ⟨cs, t', rfl, h1, _, h3⟩ := utf8_char h
  have ht : V t' := by unfold V; rw [← h3]; exact h
  have htw : (cs ++ t').takeWhile isCont = cs := by
    rw [List.takeWhile_append_of_pos h1]
    cases t' with
    | nil => simp
    | cons c t => simp [utf8_head ht]
  have hl : errLen (b :: (cs ++ t')) = cs.length + 1 := by simp only [errLen]; rw [htw]; omega
  rw [hl]
  constructor
  · have := h3 []
    simp only [List.append_nil] at this
    unfold V
    simp [this]; rfl
  · simpa using ht

/-- Positions between characters are those where both parts are text. -/
theorem boundary_iff {src : Bytes} (h : V src) (n : Nat) :
    Spec.CharBoundary src n ↔ n ≤ src.length ∧ V (src.take n) ∧ V (src.drop n) := by
  constructor
  · refine utf8_induction (P := fun s => ∀ n, Spec.CharBoundary s n → n ≤ s.length ∧ V (s.take n) ∧ V (s.drop n))
      ?_ ?_ src h n
    · rintro n ⟨hn, _⟩
      exact ⟨hn, by rw [List.take_nil]; exact v_nil, by rw [List.drop_nil]; exact v_nil⟩
    · rintro b cs t h1 _ h3 ht ih n ⟨hn, hb⟩
      refine ⟨hn, ?_⟩
      cases n with
      | zero => exact ⟨rfl, by unfold V; rw [List.drop_zero, h3]; exact ht⟩
      | succ n =>
        by_cases hc : n < cs.length
        · exfalso
          have := hb cs[n] (by
            rw [List.getElem?_cons_succ, List.getElem?_append_left hc, List.getElem?_eq_getElem hc])
          rw [h1 _ (List.getElem_mem _)] at this
          cases this
        · have hbt : Spec.CharBoundary t (n - cs.length) := by
            constructor
            · simp only [List.length_cons, List.length_append] at hn; omega
            · intro x hx
              apply hb x
              simp only [List.getElem?_cons_succ]
              rw [List.getElem?_append_right (by omega)]
              exact hx
          have := ih _ hbt
          constructor
          · rw [List.take_succ_cons, List.take_append, List.take_of_length_le (by omega)]
            unfold V; rw [h3]; exact this.2.1
          · rw [List.drop_succ_cons, List.drop_append, List.drop_of_length_le (by omega), List.nil_append]
            exact this.2.2
  · rintro ⟨hn, _, hd⟩
    refine ⟨hn, fun b hb => ?_⟩
    have : src.drop n = b :: src.drop (n + 1) := by
      obtain ⟨hlt, rfl⟩ := List.getElem?_eq_some_iff.1 hb
      exact List.drop_eq_getElem_cons hlt
    rw [this] at hd
    exact utf8_head hd

theorem boundary_of_drop {src : Bytes} {n : Nat} (hn : n ≤ src.length) (hd : V (src.drop n)) :
    Spec.CharBoundary src n := by
  refine ⟨hn, fun b hb => ?_⟩
  have : src.drop n = b :: src.drop (n + 1) := by
    obtain ⟨hlt, rfl⟩ := List.getElem?_eq_some_iff.1 hb
    exact List.drop_eq_getElem_cons hlt
  rw [this] at hd
  exact utf8_head hd

end Verif.Text
