import Verif.Proofs.Endings1
/-! Words, numbers and punctuation before a line ending. -/
namespace Verif.Endings
open Verif.Spec Verif.Lex

theorem tw_eol {p : UInt8 → Bool} (h10 : p 10 = false) (h13 : p 13 = false) {e : Bytes} (he : Eol e) : ∀ a : Bytes,
    (a ++ e).takeWhile p = a.takeWhile p ∧ (a ++ e).dropWhile p = a.dropWhile p ++ e
  | [] => by
    rcases he with rfl | ⟨Z, rfl⟩ | ⟨Z, rfl⟩
    · simp
    · simp [List.takeWhile_cons, List.dropWhile_cons, h10]
    · simp [List.takeWhile_cons, List.dropWhile_cons, h13]
  | b :: a => by
    obtain ⟨h1, h2⟩ := tw_eol h10 h13 he a
    by_cases hb : p b = true
    · simp [List.takeWhile_cons, List.dropWhile_cons, hb, h1, h2]
    · simp [List.takeWhile_cons, List.dropWhile_cons, hb]

theorem exp_eol {e : Bytes} (he : Eol e) (a : Bytes) : exponentLen (a ++ e) = exponentLen a := by
  match a with
  | [] => rcases he with rfl | ⟨Z, rfl⟩ | ⟨Z, rfl⟩ <;> rfl
  | [x] =>
    rcases he with rfl | ⟨Z, rfl⟩ | ⟨Z, rfl⟩
    · rfl
    · show exponentLen (x :: 10 :: Z) = if _ then 0 else 0
      rw [exp_two]; split <;> rfl
    · show exponentLen (x :: 13 :: Z) = if _ then 0 else 0
      rw [exp_two]; split <;> rfl
  | x :: y :: a =>
    have h1 := (tw_eol (p := isDigit) rfl rfl he a).1
    have h2 := (tw_eol (p := isDigit) rfl rfl he (y :: a)).1
    simp only [List.cons_append] at h2 ⊢
    rw [exp_two, exp_two, h1, h2]

theorem suffix_eol {e : Bytes} (he : Eol e) (a : Bytes) : suffixLen (a ++ e) = suffixLen a := by
  cases a with
  | nil => rcases he with rfl | ⟨Z, rfl⟩ | ⟨Z, rfl⟩ <;> rfl
  | cons b a => rfl

theorem float_eol {tf pos n hs} {a e : Bytes} {errs} (h : n ≤ a.length) : float tf pos n hs (a ++ e) errs = float tf pos n hs a errs := by
  unfold float
  rw [List.take_append_of_le_length h, List.take_append_of_le_length (by omega)]

theorem noSpace_eol {e : Bytes} (he : Eol e) (sp) (a : Bytes) (errs) : noSpace sp (a ++ e) errs = noSpace sp a errs := by
  cases a with
  | nil => rcases he with rfl | ⟨Z, rfl⟩ | ⟨Z, rfl⟩ <;> rfl
  | cons c a => simp only [List.cons_append, noSpace, (tw_eol (p := isAlpha) rfl rfl he a).1]

theorem int_eol {e : Bytes} (he : Eol e) (radix pre pos len ds) (a : Bytes) (errs) :
    int radix pre pos len ds (a ++ e) errs = int radix pre pos len ds a errs := by
  unfold int
  simp only [noSpace_eol he]

theorem number_eol {e : Bytes} (he : Eol e) (tf pos) (a : Bytes) (errs) (hd : a.takeWhile isDigit ≠ []) :
    number tf pos (a ++ e) errs = number tf pos a errs := by
  have hl := len_split isDigit a
  have hpos := List.length_pos_iff.2 hd
  unfold number
  simp only [(tw_eol (p := isDigit) rfl rfl he a).1, (tw_eol (p := isDigit) rfl rfl he a).2]
  have fl : ∀ {n hs}, n ≤ a.length → float tf pos n hs (a ++ e) errs = float tf pos n hs a errs := float_eol
  generalize a.takeWhile isDigit = ds at *
  generalize a.dropWhile isDigit = d at *
  cases d with
  | nil =>
    have e0 : exponentLen e = 0 := exp_eol he []
    have e1 : exponentLen [] = 0 := rfl
    have s0 : suffixLen e = 0 := suffix_eol he []
    have s1 : suffixLen [] = 0 := rfl
    have i0 := fun radix pre len x => int_eol he radix pre pos len x [] errs
    simp only [List.nil_append] at i0 ⊢
    split
    · rename_i r1
      rcases he with h | ⟨Z, h⟩ | ⟨Z, h⟩ <;> cases h
    · simp only [e0, e1, s0, s1, i0, ne_eq, not_true_eq_false, if_false]
      split
      · rcases he with rfl | ⟨Z, rfl⟩ | ⟨Z, rfl⟩ <;> simp
      · rfl
  | cons c d =>
    simp only [List.cons_append]
    have hc := exp_eol he (c :: d)
    have hs := suffix_eol he (c :: d)
    have hel := exponentLen_le (c :: d)
    have hcd := suffix_eol he ((c :: d).drop (exponentLen (c :: d)))
    rw [← List.drop_append_of_le_length hel] at hcd
    have hsl := suffixLen_le ((c :: d).drop (exponentLen (c :: d)))
    rw [List.length_drop] at hsl
    have i0 := fun radix pre len x => int_eol he radix pre pos len x (c :: d) errs
    simp only [List.cons_append] at hc hs hcd i0
    have t2 := (tw_eol (p := isHexDigit) rfl rfl he d)
    by_cases h46 : c = 46
    · subst h46
      have f := tw_eol (p := isDigit) rfl rfl he d
      have fe := exp_eol he (d.dropWhile isDigit)
      have fle := exponentLen_le (d.dropWhile isDigit)
      have fs := suffix_eol he ((d.dropWhile isDigit).drop (exponentLen (d.dropWhile isDigit)))
      have fsl := suffixLen_le ((d.dropWhile isDigit).drop (exponentLen (d.dropWhile isDigit)))
      rw [List.length_drop] at fsl
      rw [← List.drop_append_of_le_length fle] at fs
      have hl2 := len_split isDigit d
      simp only [f.1, f.2, fe, fs]
      refine fl ?_
      simp only [List.length_cons] at hl
      omega
    · have n1 : ∀ r1, c :: (d ++ e) = 46 :: r1 → False := fun r1 h => h46 (by injection h)
      have n2 : ∀ r1, c :: d = 46 :: r1 → False := fun r1 h => h46 (by injection h)
      simp only [n1, n2, hc, hs, hcd, i0, t2.1, t2.2, int_eol he]
      simp only [List.length_cons] at hl hel hsl
      split
      · exact fl (by omega)
      · split
        · rename_i h48
          rw [h48] at hl
          simp only [List.length_cons, List.length_nil] at hl
          split
          · rfl
          · split
            · exact fl (by omega)
            · rfl
        · split
          · rfl
          · split
            · exact fl (by omega)
            · rfl

/-- The byte begins a word, a number or a punctuation mark other than a quote, `#` or `/`. -/
def simple (b : UInt8) : Prop := b ≠ 39 ∧ b ≠ 34 ∧ b ≠ 35

/-- Not a comment. -/
def NoComment (s : Bytes) : Prop := ¬ (s.head? = some 47 ∧ (s.tail.head? = some 47 ∨ s.tail.head? = some 42))

theorem lexToken_eol {e : Bytes} (he : Eol e) (tf pos) {b : UInt8} {a : Bytes} (hb : simple b) (hno : NoComment (b :: a)) :
    lexToken tf pos (b :: a ++ e) [] = lexToken tf pos (b :: a) [] := by
  obtain ⟨q1, q2, q3⟩ := hb
  have hd : ∀ {c : UInt8}, c ≠ 10 → c ≠ 13 → ((a ++ e).head? = some c ↔ a.head? = some c) := by
    intro c hc hc'
    cases a with
    | nil =>
      rcases he with rfl | ⟨Z, rfl⟩ | ⟨Z, rfl⟩
      · exact Iff.rfl
      · simp [Ne.symm hc]
      · simp [Ne.symm hc']
    | cons x a => exact Iff.rfl
  have hst : startsWith isDigit (a ++ e) = startsWith isDigit a := by
    cases a with
    | nil => rcases he with rfl | ⟨Z, rfl⟩ | ⟨Z, rfl⟩ <;> rfl
    | cons x a => rfl
  have tw := (tw_eol (p := isIdentCont) rfl rfl he (b :: a)).1
  have hnum := number_eol he tf pos (b :: a) []
  have hfl : ∀ {n hs}, n ≤ (b :: a).length → float tf pos n hs (b :: a ++ e) [] = float tf pos n hs (b :: a) [] := float_eol
  rw [List.cons_append] at tw hnum hfl ⊢
  unfold lexToken
  dsimp only
  rw [tw]
  by_cases h1 : isIdentStart b = true
  · rw [if_pos h1, if_pos h1]
  rw [if_neg h1, if_neg h1]
  by_cases h2 : isDigit b = true
  · rw [if_pos h2, if_pos h2, hnum (by simp [List.takeWhile_cons, h2])]
  rw [if_neg h2, if_neg h2, hst]
  by_cases h3 : (b == 46 && startsWith isDigit a) = true
  · rw [if_pos h3, if_pos h3]
    have f := tw_eol (p := isDigit) rfl rfl he a
    have fle := exponentLen_le (a.dropWhile isDigit)
    have fsl := suffixLen_le ((a.dropWhile isDigit).drop (exponentLen (a.dropWhile isDigit)))
    rw [List.length_drop] at fsl
    have hl := len_split isDigit a
    rw [f.1, f.2, exp_eol he, List.drop_append_of_le_length fle, suffix_eol he, hfl]
    simp only [List.length_cons]
    omega
  rw [if_neg h3, if_neg h3]
  simp only [hd (by decide : (47 : UInt8) ≠ 10) (by decide), hd (by decide : (42 : UInt8) ≠ 10) (by decide)]
  have h4 : (b == 39 || b == 34) = false := by simp [q1, q2]
  have h5 : (b == 35) = false := by simp [q3]
  simp only [h4, h5]
  have h6 : (b == 47 && decide (a.head? = some 47)) = false := by
    rw [Bool.eq_false_iff]
    intro h
    simp at h
    exact hno ⟨by simp [h.1], .inl h.2⟩
  have h7 : (b == 47 && decide (a.head? = some 42)) = false := by
    rw [Bool.eq_false_iff]
    intro h
    simp at h
    exact hno ⟨by simp [h.1], .inr h.2⟩
  simp only [h6, h7, Bool.false_eq_true, if_false, errLen, (tw_eol (p := isCont) rfl rfl he a).1]

end Verif.Endings
