import Verif.Basic
/-!
UTF-8: characters, splitting and joining.
-/
namespace Verif

theorem isCont_ge {c : UInt8} (h : isCont c = true) : (128 : UInt8) ≤ c := by
  unfold isCont at h
  simp only [Bool.and_eq_true, decide_eq_true_eq] at h
  exact h.1

theorem isCont_of {c : UInt8} (h1 : (0x80 : UInt8) ≤ c) (h2 : c ≤ 0xBF) : isCont c = true := by
  unfold isCont
  simp only [Bool.and_eq_true, decide_eq_true_eq]
  exact ⟨h1, h2⟩

/-- The first character of a valid string: what follows it does not matter. -/
theorem utf8_char {b : UInt8} {t : Bytes} (h : utf8Valid (b :: t) = true) :
    ∃ cs t', t = cs ++ t' ∧ (∀ c ∈ cs, isCont c = true) ∧ (cs ≠ [] → (128 : UInt8) ≤ b) ∧
      ∀ y, utf8Valid (b :: (cs ++ y)) = utf8Valid y := by
  by_cases hb : b < 0x80
  · exact ⟨[], t, rfl, nofun, fun h => absurd rfl h, fun y => by rw [List.nil_append, utf8Valid.eq_def]; simp [hb]⟩
  have hge : (128 : UInt8) ≤ b := UInt8.not_lt.1 hb
  unfold utf8Valid at h
  rw [if_neg hb] at h
  cases t with
  | nil => cases h
  | cons b1 r1 =>
    simp only at h
    split at h
    · rename_i h2
      rw [Bool.and_eq_true] at h
      refine ⟨[b1], r1, rfl, ?_, fun _ => hge, ?_⟩
      · intro c hc
        simp only [List.mem_cons, List.not_mem_nil, or_false] at hc
        subst hc; exact h.1
      · intro y
        show utf8Valid (b :: b1 :: y) = _
        rw [utf8Valid.eq_def]
        simp only
        rw [if_neg hb, if_pos h2, h.1, Bool.true_and]
    · rename_i h2
      cases r1 with
      | nil => cases h
      | cons b2 r2 =>
        simp only at h
        have mk3 : isCont b1 = true → isCont b2 = true → (∀ y, utf8Valid (b :: b1 :: b2 :: y) = utf8Valid y) →
            ∃ cs t', b1 :: b2 :: r2 = cs ++ t' ∧ (∀ c ∈ cs, isCont c = true) ∧ (cs ≠ [] → (128 : UInt8) ≤ b) ∧
              ∀ y, utf8Valid (b :: (cs ++ y)) = utf8Valid y := by
          intro h1 h2 h3
          refine ⟨[b1, b2], r2, rfl, ?_, fun _ => hge, h3⟩
          intro c hc
          simp only [List.mem_cons, List.not_mem_nil, or_false] at hc
          rcases hc with rfl | rfl
          · exact h1
          · exact h2
        have hunf : ∀ y, utf8Valid (b :: b1 :: b2 :: y) =
            (if b == 0xE0 then (0xA0 ≤ b1 && b1 ≤ 0xBF) && isCont b2 && utf8Valid y
             else if b == 0xED then (0x80 ≤ b1 && b1 ≤ 0x9F) && isCont b2 && utf8Valid y
             else if 0xE1 ≤ b && b ≤ 0xEF then isCont b1 && isCont b2 && utf8Valid y
             else match y with
             | [] => false
             | b3 :: r3 =>
               if b == 0xF0 then (0x90 ≤ b1 && b1 ≤ 0xBF) && isCont b2 && isCont b3 && utf8Valid r3
               else if 0xF1 ≤ b && b ≤ 0xF3 then isCont b1 && isCont b2 && isCont b3 && utf8Valid r3
               else if b == 0xF4 then (0x80 ≤ b1 && b1 ≤ 0x8F) && isCont b2 && isCont b3 && utf8Valid r3
               else false) := by
          intro y
          rw [utf8Valid.eq_def]
          simp only
          rw [if_neg hb, if_neg h2]
          rfl
        split at h
        · rename_i h3
          simp only [Bool.and_eq_true, decide_eq_true_eq] at h
          refine mk3 (isCont_of (UInt8.le_trans (by decide) h.1.1.1) (UInt8.le_trans h.1.1.2 (by decide))) h.1.2 fun y => ?_
          rw [hunf, if_pos h3, h.1.2]
          simp [h.1.1.1, h.1.1.2]
        · rename_i h3
          split at h
          · rename_i h4
            simp only [Bool.and_eq_true, decide_eq_true_eq] at h
            refine mk3 (isCont_of h.1.1.1 (UInt8.le_trans h.1.1.2 (by decide))) h.1.2 fun y => ?_
            rw [hunf, if_neg h3, if_pos h4, h.1.2]
            simp [h.1.1.1, h.1.1.2]
          · rename_i h4
            split at h
            · rename_i h5
              simp only [Bool.and_eq_true] at h
              refine mk3 h.1.1 h.1.2 fun y => ?_
              rw [hunf, if_neg h3, if_neg h4, if_pos h5, h.1.1, h.1.2]
              simp
            · rename_i h5
              cases r2 with
              | nil => cases h
              | cons b3 r3 =>
                simp only at h
                have mk4 : isCont b1 = true → isCont b2 = true → isCont b3 = true →
                    (∀ y, utf8Valid (b :: b1 :: b2 :: b3 :: y) = utf8Valid y) →
                    ∃ cs t', b1 :: b2 :: b3 :: r3 = cs ++ t' ∧ (∀ c ∈ cs, isCont c = true) ∧ (cs ≠ [] → (128 : UInt8) ≤ b) ∧
                      ∀ y, utf8Valid (b :: (cs ++ y)) = utf8Valid y := by
                  intro h1 h2 h3 h4
                  refine ⟨[b1, b2, b3], r3, rfl, ?_, fun _ => hge, h4⟩
                  intro c hc
                  simp only [List.mem_cons, List.not_mem_nil, or_false] at hc
                  rcases hc with rfl | rfl | rfl
                  · exact h1
                  · exact h2
                  · exact h3
                have hunf4 : ∀ y, utf8Valid (b :: b1 :: b2 :: b3 :: y) =
                    (if b == 0xF0 then (0x90 ≤ b1 && b1 ≤ 0xBF) && isCont b2 && isCont b3 && utf8Valid y
                     else if 0xF1 ≤ b && b ≤ 0xF3 then isCont b1 && isCont b2 && isCont b3 && utf8Valid y
                     else if b == 0xF4 then (0x80 ≤ b1 && b1 ≤ 0x8F) && isCont b2 && isCont b3 && utf8Valid y
                     else false) := by
                  intro y
                  rw [hunf, if_neg h3, if_neg h4, if_neg h5]
                split at h
                · rename_i h6
                  simp only [Bool.and_eq_true, decide_eq_true_eq] at h
                  refine mk4 (isCont_of (UInt8.le_trans (by decide) h.1.1.1.1) (UInt8.le_trans h.1.1.1.2 (by decide))) h.1.1.2 h.1.2 fun y => ?_
                  rw [hunf4, if_pos h6, h.1.1.2, h.1.2]
                  simp [h.1.1.1.1, h.1.1.1.2]
                · rename_i h6
                  split at h
                  · rename_i h7
                    simp only [Bool.and_eq_true] at h
                    refine mk4 h.1.1.1 h.1.1.2 h.1.2 fun y => ?_
                    rw [hunf4, if_neg h6, if_pos h7, h.1.1.1, h.1.1.2, h.1.2]
                    simp
                  · rename_i h7
                    split at h
                    · rename_i h8
                      simp only [Bool.and_eq_true, decide_eq_true_eq] at h
                      refine mk4 (isCont_of h.1.1.1.1 (UInt8.le_trans h.1.1.1.2 (by decide))) h.1.1.2 h.1.2 fun y => ?_
                      rw [hunf4, if_neg h6, if_neg h7, if_pos h8, h.1.1.2, h.1.2]
                      simp [h.1.1.1.1, h.1.1.1.2]
                    · cases h

/-- Strong induction over the characters of a valid string. -/
theorem utf8_induction {P : Bytes → Prop} (nil : P [])
    (char : ∀ b cs t, (∀ c ∈ cs, isCont c = true) → (cs ≠ [] → (128 : UInt8) ≤ b) →
      (∀ y, utf8Valid (b :: (cs ++ y)) = utf8Valid y) → utf8Valid t = true → P t → P (b :: (cs ++ t))) :
    ∀ s, utf8Valid s = true → P s := by
  intro s
  generalize hn : s.length = n
  induction n using Nat.strongRecOn generalizing s with
  | ind n ih =>
    intro h
    cases s with
    | nil => exact nil
    | cons b t =>
      obtain ⟨cs, t', rfl, h1, h2, h3⟩ := utf8_char h
      have ht : utf8Valid t' = true := by rw [← h3]; exact h
      refine char b cs t' h1 h2 h3 ht (ih t'.length ?_ t' rfl ht)
      subst hn
      simp
      omega

/-- Appending to a valid string. -/
theorem utf8_append {a : Bytes} (h : utf8Valid a = true) (y : Bytes) : utf8Valid (a ++ y) = utf8Valid y := by
  refine utf8_induction (P := fun a => utf8Valid (a ++ y) = utf8Valid y) rfl ?_ a h
  intro b cs t _ _ h3 _ ih
  rw [List.cons_append, List.append_assoc, h3, ih]

/-- A valid string is valid on both sides of an ASCII character. -/
theorem utf8_split {a b : Bytes} {x : UInt8} (hx : x < 128) (h : utf8Valid (a ++ x :: b) = true) :
    utf8Valid a = true ∧ utf8Valid b = true := by
  refine utf8_induction (P := fun s => ∀ a, a ++ x :: b = s → utf8Valid a = true ∧ utf8Valid b = true) ?_ ?_ _ h a rfl
  · intro a hs
    cases a <;> cases hs
  · intro c cs t h1 h2 h3 ht ih a hs
    cases a with
    | nil =>
      rw [List.nil_append, List.cons.injEq] at hs
      obtain ⟨rfl, hs⟩ := hs
      have : cs = [] := by
        cases cs with
        | nil => rfl
        | cons d ds => exact absurd hx (UInt8.not_lt.2 (h2 (by simp)))
      subst this
      exact ⟨rfl, by rw [hs]; exact ht⟩
    | cons c' a =>
      rw [List.cons_append, List.cons.injEq] at hs
      obtain ⟨rfl, hs⟩ := hs
      rw [List.append_eq_append_iff] at hs
      rcases hs with ⟨as, h4, h5⟩ | ⟨as, h4, h5⟩
      · -- `cs = a ++ as`, `x :: b = as ++ t`
        cases as with
        | nil =>
          rw [List.append_nil] at h4
          rw [List.nil_append] at h5
          have := ih [] h5
          rw [← h4]
          exact ⟨by have := h3 []; rw [List.append_nil] at this; rw [this]; rfl, this.2⟩
        | cons z zs =>
          rw [List.cons_append, List.cons.injEq] at h5
          have := isCont_ge (h1 z (by rw [h4]; simp))
          rw [← h5.1] at this
          exact absurd hx (UInt8.not_lt.2 this)
      · -- `a = cs ++ as`, `t = as ++ x :: b`
        have := ih as h5.symm
        rw [h4]
        exact ⟨by rw [h3]; exact this.1, this.2⟩

/-- The first byte of a valid string is no continuation byte. -/
theorem utf8_head {b : UInt8} {t : Bytes} (h : utf8Valid (b :: t) = true) : isCont b = false := by
  cases hc : isCont b with
  | false => rfl
  | true =>
    exfalso
    have h1 := isCont_ge hc
    have h2 : b ≤ 0xBF := by
      unfold isCont at hc
      simp only [Bool.and_eq_true, decide_eq_true_eq] at hc
      exact hc.2
    simp only [UInt8.le_iff_toNat_le, UInt8.reduceToNat] at h1 h2
    have hb : ¬ b < 0x80 := by simp only [UInt8.lt_iff_toNat_lt, UInt8.reduceToNat]; omega
    have e1 : (decide ((0xC2 : UInt8) ≤ b)) = false := by
      simp only [decide_eq_false_iff_not, UInt8.le_iff_toNat_le, UInt8.reduceToNat]; omega
    have e2 : (decide ((0xE1 : UInt8) ≤ b)) = false := by
      simp only [decide_eq_false_iff_not, UInt8.le_iff_toNat_le, UInt8.reduceToNat]; omega
    have e3 : (decide ((0xF1 : UInt8) ≤ b)) = false := by
      simp only [decide_eq_false_iff_not, UInt8.le_iff_toNat_le, UInt8.reduceToNat]; omega
    have ne : ∀ x : UInt8, 0xBF < x.toNat → (b == x) = false := by
      intro x hx
      rw [beq_eq_false_iff_ne]
      rintro rfl
      omega
    unfold utf8Valid at h
    rw [if_neg hb, e1, e2, e3, ne 0xE0 (by decide), ne 0xED (by decide), ne 0xF0 (by decide), ne 0xF4 (by decide)] at h
    simp only [Bool.false_and, Bool.false_eq_true, if_false] at h
    split at h
    · cases h
    · split at h
      · cases h
      · split at h <;> cases h

end Verif
