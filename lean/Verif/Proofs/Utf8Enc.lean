import Verif.Proofs.Text
/-! `utf8Valid` accepts exactly the encodings of sequences of scalar values. -/
namespace Verif.Text
open Spec

theorem u8_of {n : Nat} {b : UInt8} (h : n = b.toNat) : UInt8.ofNat n = b := by
  subst h; exact UInt8.ofNat_toNat

theorem toNat_of {n : Nat} (h : n < 256) : (UInt8.ofNat n).toNat = n := by
  rw [UInt8.toNat_ofNat']; omega

theorem cont_iff {b : UInt8} : isCont b = true ↔ 0x80 ≤ b.toNat ∧ b.toNat ≤ 0xBF := by
  simp only [isCont, Bool.and_eq_true, decide_eq_true_eq, UInt8.le_iff_toNat_le, UInt8.reduceToNat]

theorem ble {b : UInt8} {n : UInt8} : (decide (n ≤ b)) = decide (n.toNat ≤ b.toNat) := by
  simp only [UInt8.le_iff_toNat_le]

theorem enc_valid {c : Nat} (h : Scalar c) (t : Bytes) : utf8Valid (utf8Encode c ++ t) = utf8Valid t := by
  unfold Scalar at h
  unfold utf8Encode
  split
  · rename_i h1
    rw [List.cons_append, List.nil_append, utf8Valid.eq_def]
    have : UInt8.ofNat c < 0x80 := by
      simp only [UInt8.lt_iff_toNat_lt, UInt8.reduceToNat]; rw [toNat_of (by omega)]; omega
    simp only [this, if_true]
  · split
    · rename_i h1 h2
      have e0 : (UInt8.ofNat (0xC0 + c / 64)).toNat = 0xC0 + c / 64 := toNat_of (by omega)
      have e1 : (UInt8.ofNat (0x80 + c % 64)).toNat = 0x80 + c % 64 := toNat_of (by omega)
      have c1 : isCont (UInt8.ofNat (0x80 + c % 64)) = true := cont_iff.2 (by omega)
      rw [List.cons_append, List.cons_append, List.nil_append, utf8Valid.eq_def]
      generalize UInt8.ofNat (0xC0 + c / 64) = b0 at *
      generalize UInt8.ofNat (0x80 + c % 64) = b1 at *
      have n0 : ¬ b0 < 0x80 := by simp only [UInt8.lt_iff_toNat_lt, UInt8.reduceToNat]; omega
      have n1 : (0xC2 : UInt8) ≤ b0 := by simp only [UInt8.le_iff_toNat_le, UInt8.reduceToNat]; omega
      have n2 : b0 ≤ (0xDF : UInt8) := by simp only [UInt8.le_iff_toNat_le, UInt8.reduceToNat]; omega
      simp [n0, n1, n2, c1]
    · split
      · rename_i h1 h2 h3
        have e0 : (UInt8.ofNat (0xE0 + c / 4096)).toNat = 0xE0 + c / 4096 := toNat_of (by omega)
        have e1 : (UInt8.ofNat (0x80 + c / 64 % 64)).toNat = 0x80 + c / 64 % 64 := toNat_of (by omega)
        have e2 : (UInt8.ofNat (0x80 + c % 64)).toNat = 0x80 + c % 64 := toNat_of (by omega)
        have c1 : isCont (UInt8.ofNat (0x80 + c / 64 % 64)) = true := cont_iff.2 (by omega)
        have c2 : isCont (UInt8.ofNat (0x80 + c % 64)) = true := cont_iff.2 (by omega)
        simp only [List.cons_append, List.nil_append]
        rw [utf8Valid.eq_def]
        generalize UInt8.ofNat (0xE0 + c / 4096) = b0 at *
        generalize UInt8.ofNat (0x80 + c / 64 % 64) = b1 at *
        generalize UInt8.ofNat (0x80 + c % 64) = b2 at *
        have n0 : ¬ b0 < 0x80 := by simp only [UInt8.lt_iff_toNat_lt, UInt8.reduceToNat]; omega
        have n2 : ¬ b0 ≤ (0xDF : UInt8) := by simp only [UInt8.le_iff_toNat_le, UInt8.reduceToNat]; omega
        have m1 : 0x80 ≤ b1 := by simp only [UInt8.le_iff_toNat_le, UInt8.reduceToNat]; omega
        have m2 : b1 ≤ 0xBF := by simp only [UInt8.le_iff_toNat_le, UInt8.reduceToNat]; omega
        by_cases hE0 : b0 = 0xE0
        · have : 0xE0 + c / 4096 = 224 := by rw [← e0, hE0]; rfl
          have m3 : 0xA0 ≤ b1 := by simp only [UInt8.le_iff_toNat_le, UInt8.reduceToNat]; omega
          subst hE0
          simp [m3, m2, c2]
        · by_cases hED : b0 = 0xED
          · have : 0xE0 + c / 4096 = 237 := by rw [← e0, hED]; rfl
            have m3 : b1 ≤ 0x9F := by simp only [UInt8.le_iff_toNat_le, UInt8.reduceToNat]; omega
            subst hED
            simp [m3, m1, c2]
          · have k0 : b0.toNat ≠ 224 := fun h => hE0 (UInt8.toNat_inj.1 h)
            have n3 : (0xE1 : UInt8) ≤ b0 := by simp only [UInt8.le_iff_toNat_le, UInt8.reduceToNat]; omega
            have n4 : b0 ≤ (0xEF : UInt8) := by simp only [UInt8.le_iff_toNat_le, UInt8.reduceToNat]; omega
            simp [n0, n2, hE0, hED, n3, n4, c1, c2]
      · rename_i h1 h2 h3
        have e0 : (UInt8.ofNat (0xF0 + c / 262144)).toNat = 0xF0 + c / 262144 := toNat_of (by omega)
        have e1 : (UInt8.ofNat (0x80 + c / 4096 % 64)).toNat = 0x80 + c / 4096 % 64 := toNat_of (by omega)
        have c1 : isCont (UInt8.ofNat (0x80 + c / 4096 % 64)) = true := cont_iff.2 (by omega)
        have c2 : isCont (UInt8.ofNat (0x80 + c / 64 % 64)) = true :=
          cont_iff.2 (by rw [toNat_of (by omega)]; omega)
        have c3 : isCont (UInt8.ofNat (0x80 + c % 64)) = true := cont_iff.2 (by rw [toNat_of (by omega)]; omega)
        simp only [List.cons_append, List.nil_append]
        rw [utf8Valid.eq_def]
        generalize UInt8.ofNat (0xF0 + c / 262144) = b0 at *
        generalize UInt8.ofNat (0x80 + c / 4096 % 64) = b1 at *
        generalize UInt8.ofNat (0x80 + c / 64 % 64) = b2 at *
        generalize UInt8.ofNat (0x80 + c % 64) = b3 at *
        have n0 : ¬ b0 < 0x80 := by simp only [UInt8.lt_iff_toNat_lt, UInt8.reduceToNat]; omega
        have n2 : ¬ b0 ≤ (0xDF : UInt8) := by simp only [UInt8.le_iff_toNat_le, UInt8.reduceToNat]; omega
        have n3 : ¬ b0 ≤ (0xEF : UInt8) := by simp only [UInt8.le_iff_toNat_le, UInt8.reduceToNat]; omega
        have k1 : b0 ≠ 0xE0 := by rintro rfl; simp at e0; omega
        have k2 : b0 ≠ 0xED := by rintro rfl; simp at e0; omega
        have m1 : 0x80 ≤ b1 := by simp only [UInt8.le_iff_toNat_le, UInt8.reduceToNat]; omega
        have m2 : b1 ≤ 0xBF := by simp only [UInt8.le_iff_toNat_le, UInt8.reduceToNat]; omega
        by_cases hF0 : b0 = 0xF0
        · have : 0xF0 + c / 262144 = 240 := by rw [← e0, hF0]; rfl
          have m3 : 0x90 ≤ b1 := by simp only [UInt8.le_iff_toNat_le, UInt8.reduceToNat]; omega
          subst hF0
          simp [m3, m2, c2, c3]
        · have k0 : b0.toNat ≠ 240 := fun h => hF0 (UInt8.toNat_inj.1 h)
          by_cases hF4 : b0 = 0xF4
          · have : 0xF0 + c / 262144 = 244 := by rw [← e0, hF4]; rfl
            have m3 : b1 ≤ 0x8F := by simp only [UInt8.le_iff_toNat_le, UInt8.reduceToNat]; omega
            subst hF4
            simp [m3, m1, c2, c3]
          · have k4 : b0.toNat ≠ 244 := fun h => hF4 (UInt8.toNat_inj.1 h)
            have n5 : (0xF1 : UInt8) ≤ b0 := by simp only [UInt8.le_iff_toNat_le, UInt8.reduceToNat]; omega
            have n6 : b0 ≤ (0xF3 : UInt8) := by simp only [UInt8.le_iff_toNat_le, UInt8.reduceToNat]; omega
            simp [n0, n2, n3, k1, k2, hF0, n5, n6, c1, c2, c3]

theorem encs_valid {cs : List Nat} (h : ∀ c ∈ cs, Scalar c) (t : Bytes) :
    utf8Valid (cs.flatMap utf8Encode ++ t) = utf8Valid t := by
  induction cs with
  | nil => rfl
  | cons c cs ih =>
    rw [List.flatMap_cons, List.append_assoc, enc_valid (h c (.head _)), ih fun x hx => h x (.tail _ hx)]

theorem valid_of_text {s : Bytes} (h : IsText s) : V s := by
  obtain ⟨cs, h1, rfl⟩ := h
  have := encs_valid h1 []
  rw [List.append_nil] at this
  exact this

theorem isText_cons {c : Nat} {t : Bytes} (hc : Scalar c) (ht : IsText t) : IsText (utf8Encode c ++ t) := by
  obtain ⟨cs, h1, rfl⟩ := ht
  refine ⟨c :: cs, ?_, rfl⟩
  intro x hx
  rcases List.mem_cons.1 hx with rfl | hx
  · exact hc
  · exact h1 x hx

theorem text_of_valid : ∀ s : Bytes, utf8Valid s = true → IsText s := by
  intro s
  induction hn : s.length using Nat.strongRecOn generalizing s with
  | _ n ih =>
    intro h
    subst hn
    have ih : ∀ t : Bytes, t.length < s.length → utf8Valid t = true → IsText t := fun t ht hv => ih _ ht t rfl hv
    cases s with
    | nil => exact ⟨[], nofun, rfl⟩
    | cons b0 r0 =>
      rw [utf8Valid.eq_def] at h
      dsimp only at h
      have s0 := b0.toNat_lt
      split at h
      · rename_i h0
        simp only [UInt8.lt_iff_toNat_lt, UInt8.reduceToNat] at h0
        have := isText_cons (c := b0.toNat) (Or.inl (by omega)) (ih r0 (by simp) h)
        rw [utf8Encode, if_pos h0, u8_of rfl] at this
        exact this
      · rename_i h0
        simp only [UInt8.lt_iff_toNat_lt, UInt8.reduceToNat] at h0
        cases r0 with
        | nil => cases h
        | cons b1 r1 =>
          dsimp only at h
          have s1 := b1.toNat_lt
          split at h
          · rename_i h1
            simp only [Bool.and_eq_true, decide_eq_true_eq, UInt8.le_iff_toNat_le, UInt8.reduceToNat, cont_iff] at h h1
            have := isText_cons (c := (b0.toNat - 192) * 64 + (b1.toNat - 128)) (Or.inl (by omega)) (ih r1 (by simp; omega) h.2)
            rw [utf8Encode, if_neg (by omega), if_pos (by omega), u8_of (b := b0) (by omega), u8_of (b := b1) (by omega)] at this
            exact this
          · cases r1 with
            | nil => cases h
            | cons b2 r2 =>
              dsimp only at h
              have s2 := b2.toNat_lt
              have three : ∀ c, c = (b0.toNat - 224) * 4096 + (b1.toNat - 128) * 64 + (b2.toNat - 128) →
                  224 ≤ b0.toNat → b0.toNat ≤ 239 → 128 ≤ b1.toNat → b1.toNat ≤ 191 → 128 ≤ b2.toNat → b2.toNat ≤ 191 →
                  0x800 ≤ c → Scalar c → utf8Valid r2 = true → IsText (b0 :: b1 :: b2 :: r2) := by
                intro c hc a1 a2 a3 a4 a5 a6 a7 a8 a9
                have := isText_cons a8 (ih r2 (by simp; omega) a9)
                rw [utf8Encode, if_neg (by omega), if_neg (by omega), if_pos (by omega), u8_of (b := b0) (by omega),
                  u8_of (b := b1) (by omega), u8_of (b := b2) (by omega)] at this
                exact this
              split at h
              · rename_i h1
                simp only [beq_iff_eq] at h1
                simp only [Bool.and_eq_true, decide_eq_true_eq, UInt8.le_iff_toNat_le, UInt8.reduceToNat, cont_iff] at h
                have e : b0.toNat = 224 := by rw [h1]; rfl
                exact three _ rfl (by omega) (by omega) (by omega) (by omega) (by omega) (by omega) (by omega)
                  (by unfold Scalar; omega) h.2
              · split at h
                · rename_i h1
                  simp only [beq_iff_eq] at h1
                  simp only [Bool.and_eq_true, decide_eq_true_eq, UInt8.le_iff_toNat_le, UInt8.reduceToNat, cont_iff] at h
                  have e : b0.toNat = 237 := by rw [h1]; rfl
                  exact three _ rfl (by omega) (by omega) (by omega) (by omega) (by omega) (by omega) (by omega)
                    (by unfold Scalar; omega) h.2
                · rename_i hED
                  simp only [beq_iff_eq] at hED
                  have hED : b0.toNat ≠ 237 := fun h => hED (UInt8.toNat_inj.1 h)
                  split at h
                  · rename_i h1
                    simp only [Bool.and_eq_true, decide_eq_true_eq, UInt8.le_iff_toNat_le, UInt8.reduceToNat, cont_iff] at h h1
                    exact three _ rfl (by omega) (by omega) (by omega) (by omega) (by omega) (by omega) (by omega)
                      (by unfold Scalar; omega) h.2
                  · cases r2 with
                    | nil => cases h
                    | cons b3 r3 =>
                      dsimp only at h
                      have s3 := b3.toNat_lt
                      have four : ∀ c, c = (b0.toNat - 240) * 262144 + (b1.toNat - 128) * 4096 + (b2.toNat - 128) * 64 + (b3.toNat - 128) →
                          240 ≤ b0.toNat → b0.toNat ≤ 244 → 128 ≤ b1.toNat → b1.toNat ≤ 191 → 128 ≤ b2.toNat → b2.toNat ≤ 191 →
                          128 ≤ b3.toNat → b3.toNat ≤ 191 →
                          0x10000 ≤ c → Scalar c → utf8Valid r3 = true → IsText (b0 :: b1 :: b2 :: b3 :: r3) := by
                        intro c hc a1 a2 a3 a4 a5 a6 a5' a6' a7 a8 a9
                        have := isText_cons a8 (ih r3 (by simp; omega) a9)
                        rw [utf8Encode, if_neg (by omega), if_neg (by omega), if_neg (by omega), u8_of (b := b0) (by omega),
                          u8_of (b := b1) (by omega), u8_of (b := b2) (by omega), u8_of (b := b3) (by omega)] at this
                        exact this
                      split at h
                      · rename_i h1
                        simp only [beq_iff_eq] at h1
                        simp only [Bool.and_eq_true, decide_eq_true_eq, UInt8.le_iff_toNat_le, UInt8.reduceToNat, cont_iff] at h
                        have e : b0.toNat = 240 := by rw [h1]; rfl
                        exact four _ rfl (by omega) (by omega) (by omega) (by omega) (by omega) (by omega) (by omega)
                          (by omega) (by omega) (by unfold Scalar; omega) h.2
                      · split at h
                        · rename_i h1
                          simp only [Bool.and_eq_true, decide_eq_true_eq, UInt8.le_iff_toNat_le, UInt8.reduceToNat, cont_iff] at h h1
                          exact four _ rfl (by omega) (by omega) (by omega) (by omega) (by omega) (by omega) (by omega)
                            (by omega) (by omega) (by unfold Scalar; omega) h.2
                        · split at h
                          · rename_i h1
                            simp only [beq_iff_eq] at h1
                            simp only [Bool.and_eq_true, decide_eq_true_eq, UInt8.le_iff_toNat_le, UInt8.reduceToNat, cont_iff] at h
                            have e : b0.toNat = 244 := by rw [h1]; rfl
                            exact four _ rfl (by omega) (by omega) (by omega) (by omega) (by omega) (by omega) (by omega)
                              (by omega) (by omega) (by unfold Scalar; omega) h.2
                          · cases h

/-- Text is what `std::str::from_utf8` accepts. -/
theorem text_iff {s : Bytes} : IsText s ↔ V s := ⟨valid_of_text, text_of_valid s⟩

/-- Positions between characters. -/
theorem between_iff {s : Bytes} (h : IsText s) (n : Nat) : Between s n ↔ CharBoundary s n := by
  rw [boundary_iff (valid_of_text h)]
  constructor
  · rintro ⟨a, b, ha, hb, rfl, rfl⟩
    refine ⟨by simp, ?_, ?_⟩
    · rw [List.take_left']
      · exact valid_of_text ⟨a, ha, rfl⟩
      · rfl
    · rw [List.drop_left']
      · exact valid_of_text ⟨b, hb, rfl⟩
      · rfl
  · rintro ⟨hn, h1, h2⟩
    obtain ⟨a, ha, e1⟩ := text_of_valid _ h1
    obtain ⟨b, hb, e2⟩ := text_of_valid _ h2
    refine ⟨a, b, ha, hb, ?_, ?_⟩
    · rw [← e1, ← e2, List.take_append_drop]
    · rw [← e1, List.length_take]; omega

end Verif.Text
