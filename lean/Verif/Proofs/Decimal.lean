import Verif.Spec.Content
/-! Numbers have one canonical decimal text. -/
namespace Verif.Spec

theorem digitsValue_append : ∀ (ds es : Bytes) (n : Nat), digitsValue n (ds ++ es) = (digitsValue n ds).bind fun m => digitsValue m es
  | [], _, _ => rfl
  | b :: bs, es, n => by
    simp only [List.cons_append, digitsValue]
    split
    · exact digitsValue_append bs es _
    · rfl

theorem digitsValue_snoc {ds : Bytes} {b : UInt8} {n : Nat} (h : digitsValue 0 (ds ++ [b]) = some n) :
    ∃ m, digitsValue 0 ds = some m ∧ isDigit b = true ∧ n = 10 * m + (b.toNat - 48) := by
  rw [digitsValue_append] at h
  cases hm : digitsValue 0 ds with
  | none => rw [hm] at h; cases h
  | some m =>
    rw [hm] at h
    simp only [Option.bind_some, digitsValue] at h
    split at h
    · rename_i hd; cases h; exact ⟨m, rfl, hd, rfl⟩
    · cases h

theorem isDigit_toNat {b : UInt8} (h : isDigit b = true) : 48 ≤ b.toNat ∧ b.toNat ≤ 57 := by
  simp only [isDigit, Bool.and_eq_true, decide_eq_true_eq] at h
  exact ⟨UInt8.le_iff_toNat_le.1 h.1, UInt8.le_iff_toNat_le.1 h.2⟩

theorem digitsValue_ge : ∀ {ds : Bytes} {n m : Nat}, digitsValue n ds = some m → n ≤ m
  | [], n, m, h => by cases h; exact Nat.le_refl _
  | b :: bs, n, m, h => by
    simp only [digitsValue] at h
    split at h
    · have := digitsValue_ge h; omega
    · cases h

/-- The value of digits that do not begin with a zero is positive. -/
theorem digitsValue_pos {b : UInt8} {bs : Bytes} {n : Nat} (hb : b ≠ 48) (h : digitsValue 0 (b :: bs) = some n) : 0 < n := by
  simp only [digitsValue] at h
  split at h
  · rename_i hd
    have h1 := digitsValue_ge h
    have h2 := isDigit_toNat hd
    have : b.toNat ≠ 48 := fun h => hb (UInt8.toNat_inj.1 (by simpa using h))
    omega
  · cases h

theorem digits_unique : ∀ (k : Nat) {ds es : Bytes} {n : Nat}, ds.length ≤ k →
    (ds.head? ≠ some 48) → (es.head? ≠ some 48) →
    digitsValue 0 ds = some n → digitsValue 0 es = some n → ds = es
  | k, ds, es, n, hk, h1, h2, hd, he => by
    rcases List.eq_nil_or_concat ds with rfl | ⟨ds', b, rfl⟩
    · cases hd
      cases es with
      | nil => rfl
      | cons c cs =>
        have := digitsValue_pos (fun h => h2 (by rw [h]; rfl)) he
        omega
    rw [List.concat_eq_append] at *
    have hpos : 0 < n := by
      cases hl : ds' ++ [b] with
      | nil => simp at hl
      | cons c cs => rw [hl] at hd h1; exact digitsValue_pos (fun h => h1 (by rw [h]; rfl)) hd
    rcases List.eq_nil_or_concat es with rfl | ⟨es', c, rfl⟩
    · cases he; omega
    rw [List.concat_eq_append] at *
    obtain ⟨m, h3, h4, h5⟩ := digitsValue_snoc hd
    obtain ⟨m', h3', h4', h5'⟩ := digitsValue_snoc he
    have h6 := isDigit_toNat h4
    have h6' := isDigit_toNat h4'
    have hm : m = m' := by omega
    have hbc : b = c := UInt8.toNat_inj.1 (by omega)
    subst hm hbc
    have nz : ∀ (xs : Bytes), (xs ++ [b]).head? ≠ some 48 → xs.head? ≠ some 48 := by
      intro xs hx hy
      cases xs with
      | nil => cases hy
      | cons y ys => exact hx hy
    cases k with
    | zero => simp at hk
    | succ k =>
      rw [digits_unique k (by simpa using hk) (nz _ h1) (nz _ h2) h3 h3']

/-- A number has only one canonical decimal text. -/
theorem canonical_unique {s s' : Bytes} {v : Int} (h : CanonicalDecimal s v) (h' : CanonicalDecimal s' v) : s = s' := by
  obtain ⟨neg, ds, n, rfl, h2, h3, h4, h5⟩ := h
  obtain ⟨neg', es, n', rfl, h2', h3', h4', h5'⟩ := h'
  have zero : ∀ {ds : Bytes} {n neg}, ds ≠ [] → (ds.head? = some 48 → ds = [48] ∧ neg = false) → digitsValue 0 ds = some n →
      (n = 0 ↔ ds = [48]) := by
    intro ds n neg h2 h3 h4
    constructor
    · rintro rfl
      cases ds with
      | nil => exact absurd rfl h2
      | cons b bs =>
        by_cases hb : b = 48
        · exact (h3 (by rw [hb]; rfl)).1
        · have := digitsValue_pos hb h4; omega
    · rintro rfl; cases h4; rfl
  have hz := zero h2 h3 h4
  have hz' := zero h2' h3' h4'
  by_cases hn : n = 0
  · have hn' : n' = 0 := by
      subst hn
      cases neg <;> cases neg' <;> simp at h5 h5' <;> omega
    have e1 := hz.1 hn; have e2 := hz'.1 hn'
    have n1 := (h3 (by rw [e1]; rfl)).2
    have n2 := (h3' (by rw [e2]; rfl)).2
    rw [e1, e2, n1, n2]
  · have hn' : n' ≠ 0 := by
      intro hn'; subst hn'
      cases neg <;> cases neg' <;> simp at h5 h5' <;> omega
    have hne : neg = neg' := by
      cases neg <;> cases neg' <;> simp at h5 h5' <;> first | rfl | omega
    subst hne
    have hnn : n = n' := by cases neg <;> simp at h5 h5' <;> omega
    subst hnn
    have q1 : ds.head? ≠ some 48 := fun h => hn (hz.2 (h3 h).1)
    have q2 : es.head? ≠ some 48 := fun h => hn (hz'.2 (h3' h).1)
    rw [digits_unique _ (Nat.le_refl _) q1 q2 h4 h4']

end Verif.Spec
