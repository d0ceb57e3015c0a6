import Verif.Props.Locations
import Verif.Spec.Compiler
/-!
`find_import_span` on a parsed file.
-/
namespace Verif
open Verif.Spec

/-- The first character of valid UTF-8. -/
theorem utf8_step {b : UInt8} {t : Bytes} (h : utf8Valid (b :: t) = true) :
    ∃ cs t', t = cs ++ t' ∧ cs.length = charLen b - 1 ∧ (∀ c ∈ cs, c ≠ 10) ∧ utf8Valid t' = true := by
  have hc : ∀ c : UInt8, isCont c = true → c ≠ 10 := by
    intro c hc; rintro rfl; revert hc; decide
  have hr : ∀ c lo hi : UInt8, (lo ≤ c && c ≤ hi) = true → (0x80 : UInt8) ≤ lo → c ≠ 10 := by
    intro c lo hi h1 h2; rintro rfl
    simp only [Bool.and_eq_true, decide_eq_true_eq, UInt8.le_iff_toNat_le, UInt8.reduceToNat] at h1 h2
    omega
  unfold utf8Valid at h
  split at h
  · rename_i hb
    exact ⟨[], t, rfl, by simp [charLen, hb], by simp, h⟩
  · rename_i hb
    have hb' : ¬ b.toNat < 128 := by simpa [UInt8.lt_iff_toNat_lt] using hb
    cases t with
    | nil => cases h
    | cons b1 r1 =>
      simp only at h
      split at h
      · rename_i h2
        simp only [Bool.and_eq_true, decide_eq_true_eq, UInt8.le_iff_toNat_le, UInt8.reduceToNat] at h2 h
        refine ⟨[b1], r1, rfl, ?_, by simpa using hc b1 h.1, h.2⟩
        unfold charLen
        rw [if_neg hb, if_pos (by simp only [UInt8.lt_iff_toNat_lt, UInt8.reduceToNat]; omega)]
        rfl
      · rename_i h2
        cases r1 with
        | nil => cases h
        | cons b2 r2 =>
          simp only at h
          have three : (b.toNat = 0xE0 ∨ b.toNat = 0xED ∨ (0xE1 ≤ b.toNat ∧ b.toNat ≤ 0xEF)) → charLen b = 3 := by
            intro hx
            unfold charLen
            rw [if_neg hb, if_neg (by simp only [UInt8.lt_iff_toNat_lt, UInt8.reduceToNat]; omega),
              if_pos (by simp only [UInt8.lt_iff_toNat_lt, UInt8.reduceToNat]; omega)]
          have mk3 : charLen b = 3 → b1 ≠ 10 → isCont b2 = true → utf8Valid r2 = true →
              ∃ cs t', b1 :: b2 :: r2 = cs ++ t' ∧ cs.length = charLen b - 1 ∧ (∀ c ∈ cs, c ≠ 10) ∧ utf8Valid t' = true := by
            intro h3 h1 hb2 hv
            refine ⟨[b1, b2], r2, rfl, by rw [h3]; rfl, ?_, hv⟩
            intro c hcm
            simp only [List.mem_cons, List.not_mem_nil, or_false] at hcm
            rcases hcm with rfl | rfl
            · exact h1
            · exact hc _ hb2
          split at h
          · rename_i hx
            simp only [beq_iff_eq] at hx
            simp only [Bool.and_eq_true (decide _ && decide _ && _)] at h
            simp only [Bool.and_eq_true (decide _ && decide _)] at h
            exact mk3 (three (.inl (by rw [hx]; rfl))) (hr _ _ _ h.1.1 (by decide)) h.1.2 h.2
          · split at h
            · rename_i hx
              simp only [beq_iff_eq] at hx
              simp only [Bool.and_eq_true (decide _ && decide _ && _)] at h
              simp only [Bool.and_eq_true (decide _ && decide _)] at h
              exact mk3 (three (.inr (.inl (by rw [hx]; rfl)))) (hr _ _ _ h.1.1 (by decide)) h.1.2 h.2
            · split at h
              · rename_i hx
                simp only [Bool.and_eq_true, decide_eq_true_eq, UInt8.le_iff_toNat_le, UInt8.reduceToNat] at hx
                simp only [Bool.and_eq_true] at h
                exact mk3 (three (.inr (.inr hx))) (hc _ h.1.1) h.1.2 h.2
              · rename_i n1 n2 n3
                cases r2 with
                | nil => cases h
                | cons b3 r3 =>
                  simp only at h
                  have four : 0xF0 ≤ b.toNat → charLen b = 4 := by
                    intro hx
                    unfold charLen
                    rw [if_neg hb, if_neg (by simp only [UInt8.lt_iff_toNat_lt, UInt8.reduceToNat]; omega),
                      if_neg (by simp only [UInt8.lt_iff_toNat_lt, UInt8.reduceToNat]; omega)]
                  have mk4 : charLen b = 4 → b1 ≠ 10 → isCont b2 = true → isCont b3 = true → utf8Valid r3 = true →
                      ∃ cs t', b1 :: b2 :: b3 :: r3 = cs ++ t' ∧ cs.length = charLen b - 1 ∧ (∀ c ∈ cs, c ≠ 10) ∧
                        utf8Valid t' = true := by
                    intro h3 h1 hb2 hb3 hv
                    refine ⟨[b1, b2, b3], r3, rfl, by rw [h3]; rfl, ?_, hv⟩
                    intro c hcm
                    simp only [List.mem_cons, List.not_mem_nil, or_false] at hcm
                    rcases hcm with rfl | rfl | rfl
                    · exact h1
                    · exact hc _ hb2
                    · exact hc _ hb3
                  split at h
                  · rename_i hx
                    simp only [beq_iff_eq] at hx
                    simp only [Bool.and_eq_true (decide _ && decide _ && _ && _), Bool.and_eq_true (decide _ && decide _ && _),
                      Bool.and_eq_true (decide _ && decide _)] at h
                    exact mk4 (four (by rw [hx]; decide)) (hr _ _ _ h.1.1.1 (by decide)) h.1.1.2 h.1.2 h.2
                  · split at h
                    · rename_i hx
                      simp only [Bool.and_eq_true, decide_eq_true_eq, UInt8.le_iff_toNat_le, UInt8.reduceToNat] at hx
                      simp only [Bool.and_eq_true] at h
                      exact mk4 (four (by omega)) (hc _ h.1.1.1) h.1.1.2 h.1.2 h.2
                    · split at h
                      · rename_i hx
                        simp only [beq_iff_eq] at hx
                        simp only [Bool.and_eq_true (decide _ && decide _ && _ && _),
                          Bool.and_eq_true (decide _ && decide _ && _), Bool.and_eq_true (decide _ && decide _)] at h
                        exact mk4 (four (by rw [hx]; decide)) (hr _ _ _ h.1.1.1 (by decide)) h.1.1.2 h.1.2 h.2
                      · cases h

/-- The number of newlines. -/
def newlines (s : Bytes) : Nat := (s.filter (· == 10)).length

theorem newlines_none {s : Bytes} (h : ∀ c ∈ s, c ≠ 10) : newlines s = 0 := by
  unfold newlines
  rw [List.length_eq_zero_iff, List.filter_eq_nil_iff]
  intro c hc; simpa using h c hc

theorem newlines_append (a b : Bytes) : newlines (a ++ b) = newlines a + newlines b := by
  simp [newlines]

/-- Walking to the start of a line of valid UTF-8. -/
theorem walk_lines : ∀ (n : Nat) (pre rest : Bytes) (line col off L C : Nat), pre.length ≤ n →
    utf8Valid (pre ++ 10 :: rest) = true → L = line + newlines pre + 2 →
    fromLocation L C line col off (pre ++ 10 :: rest) =
      fromLocation L C (line + newlines pre + 1) 0 (off + pre.length + 1) rest := by
  intro n
  induction n with
  | zero =>
    intro pre rest line col off L C hn _ hL
    obtain rfl := List.length_eq_zero_iff.1 (Nat.le_zero.1 hn)
    simp only [newlines, List.filter_nil, List.length_nil, Nat.add_zero] at hL
    rw [List.nil_append, fromLocation, if_neg (by omega)]
    simp only [if_true]
    rfl
  | succ n ih =>
    intro pre rest line col off L C hn hv hL
    cases pre with
    | nil =>
      simp only [newlines, List.filter_nil, List.length_nil, Nat.add_zero] at hL
      rw [List.nil_append, fromLocation, if_neg (by omega)]
      simp only [if_true]
      rfl
    | cons b r =>
      rw [List.cons_append] at hv ⊢
      obtain ⟨cs, t', ht, hlen, hne, hv'⟩ := utf8_step hv
      have hpre : ∃ r', r = cs ++ r' ∧ t' = r' ++ 10 :: rest := by
        rcases List.append_eq_append_iff.1 ht with ⟨as, h1, h2⟩ | ⟨bs, h1, h2⟩
        · cases as with
          | nil => exact ⟨[], by simpa using h1.symm, by simpa using h2.symm⟩
          | cons x xs =>
            simp only [List.cons_append, List.cons.injEq] at h2
            have : x ∈ cs := by rw [h1]; simp
            exact absurd h2.1.symm (hne x this)
        · exact ⟨bs, h1, h2⟩
      obtain ⟨r', rfl, rfl⟩ := hpre
      have hk : 1 ≤ charLen b := by
        unfold charLen
        repeat' split
        all_goals omega
      have hdrop : (cs ++ r' ++ 10 :: rest).drop (charLen b - 1) = r' ++ 10 :: rest := by
        rw [List.append_assoc, ← hlen, List.drop_left]
      have hnl : newlines (cs ++ r') = newlines r' := by rw [newlines_append, newlines_none hne, Nat.zero_add]
      simp only [List.length_cons, List.length_append] at hn ⊢
      rw [fromLocation]
      by_cases hb : b = 10
      · subst hb
        have e : newlines (10 :: (cs ++ r')) = newlines r' + 1 := by
          rw [← hnl]; simp [newlines]
        rw [if_neg (by omega)]
        simp only [if_true]
        rw [hdrop, ih r' rest (line + 1) 0 _ L C (by omega) hv' (by omega), e]
        congr 1 <;> omega
      · have e : newlines (b :: (cs ++ r')) = newlines r' := by
          rw [← hnl]; simp [newlines, hb]
        rw [if_neg (by omega)]
        simp only [if_neg hb]
        rw [hdrop, ih r' rest line (col + 1) _ L C (by omega) hv' (by omega), e]
        congr 1 <;> omega

/-- Walking along a line of ASCII characters. -/
theorem walk_ascii : ∀ (pre rest : Bytes) (line col off L C : Nat), (∀ c ∈ pre, c ≠ 10 ∧ c < 128) → L ≤ line + 1 →
    C = col + pre.length + 1 → fromLocation L C line col off (pre ++ rest) = off + pre.length
  | [], rest, line, col, off, L, C, _, hL, hC => by
    simp only [List.length_nil, Nat.add_zero] at hC ⊢
    cases rest with
    | nil => unfold fromLocation; rfl
    | cons c cs => rw [List.nil_append, fromLocation, if_pos (by omega)]
  | b :: r, rest, line, col, off, L, C, h, hL, hC => by
    have hb := h b (.head _)
    simp only [List.length_cons] at hC ⊢
    have hk : charLen b = 1 := by unfold charLen; rw [if_pos hb.2]
    rw [List.cons_append, fromLocation, if_neg (by omega)]
    simp only [if_neg hb.1, hk, Nat.sub_self, List.drop_zero]
    rw [walk_ascii r rest line (col + 1) (off + 1) L C (fun c hc => h c (.tail _ hc)) hL (by omega)]
    omega

theorem line_split (src : Bytes) (off : Nat) (h : off ≤ src.length) : ∃ pre line, src.take off = pre ++ line ∧
    (pre = [] ∨ ∃ q, pre = q ++ [10]) ∧ (∀ c ∈ line, c ≠ 10) ∧ line.length = colOf src off ∧
    newlines pre = lineOf src off ∧ line = (src.take off).drop (off - colOf src off) := by
  have hsplit := List.takeWhile_append_dropWhile (p := (· != (10 : UInt8))) (l := (src.take off).reverse)
  have hrev : src.take off = ((src.take off).reverse.dropWhile (· != 10)).reverse ++
      ((src.take off).reverse.takeWhile (· != 10)).reverse := by
    rw [← List.reverse_append, hsplit, List.reverse_reverse]
  have hline : ∀ c ∈ ((src.take off).reverse.takeWhile (· != 10)).reverse, c ≠ 10 := by
    intro c hc
    rw [List.mem_reverse] at hc
    have := List.all_eq_true.1 (List.all_takeWhile (p := (· != (10 : UInt8))) (l := (src.take off).reverse)) c hc
    simpa using this
  have hlen : ((src.take off).reverse.takeWhile (· != 10)).reverse.length = colOf src off := by simp [colOf]
  refine ⟨_, _, hrev, ?_, hline, hlen, ?_, ?_⟩
  · cases hd : (src.take off).reverse.dropWhile (· != 10) with
    | nil => exact .inl rfl
    | cons x xs =>
      have hne : (src.take off).reverse.dropWhile (· != 10) ≠ [] := by rw [hd]; simp
      have := List.head_dropWhile_not (p := (· != (10 : UInt8))) (l := (src.take off).reverse) hne
      simp only [hd, List.head_cons, bne_eq_false_iff_eq] at this
      subst this
      exact .inr ⟨xs.reverse, by simp⟩
  · unfold lineOf
    conv => rhs; rw [hrev]
    rw [List.filter_append, List.length_append]
    have := newlines_none hline
    unfold newlines at this
    rw [this, Nat.add_zero]
    rfl
  · conv => rhs; rw [hrev]
    have hl : off - colOf src off = ((src.take off).reverse.dropWhile (· != 10)).reverse.length := by
      have h1 : (src.take off).length = off := by rw [List.length_take]; omega
      rw [hrev, List.length_append, hlen] at h1
      omega
    rw [hl, List.drop_left]

/-- The offset of a location given by line and column. -/
theorem fromLocation_eq {src : Bytes} {off : Nat} (hv : utf8Valid src = true) (h : off ≤ src.length)
    (ha : AsciiBefore src off) :
    fromLocation (lineOf src off + 1) (colOf src off + 1) 0 0 0 src = off := by
  obtain ⟨pre, line, h1, h2, h3, h4, h5, h6⟩ := line_split src off h
  have hs : src = pre ++ line ++ src.drop off := by rw [← h1, List.take_append_drop]
  have hlen : off = pre.length + line.length := by
    have : (src.take off).length = off := by rw [List.length_take]; omega
    rw [h1, List.length_append] at this; omega
  have hasc : ∀ c ∈ line, c ≠ 10 ∧ c < 128 := fun c hc => ⟨h3 c hc, ha c (by rw [← h6]; exact hc)⟩
  rcases h2 with rfl | ⟨q, rfl⟩
  · rw [← h5, ← h4]
    conv => lhs; rw [hs]
    rw [List.nil_append, walk_ascii line (src.drop off) 0 0 0 _ _ hasc (by simp [newlines]) (by omega)]
    simp only [List.length_nil] at hlen
    omega
  · have e : newlines (q ++ [10]) = newlines q + 1 := by rw [newlines_append]; rfl
    rw [← h5, ← h4, e]
    conv => lhs; rw [hs]
    have hs' : q ++ [10] ++ line ++ src.drop off = q ++ 10 :: (line ++ src.drop off) := by simp
    rw [hs', walk_lines q.length q (line ++ src.drop off) 0 0 0 _ _ (Nat.le_refl _) (by rw [← hs', ← hs]; exact hv) (by omega),
      walk_ascii line (src.drop off) _ 0 _ _ _ hasc (by omega) (by omega)]
    simp only [List.length_append, List.length_cons, List.length_nil] at hlen
    omega

/-- On one line, columns differ by as much as offsets. -/
theorem colOf_sub (src : Bytes) {a b : Nat} (h : a ≤ b) (hb : b ≤ src.length) (hl : lineOf src a = lineOf src b) :
    colOf src b - colOf src a = b - a := by
  obtain ⟨d, rfl⟩ := Nat.exists_eq_add_of_le h
  have ht : src.take (a + d) = src.take a ++ (src.drop a).take d := List.take_add
  have hnil : ((src.drop a).take d).filter (· == 10) = [] := by
    have : lineOf src (a + d) = lineOf src a + (((src.drop a).take d).filter (· == 10)).length := by
      simp only [lineOf, ht, List.filter_append, List.length_append]
    exact List.length_eq_zero_iff.1 (by omega)
  have hall : ∀ c ∈ ((src.drop a).take d).reverse, (c != 10) = true := by
    intro c hc
    have := List.filter_eq_nil_iff.1 hnil c (by simpa using hc)
    simpa using this
  simp only [colOf, ht, List.reverse_append]
  rw [List.takeWhile_append_of_pos hall]
  simp; omega

end Verif
