import Verif.Spec.Lexeme
import Verif.Proofs.Lexer2
import Verif.Proofs.TokGood
/-! The text of a token that was lexed without errors stands for the token: numbers and strings. -/
namespace Verif.Lex
open Verif.Spec

/-! ## Numbers -/

theorem digitOf_hex {b : UInt8} (h : isHexDigit b = true) : digitOf b = some (digitVal b) := by
  simp only [isHexDigit, Bool.or_eq_true, Bool.and_eq_true, decide_eq_true_eq, UInt8.le_iff_toNat_le,
    UInt8.reduceToNat] at h
  simp only [digitOf, digitVal, UInt8.le_iff_toNat_le, UInt8.reduceToNat]
  rcases h with (h | h) | h
  · rw [if_pos h, if_pos h.2]
  · rw [if_neg (by omega), if_neg (by omega), if_pos h, if_neg (by omega), if_pos h.2]
    congr 1; omega
  · rw [if_neg (by omega), if_pos h, if_neg (by omega), if_neg (by omega)]
    congr 1; omega

theorem isHex_of_digitOf {b : UInt8} {d} (h : digitOf b = some d) : isHexDigit b = true := by
  simp only [isHexDigit, Bool.or_eq_true, Bool.and_eq_true, decide_eq_true_eq]
  unfold digitOf at h
  split at h
  · exact .inl (.inl ‹_›)
  · split at h
    · exact .inr ‹_›
    · split at h
      · exact .inl (.inr ‹_›)
      · cases h

theorem digitVal_digit {b : UInt8} (h : isDigit b = true) : digitVal b < 10 := by
  simp only [isDigit, Bool.and_eq_true, decide_eq_true_eq, UInt8.le_iff_toNat_le] at h
  have e1 : (48 : UInt8).toNat = 48 := rfl
  have e2 : (57 : UInt8).toNat = 57 := rfl
  rw [e1, e2] at h
  simp only [digitVal, UInt8.le_iff_toNat_le, e2]
  rw [if_pos h.2]; omega

theorem isHex_of_digit {b : UInt8} (h : isDigit b = true) : isHexDigit b = true := by
  simp only [isHexDigit, isDigit, Bool.or_eq_true] at *; exact .inl (.inl h)

theorem isDigit_of_oct {b : UInt8} (h : isOctDigit b = true) : isDigit b = true := by
  simp only [isOctDigit, isDigit, Bool.and_eq_true, decide_eq_true_eq, UInt8.le_iff_toNat_le] at *
  have e1 : (57 : UInt8).toNat = 57 := rfl
  have e2 : (55 : UInt8).toNat = 55 := rfl
  rw [e1]; rw [e2] at h; omega

theorem isOct_iff {b : UInt8} (h : isDigit b = true) : isOctDigit b = true ↔ digitVal b < 8 := by
  simp only [isDigit, isOctDigit, digitVal, Bool.and_eq_true, decide_eq_true_eq, UInt8.le_iff_toNat_le] at *
  have e1 : (57 : UInt8).toNat = 57 := rfl
  have e2 : (55 : UInt8).toNat = 55 := rfl
  have e3 : (48 : UInt8).toNat = 48 := rfl
  rw [e1, e3] at h; rw [e1, e2, e3, if_pos h.2]; omega

theorem digitVal_hex {b : UInt8} (h : isHexDigit b = true) : digitVal b < 16 := by
  simp only [isHexDigit, Bool.or_eq_true, Bool.and_eq_true, decide_eq_true_eq, UInt8.le_iff_toNat_le,
    UInt8.reduceToNat] at h
  simp only [digitVal, UInt8.le_iff_toNat_le, UInt8.reduceToNat]
  split
  · omega
  · split <;> omega

theorem digitsVal_snoc (r : Nat) (ds : Bytes) (b : UInt8) :
    digitsVal r (ds ++ [b]) = r * digitsVal r ds + digitVal b := by
  simp [digitsVal, Nat.mul_comm]

theorem numeral_of {r : Nat} {ds : Bytes} (hne : ds ≠ [])
    (h : ∀ b ∈ ds, isHexDigit b = true ∧ digitVal b < r) : Numeral r ds (digitsVal r ds) := by
  generalize hn : ds.length = n
  induction n generalizing ds with
  | zero => exact absurd (List.length_eq_zero_iff.1 hn) hne
  | succ n ih =>
    obtain ⟨l, b, rfl⟩ : ∃ l b, ds = l ++ [b] :=
      ⟨ds.dropLast, ds.getLast hne, (List.dropLast_concat_getLast hne).symm⟩
    have hb := h b (by simp)
    rw [digitsVal_snoc]
    by_cases hl : l = []
    · subst hl
      have : r * digitsVal r [] + digitVal b = digitVal b := by simp [digitsVal]
      rw [this]
      exact .one (digitOf_hex hb.1) hb.2
    · exact .snoc (ih hl (fun c hc => h c (by simp [hc])) (by simpa using hn)) (digitOf_hex hb.1) hb.2

/-- A numeral has one value. -/
theorem numeral_val {r ds n} (h : Numeral r ds n) :
    ds ≠ [] ∧ (∀ b ∈ ds, isHexDigit b = true ∧ digitVal b < r) ∧ n = digitsVal r ds := by
  induction h with
  | one h1 h2 =>
    have hx := isHex_of_digitOf h1
    have := digitOf_hex hx
    rw [h1] at this; cases this
    exact ⟨by simp, by simp [hx, h2], by simp [digitsVal]⟩
  | snoc h h1 h2 ih =>
    have hx := isHex_of_digitOf h1
    have := digitOf_hex hx
    rw [h1] at this; cases this
    refine ⟨by simp, fun b hb => ?_, by rw [digitsVal_snoc, ih.2.2]⟩
    rcases List.mem_append.1 hb with hb | hb
    · exact ih.2.1 b hb
    · simp at hb; subst hb; exact ⟨hx, h2⟩

theorem fromStrRadix_some {r ds v} (h : fromStrRadix r ds = some v) (hne : ds ≠ [])
    (hx : ∀ b ∈ ds, isHexDigit b = true) : Numeral r ds v ∧ v < 2 ^ 64 := by
  refine ⟨?_, fromStrRadix_lt h⟩
  unfold fromStrRadix at h
  split at h
  · rename_i ha
    split at h
    · cases h
      exact numeral_of hne fun b hb => ⟨hx b hb, by simpa using List.all_eq_true.1 ha b hb⟩
    · cases h
  · cases h

theorem int_value {radix pre pos len ds rest v} (h : int radix pre pos len ds rest [] = (v, [])) :
    fromStrRadix radix ds = some v := by
  unfold int at h
  cases hf : fromStrRadix radix ds with
  | none => rw [hf] at h; simp at h
  | some w => rw [hf] at h; simp only [Prod.mk.injEq] at h; rw [h.1]

theorem digits_takeWhile (s : Bytes) : Digits (s.takeWhile isDigit) := fun b hb => by
  have := takeWhile_all b hb
  simpa [isDigit] using this

theorem take_takeWhile {α} (p : α → Bool) (l : List α) : l.take (l.takeWhile p).length = l.takeWhile p := by
  have h := List.takeWhile_append_dropWhile (p := p) (l := l)
  generalize l.takeWhile p = a at *
  generalize l.dropWhile p = b at h
  subst h
  simp

theorem take_prefix {α} {a b : List α} (n : Nat) (h : n = a.length) : (a ++ b).take n = a := by
  subst h; simp

/-- What `exponentLen` matches. -/
theorem exponentLen_spec (s : Bytes) : exponentLen s = 0 ∨ Exponent (s.take (exponentLen s)) := by
  unfold exponentLen
  cases s with
  | nil => exact .inl rfl
  | cons e r =>
    simp only
    split
    · rename_i he
      have he' : e = 101 ∨ e = 69 := by simpa using he
      cases r with
      | nil => exact .inl rfl
      | cons s r' =>
        simp only
        split
        · rename_i hs
          split
          · exact .inl rfl
          · rename_i hz
            refine .inr ⟨e, r'.takeWhile isDigit, he', digits_takeWhile _, fun hh => hz (by simp [hh]), ?_⟩
            rw [Nat.add_comm 2, List.take_succ_cons, List.take_succ_cons, take_takeWhile]
            rcases Bool.or_eq_true _ _ ▸ hs with h | h
            · have : s = 43 := by simpa using h
              subst this; exact .inr (.inl rfl)
            · have : s = 45 := by simpa using h
              subst this; exact .inr (.inr rfl)
        · split
          · exact .inl rfl
          · rename_i hz
            refine .inr ⟨e, (s :: r').takeWhile isDigit, he', digits_takeWhile _, fun hh => hz (by rw [hh]; rfl), ?_⟩
            rw [Nat.add_comm 1, List.take_succ_cons, take_takeWhile]
            exact .inl rfl
    · exact .inl rfl

theorem suffixLen_spec (s : Bytes) :
    (suffixLen s = 0 ∧ (suffixLen s == 1) = false) ∨
    (suffixLen s = 1 ∧ (suffixLen s == 1) = true ∧ ∃ f r, s = f :: r ∧ (f = 102 ∨ f = 70)) := by
  unfold suffixLen
  cases s with
  | nil => exact .inl ⟨rfl, rfl⟩
  | cons f r =>
    simp only
    split
    · rename_i h
      exact .inr ⟨rfl, rfl, f, r, rfl, by simpa using h⟩
    · exact .inl ⟨rfl, rfl⟩

/-- A float token whose text is `a` followed by an optional suffix. -/
theorem float_lexeme {tf : Bool} {pos : Nat} {a c : Bytes} {t n} {hs : Bool}
    (ha : FloatText a)
    (hc : (hs = false ∧ n = a.length) ∨ (hs = true ∧ n = a.length + 1 ∧ ∃ f r, c = f :: r ∧ (f = 102 ∨ f = 70)))
    (h : float tf pos n hs (a ++ c) [] = (t, n, [])) : Lexeme tf ((a ++ c).take n) t := by
  unfold float at h
  rcases hc with ⟨rfl, rfl⟩ | ⟨rfl, rfl, f, r, rfl, hf⟩
  · simp only [Bool.false_eq_true, if_false, Prod.mk.injEq, and_true] at h
    subst h
    simp only [List.take_left']
    exact .float ha
  · simp only [if_true, Prod.mk.injEq, true_and] at h
    obtain ⟨rfl, h2⟩ := h
    have htf : tf = true := by cases tf <;> simp_all
    have e1 : (a ++ f :: r).take (a.length + 1 - 1) = a := by simp
    have e2 : (a ++ f :: r).take (a.length + 1) = a ++ [f] := by
      rw [show a ++ f :: r = (a ++ [f]) ++ r by simp, take_prefix _ (by simp)]
    rw [e1, e2]
    exact .floatSuffix htf ha hf

theorem drop_exp (s : Bytes) : s = s.take (exponentLen s) ++ s.drop (exponentLen s) :=
  (List.take_append_drop _ _).symm

theorem take_exp_length (s : Bytes) : (s.take (exponentLen s)).length = exponentLen s := by
  rw [List.length_take]; exact Nat.min_eq_left (exponentLen_le s)

theorem suffix_cases (c : Bytes) (k n : Nat) (hn : n = k + suffixLen c) :
    ((suffixLen c == 1) = false ∧ n = k) ∨
    ((suffixLen c == 1) = true ∧ n = k + 1 ∧ ∃ f r, c = f :: r ∧ (f = 102 ∨ f = 70)) := by
  rcases suffixLen_spec c with ⟨h1, h2⟩ | ⟨h1, h2, h3⟩
  · exact .inl ⟨h2, by omega⟩
  · exact .inr ⟨h2, by omega, h3⟩

theorem int_suffix_lexeme {tf : Bool} {pos n : Nat} {ds r : Bytes} {t}
    (hd : Digits ds) (h0 : ds = [48] ∨ ds.head? ≠ some 48) (hne : ds ≠ []) (hs : suffixLen r = 1)
    (hn : n = ds.length + 1)
    (h : float tf pos n true (ds ++ r) [] = (t, n, [])) : Lexeme tf ((ds ++ r).take n) t := by
  rcases suffixLen_spec r with ⟨h1, _⟩ | ⟨_, _, f, r', rfl, hf⟩
  · omega
  unfold float at h
  simp only [if_true, Prod.mk.injEq, true_and] at h
  obtain ⟨rfl, h2⟩ := h
  have htf : tf = true := by cases tf <;> simp_all
  subst hn
  have e1 : (ds ++ f :: r').take (ds.length + 1 - 1) = ds := by simp
  have e2 : (ds ++ f :: r').take (ds.length + 1) = ds ++ [f] := by
    rw [show ds ++ f :: r' = (ds ++ [f]) ++ r' by simp, take_prefix _ (by simp)]
  rw [e1, e2]
  exact .intSuffix htf hd h0 hne hf

theorem number_lexeme {tf pos s t n} (hs : s.takeWhile isDigit ≠ []) (h : number tf pos s [] = (t, n, [])) :
    Lexeme tf (s.take n) t := by
  unfold number at h
  have hsplit := List.takeWhile_append_dropWhile (p := isDigit) (l := s)
  have hdig := digits_takeWhile s
  have hall : ∀ c ∈ s.takeWhile isDigit, isDigit c = true := fun c hc => takeWhile_all c hc
  simp only at h
  generalize s.takeWhile isDigit = ds at *
  generalize s.dropWhile isDigit = r at *
  subst hsplit
  have main : ∀ (a c : Bytes) (k : Nat), FloatText a → ds ++ r = a ++ c → k = a.length + suffixLen c →
      float tf pos k (suffixLen c == 1) (ds ++ r) [] = (t, n, []) → Lexeme tf ((ds ++ r).take n) t := by
    intro a c k ha he hk hfl
    have hn : n = k := by have := float_len tf pos k (suffixLen c == 1) (ds ++ r) []; rw [hfl] at this; exact this
    subst hn
    rw [he] at hfl ⊢
    exact float_lexeme ha (suffix_cases c a.length n hk) hfl
  have expo : ∀ x : Bytes, x.take (exponentLen x) = [] ∨ Exponent (x.take (exponentLen x)) := fun x => by
    rcases exponentLen_spec x with he | he
    · rw [he]; exact .inl rfl
    · exact .inr he
  split at h
  · -- `digits.`
    rename_i r1
    have hfr := List.takeWhile_append_dropWhile (p := isDigit) (l := r1)
    have hfd := digits_takeWhile r1
    generalize r1.takeWhile isDigit = fr at *
    generalize r1.dropWhile isDigit = r2 at *
    subst hfr
    refine main (ds ++ 46 :: fr ++ r2.take (exponentLen r2)) (r2.drop (exponentLen r2)) _
      ⟨ds, fr, _, hdig, hfd, expo r2, .inl ⟨rfl, .inl hs⟩⟩ ?_ ?_ h
    · simp [List.take_append_drop]
    · rw [List.length_append, take_exp_length]; simp; omega
  · split at h
    · -- exponent
      rename_i hel
      refine main (ds ++ r.take (exponentLen r)) (r.drop (exponentLen r)) _
        ⟨ds, [], _, hdig, (by intro b hb; cases hb), expo r, .inr ⟨rfl, hs, fun hh => hel ?_⟩⟩ ?_ ?_ h
      · have := take_exp_length r; rw [hh] at this; exact this.symm
      · simp [List.take_append_drop]
      · rw [List.length_append, take_exp_length]
    · split at h
      · -- `0`
        rename_i h0
        subst h0
        have zero : Token.int 0 = t ∧ 1 = n → Lexeme tf (([48] ++ r).take n) t := by
          rintro ⟨rfl, rfl⟩; exact .int .zero (by decide)
        cases r with
        | nil => simp only [Prod.mk.injEq, and_true] at h; exact zero h
        | cons x r1 =>
          simp only at h
          split at h
          · rename_i hx
            simp only [Bool.and_eq_true, Bool.or_eq_true, beq_iff_eq, decide_eq_true_eq] at hx
            cases hi : int 16 2 pos (2 + (r1.takeWhile isHexDigit).length) (r1.takeWhile isHexDigit)
                (r1.dropWhile isHexDigit) [] with
            | mk v e =>
              rw [hi] at h
              simp only [Prod.mk.injEq] at h
              obtain ⟨rfl, rfl, rfl⟩ := h
              have hv := fromStrRadix_some (int_value hi) (fun hh => hx.2 (by rw [hh]; rfl))
                (fun b hb => takeWhile_all b hb)
              rw [Nat.add_comm 2, List.cons_append, List.nil_append, List.take_succ_cons, List.take_succ_cons,
                take_takeWhile]
              exact .int (.hex hx.1 hv.1) hv.2
          · split at h
            · rename_i hsl
              have hn : n = 2 := by have := float_len tf pos 2 true ([48] ++ x :: r1) []; rw [h] at this; exact this
              subst hn
              exact int_suffix_lexeme hdig (.inl rfl) (by simp) hsl rfl h
            · simp only [Prod.mk.injEq, and_true] at h; exact zero h
      · rename_i h0
        split at h
        · rename_i d2 ds'
          split at h
          · rename_i hoct
            cases hi : int 8 1 pos (48 :: d2 :: ds').length (d2 :: ds') r [] with
            | mk v e =>
              rw [hi] at h
              simp only [Prod.mk.injEq] at h
              obtain ⟨rfl, rfl, rfl⟩ := h
              have hv := fromStrRadix_some (int_value hi) (by simp)
                (fun b hb => isHex_of_digit (hall b (List.mem_cons_of_mem _ hb)))
              rw [take_prefix _ rfl]
              exact .int (.octal hv.1) hv.2
          · rename_i hoct
            simp only [Prod.mk.injEq, and_true] at h
            obtain ⟨rfl, rfl⟩ := h
            rw [take_prefix _ rfl]
            refine .malformedOctal ?_ fun b hb => hdig b (by simp [hb])
            have hd := hdig d2 (by simp)
            simp only [isOctDigit, Bool.and_eq_true, decide_eq_true_eq] at hoct
            rw [UInt8.le_iff_toNat_le, UInt8.le_iff_toNat_le] at hd hoct
            have e1 : (48 : UInt8).toNat = 48 := rfl
            have e2 : (57 : UInt8).toNat = 57 := rfl
            have e3 : (55 : UInt8).toNat = 55 := rfl
            rw [e1, e2] at hd
            rw [e1, e3] at hoct
            have : d2.toNat = 56 ∨ d2.toNat = 57 := by omega
            rcases this with h | h
            · exact .inl (UInt8.toNat_inj.1 h)
            · exact .inr (UInt8.toNat_inj.1 h)
        · rename_i hno
          have hhead : ds.head? ≠ some 48 := by
            intro hh
            cases ds with
            | nil => cases hh
            | cons b bs =>
              simp only [List.head?_cons, Option.some.injEq] at hh
              subst hh
              cases bs with
              | nil => exact h0 rfl
              | cons c cs => exact hno c cs rfl
          split at h
          · rename_i hsl
            have hn : n = ds.length + 1 := by
              have := float_len tf pos (ds.length + 1) true (ds ++ r) []; rw [h] at this; exact this
            rw [← hn] at h
            exact int_suffix_lexeme hdig (.inr hhead) hs hsl hn h
          · cases hi : int 10 0 pos ds.length ds r [] with
            | mk v e =>
              rw [hi] at h
              simp only [Prod.mk.injEq] at h
              obtain ⟨rfl, rfl, rfl⟩ := h
              have hv := fromStrRadix_some (int_value hi) hs (fun b hb => isHex_of_digit (hall b hb))
              rw [take_prefix _ rfl]
              exact .int (.decimal hv.1 hhead) hv.2

end Verif.Lex
