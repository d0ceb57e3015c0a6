import Verif.Proofs.Lexeme
/-! The text of a string token that was lexed without errors stands for its value. -/
namespace Verif.Lex
open Verif.Spec

theorem scalar_char {n : Nat} (h : isScalar n = true) : ∃ c : Char, c.toNat = n ∧ String.utf8EncodeChar c = utf8Encode n := by
  have hv : n.isValidChar := by
    simp only [isScalar, Bool.or_eq_true, Bool.and_eq_true, decide_eq_true_eq] at h
    unfold Nat.isValidChar
    omega
  have hc : (Char.ofNat n).toNat = n := by
    simp only [Char.ofNat, dif_pos hv]
    rfl
  refine ⟨Char.ofNat n, hc, ?_⟩
  have hlt : n < 0x110000 := by
    simp only [isScalar, Bool.or_eq_true, Bool.and_eq_true, decide_eq_true_eq] at h; omega
  have hc' : (Char.ofNat n).val.toNat = n := hc
  unfold String.utf8EncodeChar utf8Encode
  simp only [hc']
  by_cases h1 : n < 0x80
  · rw [if_pos (show n ≤ 0x7f by omega), if_pos h1]
  · rw [if_neg (show ¬ n ≤ 0x7f by omega), if_neg h1]
    have e : ∀ a b : Nat, a = b → UInt8.ofNat a = UInt8.ofNat b := fun a b h => by rw [h]
    by_cases h2 : n < 0x800
    · rw [if_pos (show n ≤ 0x7ff by omega), if_pos h2]
      rw [e (n / 64 % 32 + 192) (0xC0 + n / 64) (by omega), e (n % 64 + 128) (0x80 + n % 64) (by omega)]
    · rw [if_neg (show ¬ n ≤ 0x7ff by omega), if_neg h2]
      by_cases h3 : n < 0x10000
      · rw [if_pos (show n ≤ 0xffff by omega), if_pos h3]
        rw [e _ (0xE0 + n / 4096) (by omega), e (n / 64 % 64 + 128) (0x80 + n / 64 % 64) (by omega),
          e (n % 64 + 128) (0x80 + n % 64) (by omega)]
      · rw [if_neg (show ¬ n ≤ 0xffff by omega), if_neg h3]
        rw [e _ (0xF0 + n / 262144) (by omega), e (n / 4096 % 64 + 128) (0x80 + n / 4096 % 64) (by omega),
          e (n / 64 % 64 + 128) (0x80 + n / 64 % 64) (by omega), e (n % 64 + 128) (0x80 + n % 64) (by omega)]

/-- What a piece of a string literal adds to its value. -/
def compVal : Comp → Option Bytes
  | .unescaped s => some s
  | .terminator b => some [b]
  | .byte b => some [b]
  | .char c => some (utf8Encode c)
  | .error => none

theorem raw_many {q : UInt8} : ∀ {p body w : Bytes}, (∀ b ∈ p, isPlain b = true) → StrBody q body w →
    StrBody q (p ++ body) (p ++ w)
  | [], _, _, _, h => h
  | b :: p, body, w, hp, h => by
    have hb := hp b (by simp)
    simp only [isPlain, Bool.not_eq_true', Bool.or_eq_false_iff, beq_eq_false_iff_ne] at hb
    refine .raw hb.1.1.1.1 hb.1.1.1.2 hb.1.1.2 ?_ (raw_many (fun c hc => hp c (by simp [hc])) h)
    rintro (rfl | rfl)
    · exact hb.2 rfl
    · exact hb.1.2 rfl

theorem charEscape_mem {c v : UInt8} (h : charEscape c = some v) : (c, v) ∈ simpleEscapes := by
  unfold charEscape at h
  simp only [simpleEscapes]
  repeat' split at h
  all_goals first
    | (cases h; rename_i hc; have := eq_of_beq hc; subst this; simp)
    | cases h

/-- Digits taken greedily: at most `k`, and if there are fewer, what follows is no digit. -/
theorem greedy {p : UInt8 → Bool} {k : Nat} : ∀ {s : Bytes},
    ((s.take k).takeWhile p).length = k ∨
    startsWith p (s.drop ((s.take k).takeWhile p).length) = false := by
  induction k with
  | zero => intro s; exact .inl (by simp)
  | succ k ih =>
    intro s
    cases s with
    | nil => exact .inr rfl
    | cons b r =>
      rw [List.take_succ_cons, List.takeWhile_cons]
      split
      · rcases ih (s := r) with h | h
        · exact .inl (by simp [h])
        · exact .inr (by simpa using h)
      · rename_i hb
        exact .inr (by simpa [startsWith] using hb)

theorem take_greedy {p : UInt8 → Bool} {k : Nat} {s : Bytes} :
    s.take ((s.take k).takeWhile p).length = (s.take k).takeWhile p := by
  have h1 : (s.take k).take ((s.take k).takeWhile p).length = (s.take k).takeWhile p := take_takeWhile _ _
  rw [List.take_take] at h1
  have h2 : ((s.take k).takeWhile p).length ≤ (s.take k).length := takeWhile_length_le _ _
  rw [List.length_take] at h2
  rwa [Nat.min_eq_left (by omega)] at h1

theorem greedy_len {p : UInt8 → Bool} {k : Nat} {s : Bytes} : ((s.take k).takeWhile p).length ≤ k := by
  have := takeWhile_length_le p (s.take k)
  rw [List.length_take] at this
  omega

/-- `body` continues in the source as `rest`. -/
theorem noDigit_of {r : Nat} {p : UInt8 → Bool} (hp : ∀ b d, digitOf b = some d → d < r → p b = true)
    {body t rest : Bytes} (he : rest = body ++ t) (h : startsWith p rest = false) : NoDigit r body := by
  cases body with
  | nil => trivial
  | cons b bs =>
    subst he
    intro d hd hlt
    have := hp b d hd hlt
    simp only [List.cons_append, startsWith] at h
    rw [this] at h; cases h

theorem hex_of_digitOf (b d) (h : digitOf b = some d) (_ : d < 16) : isHexDigit b = true := isHex_of_digitOf h

theorem oct_of_digitOf (b d) (h : digitOf b = some d) (hd : d < 8) : isOctDigit b = true := by
  have hx := isHex_of_digitOf h
  have := digitOf_hex hx
  rw [h] at this; cases this
  simp only [isHexDigit, Bool.or_eq_true, Bool.and_eq_true, decide_eq_true_eq, UInt8.le_iff_toNat_le,
    UInt8.reduceToNat] at hx
  simp only [isOctDigit, digitVal, Bool.and_eq_true, decide_eq_true_eq, UInt8.le_iff_toNat_le,
    UInt8.reduceToNat] at *
  split at hd
  · omega
  · split at hd <;> omega

theorem strComp_plus {q : UInt8} {s : Bytes} {c : Comp} {len : Nat} {v : Bytes} (hs : s ≠ []) (h : strComp s = (c, len))
    (hv : compVal c = some v) (hq : c ≠ .terminator q) {body t w : Bytes} (hb : s.drop len = body ++ t)
    (hw : StrBody q body w) : StrBody q (s.take len ++ body) (v ++ w) := by
  cases s with
  | nil => exact absurd rfl hs
  | cons b r =>
    unfold strComp at h
    simp only at h
    split at h
    · rename_i hbq
      cases h; cases hv
      simp only [Bool.or_eq_true, beq_iff_eq] at hbq
      refine .quote ?_ ?_ hw
      · rcases hbq with rfl | rfl
        · exact .inr rfl
        · exact .inl rfl
      · rintro rfl; exact hq rfl
    · split at h
      · rename_i hb92
        have := eq_of_beq hb92; subst this
        cases r with
        | nil => cases h; cases hv
        | cons c' r' =>
          simp only at h
          split at h
          · rename_i hx
            cases h; cases hv
            simp only [Bool.and_eq_true, Bool.or_eq_true, beq_iff_eq] at hx
            have hne : (r'.take 2).takeWhile isHexDigit ≠ [] := by
              cases r' with
              | nil => simp [startsWith] at hx
              | cons y ys =>
                have : isHexDigit y = true := hx.2
                simp [this]
            have hnum : Numeral 16 _ _ := numeral_of hne fun b hb =>
              ⟨takeWhile_all (p := isHexDigit) b hb, digitVal_hex (takeWhile_all b hb)⟩
            rw [Nat.add_comm 2, List.take_succ_cons, List.take_succ_cons, take_greedy]
            rw [Nat.add_comm 2, List.drop_succ_cons, List.drop_succ_cons] at hb
            refine .hex hx.1 hnum ?_ hw
            rcases greedy (p := isHexDigit) (k := 2) (s := r') with hg | hg
            · exact .inl hg
            · by_cases h2 : ((r'.take 2).takeWhile isHexDigit).length = 2
              · exact .inl h2
              · refine .inr ⟨?_, noDigit_of hex_of_digitOf hb hg⟩
                have := greedy_len (p := isHexDigit) (k := 2) (s := r')
                have : ((r'.take 2).takeWhile isHexDigit).length ≠ 0 := fun h0 => hne (List.length_eq_zero_iff.1 h0)
                omega
          · split at h
            · rename_i ho
              simp only [Prod.mk.injEq] at h
              obtain ⟨h1, rfl⟩ := h
              split at h1
              · rename_i hlt
                cases h1; cases hv
                have hne : ((c' :: r').take 3).takeWhile isOctDigit ≠ [] := by simp [ho]
                have hnum : Numeral 8 _ _ := numeral_of hne fun b hb =>
                  ⟨isHex_of_digit (isDigit_of_oct (takeWhile_all (p := isOctDigit) b hb)),
                    (isOct_iff (isDigit_of_oct (takeWhile_all b hb))).1 (takeWhile_all b hb)⟩
                rw [Nat.add_comm 1, List.take_succ_cons, take_greedy]
                rw [Nat.add_comm 1, List.drop_succ_cons] at hb
                refine .oct hnum ?_ hlt hw
                rcases greedy (p := isOctDigit) (k := 3) (s := c' :: r') with hg | hg
                · exact .inl hg
                · by_cases h2 : (((c' :: r').take 3).takeWhile isOctDigit).length = 3
                  · exact .inl h2
                  · refine .inr ⟨?_, noDigit_of oct_of_digitOf hb hg⟩
                    have := greedy_len (p := isOctDigit) (k := 3) (s := c' :: r')
                    omega
              · cases h1; cases hv
            · split at h
              · rename_i hu
                simp only [Bool.and_eq_true, beq_iff_eq, decide_eq_true_eq, List.all_eq_true] at hu
                obtain ⟨⟨rfl, hl⟩, hall⟩ := hu
                simp only [Prod.mk.injEq, unicodeEscape] at h
                obtain ⟨h1, rfl⟩ := h
                split at h1
                · rename_i hsc
                  cases h1; cases hv
                  obtain ⟨ch, hch, he⟩ := scalar_char hsc
                  rw [← he]
                  have hnum : Numeral 16 (r'.take 4) (digitsVal 16 (r'.take 4)) :=
                    numeral_of (by intro h0; rw [h0] at hl; cases hl) fun b hb => ⟨hall b hb, digitVal_hex (hall b hb)⟩
                  rw [← hch] at hnum
                  exact .unicode4 hnum hl hw
                · cases h1; cases hv
              · split at h
                · rename_i hu
                  simp only [Bool.and_eq_true, beq_iff_eq, decide_eq_true_eq, List.all_eq_true] at hu
                  obtain ⟨⟨rfl, hl⟩, hall⟩ := hu
                  simp only [Prod.mk.injEq, unicodeEscape] at h
                  obtain ⟨h1, rfl⟩ := h
                  split at h1
                  · rename_i hsc
                    cases h1; cases hv
                    obtain ⟨ch, hch, he⟩ := scalar_char hsc
                    rw [← he]
                    have hnum : Numeral 16 (r'.take 8) (digitsVal 16 (r'.take 8)) :=
                      numeral_of (by intro h0; rw [h0] at hl; cases hl) fun b hb => ⟨hall b hb, digitVal_hex (hall b hb)⟩
                    rw [← hch] at hnum
                    exact .unicode8 hnum hl hw
                  · cases h1; cases hv
                · split at h
                  · rename_i hce
                    cases h; cases hv
                    exact .simple (charEscape_mem hce) hw
                  · cases h; cases hv
      · split at h
        · cases h; cases hv
          rw [take_takeWhile]
          exact raw_many (fun c hc => takeWhile_all c hc) hw
        · cases h; cases hv

theorem strLoop_body {q : UInt8} : ∀ (fuel pos : Nat) (s : Bytes) (n : Nat) (acc v : Bytes) (m : Nat), s.length < fuel →
    strLoop q fuel pos s n acc [] = (v, m, []) →
    ∃ body t w, s = body ++ q :: t ∧ StrBody q body w ∧ v = acc ++ w ∧ m = n + body.length + 1 := by
  intro fuel
  induction fuel with
  | zero => intro pos s n acc v m h; omega
  | succ fuel ih =>
    intro pos s n acc v m hf h
    unfold strLoop at h
    cases s with
    | nil => simp at h
    | cons b r =>
      have hlen := strComp_len (b :: r) (by simp)
      simp only at h
      cases hc : strComp (b :: r) with
      | mk c len =>
        rw [hc] at hlen
        simp only at hlen
        have step : ∀ v', compVal c = some v' → c ≠ .terminator q →
            strLoop q fuel (pos + len) ((b :: r).drop len) (n + len) (acc ++ v') [] = (v, m, []) →
            ∃ body t w, (b :: r) = body ++ q :: t ∧ StrBody q body w ∧ v = acc ++ w ∧ m = n + body.length + 1 := by
          intro v' hv' hq h'
          obtain ⟨body, t, w, e1, e2, e3, e4⟩ := ih _ _ _ _ _ _ (by rw [List.length_drop]; omega) h'
          refine ⟨(b :: r).take len ++ body, t, v' ++ w, ?_, strComp_plus (by simp) hc hv' hq e1 e2, ?_, ?_⟩
          · rw [List.append_assoc, ← e1, List.take_append_drop]
          · rw [e3, List.append_assoc]
          · rw [e4, List.length_append, List.length_take, Nat.min_eq_left hlen.2]; omega
        rw [hc] at h
        cases c with
        | unescaped t => exact step t rfl (by simp) h
        | byte t => exact step [t] rfl (by simp) h
        | char t => exact step (utf8Encode t) rfl (by simp) h
        | terminator t =>
          simp only at h
          split at h
          · rename_i ht
            subst ht
            cases h
            have : b = t ∧ len = 1 := by
              unfold strComp at hc
              simp only at hc
              split at hc
              · cases hc; exact ⟨rfl, rfl⟩
              · split at hc
                · cases r with
                  | nil => cases hc
                  | cons c' r' =>
                    simp only at hc
                    repeat' split at hc
                    all_goals simp only [Prod.mk.injEq, unicodeEscape] at hc
                    all_goals first
                      | (obtain ⟨hc, _⟩ := hc; split at hc <;> cases hc)
                      | (obtain ⟨hc, _⟩ := hc; cases hc)
                · split at hc <;> cases hc
            obtain ⟨rfl, rfl⟩ := this
            exact ⟨[], r, [], rfl, .nil, by simp, rfl⟩
          · rename_i ht
            exact step [t] rfl (by simpa using ht) h
        | error =>
          simp only at h
          split at h
          · simp at h
          · exact absurd (congrArg (·.2.2) h) (strLoop_errs_ne _ _ _ _ _ _ _ (strError_ne _ _ _))

theorem string_lexeme {tf : Bool} {pos : Nat} {q : UInt8} {r : Bytes} {t n} (hq : isQuote q)
    (h : string pos q r [] = (t, n, [])) : Lexeme tf ((q :: r).take n) t := by
  unfold string at h
  cases hl : strLoop q (r.length + 1) (pos + 1) r 0 [] [] with
  | mk v p =>
    obtain ⟨m, e⟩ := p
    rw [hl] at h
    simp only [Prod.mk.injEq] at h
    obtain ⟨rfl, rfl, rfl⟩ := h
    obtain ⟨body, u, w, e1, e2, e3, e4⟩ := strLoop_body _ _ _ _ _ _ _ (by omega) hl
    subst e1 e4
    rw [List.nil_append] at e3
    subst e3
    rw [show (1 + (0 + body.length + 1)) = (q :: body ++ [q]).length by simp; omega,
      show q :: (body ++ q :: u) = (q :: body ++ [q]) ++ u by simp, take_prefix _ rfl]
    exact .string hq e2

end Verif.Lex
