import Verif.Proofs.Lexeme4
/-! The converse: a text that stands for a token is lexed as that token, if white space or nothing follows. -/
namespace Verif.Lex
open Verif.Spec

/-- What follows does not go on with a letter, digit, underscore or dot. -/
def Follow (r : Bytes) : Prop := ∀ b, r.head? = some b → (isAlnum b || b == 95 || b == 46) = false

theorem follow_nil : Follow [] := nofun

theorem Follow.not {r : Bytes} (h : Follow r) (p : UInt8 → Bool)
    (hp : ∀ n : Fin 256, p (UInt8.ofNat n.val) = true →
      (isAlnum (UInt8.ofNat n.val) || UInt8.ofNat n.val == 95 || UInt8.ofNat n.val == 46) = true) :
    startsWith p r = false := by
  cases r with
  | nil => rfl
  | cons b r =>
    have h1 := forall_u8 (P := fun b => p b = true → (isAlnum b || b == 95 || b == 46) = true) hp b
    have h2 := h b rfl
    show p b = false
    cases hb : p b with
    | false => rfl
    | true => rw [h1 hb] at h2; cases h2

theorem tw_append {p : UInt8 → Bool} {s r : Bytes} (h : ∀ b ∈ s, p b = true) (hr : startsWith p r = false) :
    (s ++ r).takeWhile p = s ∧ (s ++ r).dropWhile p = r := by
  induction s with
  | nil =>
    cases r with
    | nil => exact ⟨rfl, rfl⟩
    | cons b r =>
      have hb : p b = false := hr
      simp [hb]
  | cons b s ih =>
    have := ih fun c hc => h c (by simp [hc])
    have hb := h b (by simp)
    simp [hb, this]

theorem exp_append {e r : Bytes} (h : (e = [] ∧ startsWith (fun b => b == 101 || b == 69) r = false) ∨
    (Exponent e ∧ startsWith isDigit r = false)) : exponentLen (e ++ r) = e.length := by
  rcases h with ⟨rfl, hr⟩ | ⟨⟨x, ds, hx, hd, hne, he⟩, hr⟩
  · cases r with
    | nil => rfl
    | cons b r =>
      have hb : (b == 101 || b == 69) = false := hr
      simp [exponentLen, hb]
  · have hdig : ∀ b ∈ ds, isDigit b = true := fun b hb => by simpa [isDigit] using hd b hb
    have htw := (tw_append hdig hr).1
    have hx' : (x == 101 || x == 69) = true := by rcases hx with rfl | rfl <;> decide
    have hl : ds.length ≠ 0 := fun h0 => hne (List.length_eq_zero_iff.1 h0)
    rcases he with rfl | rfl | rfl
    · cases ds with
      | nil => exact absurd rfl hne
      | cons d ds =>
        have hsd : (d == 43 || d == 45) = false := by
          have := hdig d (by simp)
          cases h43 : (d == 43 || d == 45) with
          | false => rfl
          | true =>
            simp only [Bool.or_eq_true, beq_iff_eq] at h43
            rcases h43 with rfl | rfl <;> exact absurd this (by decide)
        simp only [List.cons_append, exponentLen, hx', if_true, hsd, Bool.false_eq_true, if_false]
        rw [← List.cons_append, htw, if_neg hl]
        simp; omega
    · simp only [List.cons_append, exponentLen, hx', if_true]
      simp only [show ((43 : UInt8) == 43 || (43 : UInt8) == 45) = true from rfl, if_true]
      rw [htw, if_neg hl]
      simp; omega
    · simp only [List.cons_append, exponentLen, hx', if_true]
      simp only [show ((45 : UInt8) == 43 || (45 : UInt8) == 45) = true from rfl, if_true]
      rw [htw, if_neg hl]
      simp; omega

theorem suffix_f {f : UInt8} {r : Bytes} (hf : f = 102 ∨ f = 70) : suffixLen (f :: r) = 1 := by
  rcases hf with rfl | rfl <;> rfl

theorem suffix_follow {r : Bytes} (h : Follow r) : suffixLen r = 0 := by
  have := h.not (fun b => b == 102 || b == 70) (by decide +kernel)
  cases r with
  | nil => rfl
  | cons b r =>
    have hb : (b == 102 || b == 70) = false := this
    simp [suffixLen, hb]

theorem exp_follow {r : Bytes} (h : Follow r) : exponentLen r = 0 :=
  exp_append (e := []) (.inl ⟨rfl, h.not _ (by decide +kernel)⟩)

theorem fromStrRadix_numeral {r ds n} (h : Numeral r ds n) :
    fromStrRadix r ds = if n < 2 ^ 64 then some n else none := by
  obtain ⟨_, h2, rfl⟩ := numeral_val h
  unfold fromStrRadix
  rw [if_pos (List.all_eq_true.2 fun b hb => by simpa using (h2 b hb).2)]

theorem noSpace_follow {span r errs} (h : Follow r) : noSpace span r errs = errs := by
  cases r with
  | nil => rfl
  | cons b r =>
    have hb : (isAlpha b || b == 95) = false := h.not (fun b => isAlpha b || b == 95) (by decide +kernel)
    unfold noSpace
    simp only [hb]
    rfl

/-- The errors of an integer literal. -/
def intErrs (n : Nat) (sp : Span) (errs : List ParseErrorKind) : List ParseErrorKind :=
  if n < 2 ^ 64 then errs else errs ++ [.integerOutOfRange sp]

theorem int_follow {radix pre pos len ds r errs n} (h : Numeral radix ds n) (hr : Follow r) :
    int radix pre pos len ds r errs = (if n < 2 ^ 64 then n else 0, intErrs n ⟨pos + pre, pos + len⟩ errs) := by
  unfold int intErrs
  simp only [noSpace_follow hr, fromStrRadix_numeral h]
  by_cases hn : n < 2 ^ 64
  · simp only [hn, if_true]
  · simp only [hn, if_false]

theorem isDigit_of_numeral {r ds n} (h : Numeral r ds n) (hr : r ≤ 10) : ∀ b ∈ ds, isDigit b = true := by
  intro b hb
  obtain ⟨h1, h2⟩ := (numeral_val h).2.1 b hb
  simp only [isHexDigit, Bool.or_eq_true, Bool.and_eq_true, decide_eq_true_eq, UInt8.le_iff_toNat_le,
    UInt8.reduceToNat] at h1
  simp only [digitVal, UInt8.le_iff_toNat_le, UInt8.reduceToNat] at h2
  simp only [isDigit, Bool.and_eq_true, decide_eq_true_eq, UInt8.le_iff_toNat_le, UInt8.reduceToNat]
  split at h2
  · omega
  · split at h2 <;> omega

theorem isHex_of_numeral {r ds n} (h : Numeral r ds n) : ∀ b ∈ ds, isHexDigit b = true := fun b hb =>
  ((numeral_val h).2.1 b hb).1

/-- The number branch, given the digits and what follows them. -/
theorem number_eq {tf pos ds r errs} (hd : ∀ b ∈ ds, isDigit b = true) (hr : startsWith isDigit r = false) :
    (ds ++ r).takeWhile isDigit = ds ∧ (ds ++ r).dropWhile isDigit = r ∧
    (∀ t, r = 46 :: t → number tf pos (ds ++ r) errs =
      float tf pos (ds.length + 1 + (t.takeWhile isDigit).length + exponentLen (t.dropWhile isDigit) +
        suffixLen ((t.dropWhile isDigit).drop (exponentLen (t.dropWhile isDigit))))
        (suffixLen ((t.dropWhile isDigit).drop (exponentLen (t.dropWhile isDigit))) == 1) (ds ++ r) errs) := by
  obtain ⟨h1, h2⟩ := tw_append hd hr
  refine ⟨h1, h2, ?_⟩
  rintro t rfl
  unfold number
  simp only [h1, h2]

theorem number_no_dot {tf pos ds r errs} (hd : ∀ b ∈ ds, isDigit b = true) (hr : startsWith isDigit r = false)
    (hdot : r.head? ≠ some 46) :
    number tf pos (ds ++ r) errs =
      if exponentLen r ≠ 0 then
        float tf pos (ds.length + exponentLen r + suffixLen (r.drop (exponentLen r)))
          (suffixLen (r.drop (exponentLen r)) == 1) (ds ++ r) errs
      else if ds = [48] then
        match (generalizing := false) r with
        | x :: r1 =>
          if (x == 120 || x == 88) && (r1.takeWhile isHexDigit).length ≠ 0 then
            (.int (int 16 2 pos (2 + (r1.takeWhile isHexDigit).length) (r1.takeWhile isHexDigit)
                (r1.dropWhile isHexDigit) errs).1, 2 + (r1.takeWhile isHexDigit).length,
              (int 16 2 pos (2 + (r1.takeWhile isHexDigit).length) (r1.takeWhile isHexDigit)
                (r1.dropWhile isHexDigit) errs).2)
          else if suffixLen r = 1 then float tf pos 2 true (ds ++ r) errs
          else (.int 0, 1, errs)
        | [] => (.int 0, 1, errs)
      else match (generalizing := false) ds with
      | 48 :: d2 :: ds' =>
        if isOctDigit d2 then
          (.int (int 8 1 pos ds.length (d2 :: ds') r errs).1, ds.length, (int 8 1 pos ds.length (d2 :: ds') r errs).2)
        else (.int 0, ds.length, errs)
      | _ =>
        if suffixLen r = 1 then float tf pos (ds.length + 1) true (ds ++ r) errs
        else (.int (int 10 0 pos ds.length ds r errs).1, ds.length, (int 10 0 pos ds.length ds r errs).2) := by
  obtain ⟨h1, h2⟩ := tw_append hd hr
  unfold number
  simp only [h1, h2]
  split
  · exact absurd rfl hdot
  · rfl

theorem follow_dot {r} (h : Follow r) : r.head? ≠ some 46 := fun hh => absurd (h 46 hh) (by decide)

theorem number_int' {tf pos s n r errs} (h : IntLiteral s n) (hr : Follow r) :
    ∃ sp, number tf pos (s ++ r) errs = (.int (if n < 2 ^ 64 then n else 0), s.length, intErrs n sp errs) := by
  have hrd : startsWith isDigit r = false := hr.not _ (by decide +kernel)
  cases h with
  | zero =>
    rw [number_no_dot (by simp; decide) hrd (follow_dot hr), exp_follow hr]
    simp only [ne_eq, not_true_eq_false, if_false, if_true, suffix_follow hr]
    refine ⟨⟨0, 0⟩, ?_⟩
    cases r with
    | nil => rfl
    | cons x r1 =>
      have : (x == 120 || x == 88) = false := hr.not (fun x => x == 120 || x == 88) (by decide +kernel)
      simp [this, intErrs]
  | decimal hd hh =>
    rw [number_no_dot (isDigit_of_numeral hd (Nat.le_refl _)) hrd (follow_dot hr), exp_follow hr]
    have h0 : s ≠ [48] := fun h => hh (by rw [h]; rfl)
    simp only [ne_eq, not_true_eq_false, if_false, h0, suffix_follow hr]
    split
    · exact absurd rfl hh
    · simp only [int_follow hd hr]
      exact ⟨_, rfl⟩
  | @octal ds _ hd =>
    have hdig := isDigit_of_numeral hd (by omega)
    have hne := (numeral_val hd).1
    rw [number_no_dot (by simpa using ⟨by decide, hdig⟩) hrd (follow_dot hr), exp_follow hr]
    cases ds with
    | nil => exact absurd rfl hne
    | cons d2 ds' =>
      have hoct : isOctDigit d2 = true :=
        (isOct_iff (hdig d2 (by simp))).2 ((numeral_val hd).2.1 d2 (by simp)).2
      simp only [hoct, int_follow hd hr]
      refine ⟨⟨pos + 1, pos + (48 :: d2 :: ds').length⟩, by simp⟩
  | @hex x ds _ hx hd =>
    have hne := (numeral_val hd).1
    have hxd : startsWith isDigit (x :: ds ++ r) = false := by rcases hx with rfl | rfl <;> rfl
    have hxe : exponentLen (x :: ds ++ r) = 0 := by
      apply exp_append (e := []) (.inl ⟨rfl, _⟩)
      rcases hx with rfl | rfl <;> rfl
    have hxx : (x == 120 || x == 88) = true := by rcases hx with rfl | rfl <;> rfl
    obtain ⟨h1, h2⟩ := tw_append (isHex_of_numeral hd) (hr.not isHexDigit (by decide +kernel))
    have h3 : number tf pos (48 :: x :: ds ++ r) errs = number tf pos ([48] ++ (x :: ds ++ r)) errs := rfl
    rw [h3, number_no_dot (by simp; decide) hxd (by rcases hx with rfl | rfl <;> (simp)), hxe]
    simp only [ne_eq, not_true_eq_false, if_false, if_true, List.cons_append, h1, h2, hxx, Bool.true_and]
    have hl : ds.length ≠ 0 := fun h0 => hne (List.length_eq_zero_iff.1 h0)
    simp only [int_follow hd hr]
    refine ⟨⟨pos + 2, pos + (2 + ds.length)⟩, ?_⟩
    rw [if_pos (by simpa using hl)]
    simp; omega

theorem number_int {tf pos s n r errs} (h : IntLiteral s n) (hn : n < 2 ^ 64) (hr : Follow r) :
    number tf pos (s ++ r) errs = (.int n, s.length, errs) := by
  obtain ⟨sp, h⟩ := number_int' (tf := tf) (pos := pos) (errs := errs) h hr
  rw [h, intErrs, if_pos hn, if_pos hn]

theorem isDigit_of_digits {s} (h : Digits s) : ∀ b ∈ s, isDigit b = true := fun b hb => by
  simpa [isDigit] using h b hb

theorem number_malformed {tf pos d ds r errs} (h : d = 56 ∨ d = 57) (hds : Digits ds) (hr : Follow r) :
    number tf pos (48 :: d :: ds ++ r) errs = (.int 0, (48 :: d :: ds).length, errs) := by
  have hrd : startsWith isDigit r = false := hr.not _ (by decide +kernel)
  have hd := isDigit_of_digits hds
  have h0 : isDigit d = true := by rcases h with rfl | rfl <;> rfl
  rw [number_no_dot (by simpa using ⟨by decide, h0, hd⟩) hrd (follow_dot hr), exp_follow hr]
  rcases h with rfl | rfl <;> simp [isOctDigit]

/-- A float suffix or nothing. -/
def Sfx (tf : Bool) (x : Bytes) : Prop := x = [] ∨ tf = true ∧ (x = [102] ∨ x = [70])

theorem Sfx.starts {tf x r} (hx : Sfx tf x) (hr : Follow r) (p : UInt8 → Bool)
    (hp : ∀ n : Fin 256, p (UInt8.ofNat n.val) = true →
      (isAlnum (UInt8.ofNat n.val) || UInt8.ofNat n.val == 95 || UInt8.ofNat n.val == 46) = true)
    (hf : p 102 = false ∧ p 70 = false) : startsWith p (x ++ r) = false := by
  rcases hx with rfl | ⟨_, rfl | rfl⟩
  · exact hr.not p hp
  · exact hf.1
  · exact hf.2

theorem Sfx.len {tf x r} (hx : Sfx tf x) (hr : Follow r) : suffixLen (x ++ r) = x.length := by
  rcases hx with rfl | ⟨_, rfl | rfl⟩
  · exact suffix_follow hr
  · rfl
  · rfl

theorem Sfx.float {tf x r} (hx : Sfx tf x) (pos : Nat) (s : Bytes) (errs) :
    Lex.float tf pos (s.length + x.length) (x.length == 1) (s ++ (x ++ r)) errs =
      (.float s, (s ++ x).length, errs) := by
  unfold Lex.float
  rcases hx with rfl | ⟨rfl, rfl | rfl⟩ <;> simp

theorem exp_sfx {tf e x r} (he : e = [] ∨ Exponent e) (hx : Sfx tf x) (hr : Follow r) :
    exponentLen (e ++ (x ++ r)) = e.length := by
  apply exp_append
  rcases he with rfl | he
  · exact .inl ⟨rfl, hx.starts hr _ (by decide +kernel) (by decide)⟩
  · exact .inr ⟨he, hx.starts hr _ (by decide +kernel) (by decide)⟩

theorem exponent_starts {tf e x r} (he : e = [] ∨ Exponent e) (hx : Sfx tf x) (hr : Follow r) :
    startsWith isDigit (e ++ (x ++ r)) = false := by
  rcases he with rfl | ⟨c, ds, hc, _, _, h⟩
  · exact hx.starts hr _ (by decide +kernel) (by decide)
  · rcases h with rfl | rfl | rfl <;> rcases hc with rfl | rfl <;> rfl

theorem not_ident_of_digit {c : UInt8} (h : isDigit c = true) : isIdentStart c = false := by
  simp only [isDigit, Bool.and_eq_true, decide_eq_true_eq, UInt8.le_iff_toNat_le, UInt8.reduceToNat] at h
  simp only [isIdentStart, isAlpha, isUpper, isLower, Bool.or_eq_false_iff, Bool.and_eq_false_iff, decide_eq_false_iff_not,
    UInt8.le_iff_toNat_le, UInt8.reduceToNat, beq_eq_false_iff_ne, ← UInt8.toNat_inj, ne_eq]
  omega

theorem lexToken_float {tf pos s x r errs} (h : FloatText s) (hx : Sfx tf x) (hr : Follow r) :
    lexToken tf pos (s ++ (x ++ r)) errs = (some (.float s), (s ++ x).length, errs) := by
  obtain ⟨a, b, e, ha, hb, he, h⟩ := h
  have hda := isDigit_of_digits ha
  have hdb := isDigit_of_digits hb
  have h1 := exp_sfx he hx hr
  have h2 := exponent_starts he hx hr
  obtain ⟨h3, h4⟩ := tw_append hdb h2
  have hdrop : (e ++ (x ++ r)).drop e.length = x ++ r := by simp
  rcases h with ⟨rfl, hne⟩ | ⟨rfl, hne, hee⟩
  · cases a with
    | nil =>
      have hb' : b ≠ [] := by simpa using hne
      have hsb : startsWith isDigit (b ++ (e ++ (x ++ r))) = true := by
        cases b with
        | nil => exact absurd rfl hb'
        | cons c b => exact hdb c (by simp)
      have hh : ([] ++ 46 :: b ++ e) ++ (x ++ r) = 46 :: (b ++ (e ++ (x ++ r))) := by simp
      have hl : 1 + b.length + e.length + x.length = ([] ++ 46 :: b ++ e).length + x.length := by simp; omega
      rw [hh]
      unfold lexToken
      simp only [show isIdentStart 46 = false from rfl, show isDigit 46 = false from rfl, hsb, h3, h4, h1, hdrop,
        hx.len hr, Bool.false_eq_true, if_false, beq_self_eq_true, Bool.and_self, if_true]
      rw [hl, ← hh, hx.float]
    | cons c a =>
      have hc := hda c (by simp)
      have hn := (number_eq (tf := tf) (pos := pos) (errs := errs) hda
        (r := 46 :: (b ++ (e ++ (x ++ r)))) (by rfl)).2.2 _ rfl
      rw [h3, h4, h1, hdrop, hx.len hr] at hn
      have hh : (c :: a ++ 46 :: b ++ e) ++ (x ++ r) = (c :: a) ++ 46 :: (b ++ (e ++ (x ++ r))) := by simp
      have hl : (c :: a).length + 1 + b.length + e.length + x.length =
        (c :: a ++ 46 :: b ++ e).length + x.length := by simp; omega
      rw [hl, ← hh, hx.float] at hn
      have hi : isIdentStart c = false := not_ident_of_digit hc
      rw [List.cons_append, List.cons_append, List.cons_append] at hn ⊢
      unfold lexToken
      simp only [hi, hc, hn, Bool.false_eq_true, if_false, if_true]
  · cases a with
    | nil => exact absurd rfl hne
    | cons c a =>
      have hc := hda c (by simp)
      have hi : isIdentStart c = false := not_ident_of_digit hc
      have hl0 : e.length ≠ 0 := fun h0 => hee (List.length_eq_zero_iff.1 h0)
      have hdot : (e ++ (x ++ r)).head? ≠ some 46 := by
        rcases he with rfl | ⟨k, ds, hk, _, _, h⟩
        · exact absurd rfl hee
        · rcases h with rfl | rfl | rfl <;> rcases hk with rfl | rfl <;> simp
      have hn := number_no_dot (tf := tf) (pos := pos) (errs := errs) hda h2 hdot
      rw [h1, if_pos hl0, hdrop, hx.len hr] at hn
      have hh : (c :: a ++ e) ++ (x ++ r) = (c :: a) ++ (e ++ (x ++ r)) := by simp
      have hl : (c :: a).length + e.length + x.length = (c :: a ++ e).length + x.length := by
        rw [List.length_append]
      rw [hl, ← hh, hx.float] at hn
      rw [List.cons_append, List.cons_append] at hn ⊢
      unfold lexToken
      simp only [hi, hc, hn, Bool.false_eq_true, if_false, if_true]

theorem number_suffix {tf pos ds f r errs} (htf : tf = true) (hd : Digits ds) (h0 : ds = [48] ∨ ds.head? ≠ some 48)
    (hne : ds ≠ []) (hf : f = 102 ∨ f = 70) :
    number tf pos (ds ++ f :: r) errs = (.float ds, ds.length + 1, errs) := by
  subst htf
  have hdd := isDigit_of_digits hd
  have hfd : startsWith isDigit (f :: r) = false := by rcases hf with rfl | rfl <;> rfl
  have hfe : exponentLen (f :: r) = 0 := by
    apply exp_append (e := []) (.inl ⟨rfl, _⟩)
    rcases hf with rfl | rfl <;> rfl
  have hdot : (f :: r).head? ≠ some 46 := by rcases hf with rfl | rfl <;> simp
  have hx : (f == 120 || f == 88) = false := by rcases hf with rfl | rfl <;> rfl
  rw [number_no_dot hdd hfd hdot, hfe]
  simp only [ne_eq, not_true_eq_false, if_false, suffix_f hf, if_true, hx, Bool.false_and, Bool.false_eq_true]
  split
  · next h => subst h; simp [Lex.float]
  · next h =>
    split
    · rcases h0 with h0 | h0
      · exact absurd h0 h
      · exact absurd rfl h0
    · simp [Lex.float]

end Verif.Lex
