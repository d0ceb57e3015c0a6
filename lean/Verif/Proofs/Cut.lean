import Verif.Proofs.RawAt
/-! The tokens before a cut in the source stay what they are when the source goes on differently (on a new line). -/
namespace Verif.Lex
open Spec

theorem tw_cut {p : UInt8 → Bool} (hp : p 10 = false) {r Z : Bytes} : ∀ a : Bytes, ((a ++ r).takeWhile p).length ≤ a.length →
    (a ++ 10 :: Z).takeWhile p = (a ++ r).takeWhile p ∧
    ∃ a', (a ++ r).dropWhile p = a' ++ r ∧ (a ++ 10 :: Z).dropWhile p = a' ++ 10 :: Z ∧ a.length = ((a ++ r).takeWhile p).length + a'.length
  | [], h => by
    have h0 : r.takeWhile p = [] := by simpa using h
    have h1 : r.dropWhile p = r := by simpa [h0] using List.takeWhile_append_dropWhile (p := p) (l := r)
    exact ⟨by simp [h0, List.takeWhile_cons, hp], [], by simp [h1], by simp [List.dropWhile_cons, hp], by simp [h0]⟩
  | b :: a, h => by
    by_cases hb : p b = true
    · simp only [List.cons_append, List.takeWhile_cons, hb, if_true, List.length_cons] at h
      obtain ⟨h1, a', h2, h3, h4⟩ := tw_cut hp (r := r) (Z := Z) a (by omega)
      refine ⟨by simp [List.takeWhile_cons, hb, h1], a', ?_, ?_, ?_⟩
      · simp [List.dropWhile_cons, hb, h2]
      · simp [List.dropWhile_cons, hb, h3]
      · simp [List.takeWhile_cons, hb]; omega
    · exact ⟨by simp [List.takeWhile_cons, hb], b :: a, by simp [List.dropWhile_cons, hb], by simp [List.dropWhile_cons, hb],
        by simp [List.takeWhile_cons, hb]⟩

theorem exp_two (e b : UInt8) (r : Bytes) : exponentLen (e :: b :: r) = if e == 101 || e == 69 then
    if b == 43 || b == 45 then (if (r.takeWhile isDigit).length = 0 then 0 else 2 + (r.takeWhile isDigit).length)
    else (if ((b :: r).takeWhile isDigit).length = 0 then 0 else 1 + ((b :: r).takeWhile isDigit).length)
    else 0 := rfl

theorem exp_one (e : UInt8) (r : Bytes) (h : exponentLen (e :: r) ≤ 1) : exponentLen (e :: r) = 0 := by
  cases r with
  | nil => show (if _ then _ else _) = _; split <;> rfl
  | cons b r =>
    rw [exp_two] at h ⊢
    by_cases he : (e == 101 || e == 69) = true
    · rw [if_pos he] at h ⊢
      by_cases hs : (b == 43 || b == 45) = true
      · rw [if_pos hs] at h ⊢
        split
        · rfl
        · rename_i h0; rw [if_neg h0] at h; omega
      · rw [if_neg hs] at h ⊢
        split
        · rfl
        · rename_i h0; rw [if_neg h0] at h; omega
    · rw [if_neg he]

theorem exp_cut {r Z : Bytes} (a : Bytes) (h : exponentLen (a ++ r) ≤ a.length) : exponentLen (a ++ 10 :: Z) = exponentLen (a ++ r) := by
  match a with
  | [] =>
    have : exponentLen r = 0 := by simpa using h
    rw [List.nil_append, List.nil_append, this]
    rfl
  | [e] =>
    have h0 : exponentLen ([e] ++ r) = 0 := exp_one e r h
    rw [h0]
    show exponentLen (e :: 10 :: Z) = 0
    rw [exp_two]
    split <;> rfl
  | e :: s :: a =>
    simp only [List.cons_append, List.length_cons] at h ⊢
    rw [exp_two] at h ⊢
    rw [exp_two]
    split
    · rename_i he
      rw [if_pos he] at h
      split
      · rename_i hs
        rw [if_pos hs] at h
        have hl : ((a ++ r).takeWhile isDigit).length ≤ a.length := by
          split at h <;> omega
        rw [(tw_cut rfl a hl).1]
      · rename_i hs
        rw [if_neg hs] at h
        have hl : ((s :: a ++ r).takeWhile isDigit).length ≤ (s :: a).length := by
          simp only [List.cons_append, List.length_cons]
          split at h <;> omega
        have := (tw_cut (Z := Z) rfl (s :: a) hl).1
        simp only [List.cons_append] at this
        rw [this]
    · rfl

theorem suffix_cut {r Z : Bytes} (a : Bytes) (h : suffixLen (a ++ r) ≤ a.length) : suffixLen (a ++ 10 :: Z) = suffixLen (a ++ r) := by
  cases a with
  | nil =>
    have : suffixLen r = 0 := by simpa using h
    rw [List.nil_append, List.nil_append, this]
    rfl
  | cons b a => rfl

/-- The token and its length, without the errors. -/
def tl {α β γ : Type} (x : α × β × γ) : α × β := (x.1, x.2.1)

theorem float_tl (tf pos n hs s errs) : tl (float tf pos n hs s errs) = (.float (s.take (if hs then n - 1 else n)), n) := by
  unfold float
  cases hs <;> rfl

theorem take_cut {a r Z : Bytes} {n : Nat} (h : n ≤ a.length) : (a ++ 10 :: Z).take n = (a ++ r).take n := by
  rw [List.take_append_of_le_length h, List.take_append_of_le_length h]

theorem drop_cut {a r : Bytes} {n : Nat} (h : n ≤ a.length) : (a ++ r).drop n = a.drop n ++ r := List.drop_append_of_le_length h

/-- The digits after the point, the exponent and the suffix. -/
theorem frac_cut {r Z : Bytes} (a : Bytes) (h : ((a ++ r).takeWhile isDigit).length + exponentLen ((a ++ r).dropWhile isDigit) +
      suffixLen (((a ++ r).dropWhile isDigit).drop (exponentLen ((a ++ r).dropWhile isDigit))) ≤ a.length) :
    ((a ++ 10 :: Z).takeWhile isDigit).length = ((a ++ r).takeWhile isDigit).length ∧
    exponentLen ((a ++ 10 :: Z).dropWhile isDigit) = exponentLen ((a ++ r).dropWhile isDigit) ∧
    suffixLen (((a ++ 10 :: Z).dropWhile isDigit).drop (exponentLen ((a ++ r).dropWhile isDigit))) =
      suffixLen (((a ++ r).dropWhile isDigit).drop (exponentLen ((a ++ r).dropWhile isDigit))) := by
  obtain ⟨h1, a', h2, h3, h4⟩ := tw_cut (p := isDigit) rfl (r := r) (Z := Z) a (by omega)
  rw [h2] at h ⊢
  rw [h1, h3]
  refine ⟨rfl, exp_cut _ (by omega), ?_⟩
  rw [drop_cut (by omega)] at h ⊢
  rw [drop_cut (by omega)]
  exact suffix_cut _ (by rw [List.length_drop]; omega)

/-- The hexadecimal digits after `0`. -/
def hexDigits : Bytes → Bytes
  | x :: r => if x == 120 || x == 88 then r.takeWhile isHexDigit else []
  | [] => []

theorem hex_cut {r Z : Bytes} (a : Bytes) (h : hexDigits (a ++ r) = [] ∨ 1 + (hexDigits (a ++ r)).length ≤ a.length) :
    hexDigits (a ++ 10 :: Z) = hexDigits (a ++ r) := by
  cases a with
  | nil =>
    have : hexDigits r = [] := by
      rcases h with h | h
      · exact h
      · simp at h
    rw [List.nil_append, List.nil_append, this]
    rfl
  | cons x a =>
    simp only [List.cons_append, hexDigits, List.length_cons] at h ⊢
    split
    · rename_i hx
      simp only [hx, if_true] at h
      exact (tw_cut rfl a (by
        rcases h with h | h
        · rw [h]; exact Nat.zero_le _
        · omega)).1
    · rfl

/-- The token and the length of a number with the digits `ds`, followed by `r`, without a point after the digits. -/
def plainTl (ds r s : Bytes) : Token × Nat :=
  if exponentLen r ≠ 0 then
    let sl := suffixLen (r.drop (exponentLen r))
    (.float (s.take (if sl == 1 then ds.length + exponentLen r + sl - 1 else ds.length + exponentLen r + sl)), ds.length + exponentLen r + sl)
  else if ds = [48] then
    if hexDigits r ≠ [] then (.int ((fromStrRadix 16 (hexDigits r)).getD 0), 2 + (hexDigits r).length)
    else if suffixLen r = 1 then (.float (s.take 1), 2)
    else (.int 0, 1)
  else match ds with
  | 48 :: d2 :: ds' => if isOctDigit d2 then (.int ((fromStrRadix 8 (d2 :: ds')).getD 0), ds.length) else (.int 0, ds.length)
  | _ => if suffixLen r = 1 then (.float (s.take ds.length), ds.length + 1) else (.int ((fromStrRadix 10 ds).getD 0), ds.length)

theorem int_fst (radix pre pos len ds rest errs) : (int radix pre pos len ds rest errs).1 = (fromStrRadix radix ds).getD 0 := by
  unfold int
  simp only
  split <;> simp [*]

theorem number_plain (tf pos s errs) (h : (s.dropWhile isDigit).head? ≠ some 46) :
    tl (number tf pos s errs) = plainTl (s.takeWhile isDigit) (s.dropWhile isDigit) s := by
  unfold number plainTl
  simp only
  split
  · rename_i he; rw [he] at h; exact absurd rfl h
  · split
    · rw [float_tl]
    · split
      · cases hr : s.dropWhile isDigit with
        | nil => simp [hexDigits, suffixLen, tl]
        | cons x r1 =>
          dsimp only
          by_cases hx : (x == 120 || x == 88) = true
          · simp only [hexDigits, hx, Bool.true_and, if_true]
            by_cases hh : r1.takeWhile isHexDigit = []
            · simp only [hh, List.length_nil, ne_eq, not_true_eq_false, decide_false, Bool.false_eq_true, if_false]
              split
              · rw [float_tl]; rfl
              · rfl
            · have : decide ((r1.takeWhile isHexDigit).length ≠ 0) = true := by simpa using hh
              simp only [this, if_true, hh, ne_eq, not_false_eq_true]
              simp [tl, int_fst]
          · simp only [hexDigits, hx, Bool.false_and, Bool.false_eq_true, if_false, ne_eq, not_true_eq_false]
            split
            · rw [float_tl]; rfl
            · rfl
      · generalize s.takeWhile isDigit = ds
        split
        · rename_i d2 ds'
          by_cases h : isOctDigit d2 = true <;> simp [tl, int_fst, h]
        · rename_i hne
          by_cases hx : suffixLen (s.dropWhile isDigit) = 1
          · rw [if_pos hx, if_pos hx, float_tl]
            simp only [if_true]
            rfl
          · rw [if_neg hx, if_neg hx]
            split
            · exact (hne _ _ rfl).elim
            · simp [tl, int_fst]

theorem number_point (tf pos s errs) {t} (h : s.dropWhile isDigit = 46 :: t) : tl (number tf pos s errs) =
    let n := (s.takeWhile isDigit).length + 1 + ((t.takeWhile isDigit).length + exponentLen (t.dropWhile isDigit) +
        suffixLen ((t.dropWhile isDigit).drop (exponentLen (t.dropWhile isDigit))))
    (.float (s.take (if suffixLen ((t.dropWhile isDigit).drop (exponentLen (t.dropWhile isDigit))) == 1 then n - 1 else n)), n) := by
  unfold number
  simp only [h]
  rw [float_tl]
  simp only [Nat.add_assoc]

theorem plainTl_cut {ds r Z s s' : Bytes} (a : Bytes) (h : (plainTl ds (a ++ r) s).2 ≤ ds.length + a.length)
    (hs : ∀ n, n ≤ ds.length + a.length → s'.take n = s.take n) (hds : ds ≠ []) : plainTl ds (a ++ 10 :: Z) s' = plainTl ds (a ++ r) s := by
  have he : exponentLen (a ++ r) ≤ a.length := by
    by_cases h0 : exponentLen (a ++ r) = 0
    · omega
    · unfold plainTl at h
      rw [if_pos h0] at h
      dsimp only at h
      omega
  have he' := exp_cut (Z := Z) a he
  unfold plainTl at h ⊢
  rw [he']
  split
  · rename_i h0
    rw [if_pos h0] at h
    dsimp only at h ⊢
    rw [drop_cut he] at h ⊢
    rw [drop_cut he, suffix_cut (r := r) _ (by rw [List.length_drop]; omega)]
    rw [hs]
    split <;> omega
  · rename_i h0
    rw [if_neg h0] at h
    split
    · rename_i h1
      rw [if_pos h1] at h
      have hx := hex_cut (r := r) (Z := Z) a (by
        by_cases hx : hexDigits (a ++ r) = []
        · exact .inl hx
        · rw [if_pos hx] at h
          dsimp only at h
          rw [h1] at h
          simp at h
          exact .inr (by omega))
      rw [hx]
      split
      · rfl
      · rename_i h2
        rw [if_neg h2] at h
        have h3 := suffix_cut (r := r) (Z := Z) a (by
          by_cases h3 : suffixLen (a ++ r) = 1
          · rw [if_pos h3] at h
            dsimp only at h
            rw [h1] at h
            simp at h
            omega
          · have : suffixLen (a ++ r) = 0 := by
              unfold suffixLen at h3 ⊢
              split
              · rename_i he
                rw [he] at h3
                split
                · simp_all
                · rfl
              · rfl
            omega)
        rw [h3]
        split
        · rw [hs 1 (by rw [h1]; simp)]
        · rfl
    · rename_i h1
      rw [if_neg h1] at h
      split
      · rfl
      · rename_i hne
        have h3 := suffix_cut (r := r) (Z := Z) a (by
          by_cases h3 : suffixLen (a ++ r) = 1
          · split at h
            · exact absurd rfl (hne _ _)
            · rw [if_pos h3] at h
              dsimp only at h
              omega
          · have : suffixLen (a ++ r) = 0 := by
              unfold suffixLen at h3 ⊢
              split
              · rename_i he
                rw [he] at h3
                split
                · simp_all
                · rfl
              · rfl
            omega)
        rw [h3]
        split
        · rw [hs _ (by omega)]
        · rfl

theorem plainTl_le (ds r s) : ds.length ≤ (plainTl ds r s).2 := by
  unfold plainTl
  split
  · dsimp only; omega
  · split
    · rename_i h
      rw [h]
      (repeat' split) <;> simp <;> omega
    · (repeat' split) <;> simp

theorem number_cut {tf tf' pos pos' errs errs'} {r Z : Bytes} (a : Bytes) (hd : (a ++ r).takeWhile isDigit ≠ [])
    (h : (tl (number tf pos (a ++ r) errs)).2 ≤ a.length) :
    tl (number tf' pos' (a ++ 10 :: Z) errs') = tl (number tf pos (a ++ r) errs) := by
  have hs : ∀ n, n ≤ a.length → (a ++ 10 :: Z).take n = (a ++ r).take n := fun n hn => take_cut hn
  by_cases hp : ((a ++ r).dropWhile isDigit).head? = some 46
  · obtain ⟨t, ht⟩ : ∃ t, (a ++ r).dropWhile isDigit = 46 :: t := by
      cases hx : (a ++ r).dropWhile isDigit with
      | nil => rw [hx] at hp; cases hp
      | cons b t => rw [hx] at hp; cases hp; exact ⟨t, rfl⟩
    rw [number_point _ _ _ _ ht] at h ⊢
    dsimp only at h ⊢
    obtain ⟨h1, a', h2, h3, h4⟩ := tw_cut (p := isDigit) rfl (r := r) (Z := Z) a (by omega)
    cases a' with
    | nil => simp at h4; omega
    | cons b a' =>
      rw [h2, List.cons_append] at ht
      obtain ⟨rfl, rfl⟩ := List.cons.inj ht
      rw [List.cons_append] at h3
      rw [number_point _ _ _ _ h3]
      dsimp only
      simp only [List.length_cons] at h4
      obtain ⟨f1, f2, f3⟩ := frac_cut (r := r) (Z := Z) a' (by omega)
      rw [h1, f1, f2, f3, hs]
      split <;> omega
  · rw [number_plain _ _ _ _ hp] at h ⊢
    have hle := plainTl_le ((a ++ r).takeWhile isDigit) ((a ++ r).dropWhile isDigit) (a ++ r)
    obtain ⟨h1, a', h2, h3, h4⟩ := tw_cut (p := isDigit) rfl (r := r) (Z := Z) a (by omega)
    rw [h2] at h hp ⊢
    rw [number_plain, h1, h3]
    · exact plainTl_cut a' (by omega) (fun n hn => hs n (by omega)) hd
    · rw [h3]
      cases a' with
      | nil => nofun
      | cons b a' => exact hp

end Verif.Lex
