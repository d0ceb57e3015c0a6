import Verif.Proofs.Text
/-! The lexer cuts the source between characters. -/
namespace Verif.Text
open Lex

/-- The ends of all spans of all errors satisfy `P`. -/
def ErrsB (P : Nat → Prop) (errs : List ParseErrorKind) : Prop := ∀ e ∈ errs, ∀ s ∈ e.spans, P s.start ∧ P s.stop

theorem ErrsB.nil {P} : ErrsB P [] := nofun

theorem ErrsB.append {P errs e} (h : ErrsB P errs) (he : ∀ s ∈ ParseErrorKind.spans e, P s.start ∧ P s.stop) :
    ErrsB P (errs ++ [e]) := by
  intro x hx
  rcases List.mem_append.1 hx with h1 | h1
  · exact h x h1
  · rw [List.mem_singleton] at h1; subst h1; exact he

theorem ErrsB.one {P errs e s} (h : ErrsB P errs) (he : ParseErrorKind.spans e = [s]) (h1 : P s.start) (h2 : P s.stop) :
    ErrsB P (errs ++ [e]) := by
  refine h.append fun x hx => ?_
  rw [he, List.mem_singleton] at hx; subst hx; exact ⟨h1, h2⟩

/-- `s` is text, and `P` holds where it can be cut. -/
structure PV (P : Nat → Prop) (pos : Nat) (s : Bytes) : Prop where
  v : V s
  p : ∀ k, k ≤ s.length → V (s.drop k) → P (pos + k)

theorem PV.here {P pos s} (h : PV P pos s) : P pos := h.p 0 (Nat.zero_le _) h.v

theorem PV.drop {P pos s} (h : PV P pos s) {k} (hk : k ≤ s.length) (hv : V (s.drop k)) : PV P (pos + k) (s.drop k) := by
  refine ⟨hv, fun j hj hv' => ?_⟩
  rw [List.length_drop] at hj
  rw [List.drop_drop] at hv'
  rw [Nat.add_assoc]
  exact h.p _ (by omega) hv'

/-- The first `n` bytes are ASCII. -/
def Asc (s : Bytes) (n : Nat) : Prop := ∀ b ∈ s.take n, b < (128 : UInt8)

theorem Asc.zero {s} : Asc s 0 := nofun
theorem Asc.le {s n m} (h : Asc s n) (hm : m ≤ n) : Asc s m := fun b hb =>
  h b ((List.take_sublist_take_left hm).subset hb)
theorem Asc.add {s n m} (h : Asc s n) (h' : Asc (s.drop n) m) : Asc s (n + m) := by
  intro b hb
  rw [List.take_add, List.mem_append] at hb
  exact hb.elim (h b) (h' b)
theorem Asc.cut {s n} (h : Asc s n) (hv : V s) : V (s.drop n) := v_drop_ascii hv n h
theorem Asc.one {b r} (h : b < (128 : UInt8)) : Asc (b :: r) 1 := by
  intro x hx; simp at hx; subst hx; exact h
theorem Asc.cons {b r n} (h : b < (128 : UInt8)) (h' : Asc r n) : Asc (b :: r) (1 + n) := (Asc.one h).add h'
theorem Asc.while {p : UInt8 → Bool} (hp : ∀ b, p b = true → b < (128 : UInt8)) (s : Bytes) :
    Asc s (s.takeWhile p).length := by
  intro b hb
  rw [take_takeWhile] at hb
  exact hp b (takeWhile_mem hb)

macro "u8" : tactic => `(tactic| (
  intro b h
  simp only [isDigit, isHexDigit, isOctDigit, isIdentCont, isIdentStart, isAlnum, isAlpha, isUpper, isLower, isSkip, isPlain, Bool.or_eq_true, Bool.and_eq_true,
    Bool.not_eq_false', decide_eq_true_eq, beq_iff_eq, UInt8.le_iff_toNat_le, UInt8.lt_iff_toNat_lt, UInt8.reduceToNat,
    ← UInt8.toNat_inj] at h ⊢
  omega))

theorem isDigit_lt : ∀ b : UInt8, isDigit b = true → b < 128 := by u8
theorem isHexDigit_lt : ∀ b : UInt8, isHexDigit b = true → b < 128 := by u8
theorem isOctDigit_lt : ∀ b : UInt8, isOctDigit b = true → b < 128 := by u8
theorem isIdentCont_lt : ∀ b : UInt8, isIdentCont b = true → b < 128 := by u8
theorem isAlpha_lt : ∀ b : UInt8, isAlpha b = true → b < 128 := by u8
theorem isSkip_lt : ∀ b : UInt8, isSkip b = true → b < 128 := by u8
theorem isPlain_lt : ∀ b : UInt8, isPlain b = false → b < 128 := by u8

theorem asc_suffix (s : Bytes) : Asc s (suffixLen s) := by
  unfold suffixLen
  split
  · rename_i b r
    split
    · rename_i h
      exact Asc.one (by simp only [Bool.or_eq_true, beq_iff_eq] at h; rcases h with rfl | rfl <;> decide)
    · exact Asc.zero
  · exact Asc.zero

theorem asc_exponent (s : Bytes) : Asc s (exponentLen s) := by
  unfold exponentLen
  split
  · rename_i e r
    split
    · rename_i he
      have he : e < 128 := by simp only [Bool.or_eq_true, beq_iff_eq] at he; rcases he with rfl | rfl <;> decide
      split
      · rename_i x r'
        split
        · rename_i hx
          have hx : x < 128 := by simp only [Bool.or_eq_true, beq_iff_eq] at hx; rcases hx with rfl | rfl <;> decide
          split
          · exact Asc.zero
          · rw [show ∀ n, 2 + n = 1 + (1 + n) by omega]
            exact .cons he (.cons hx (.while isDigit_lt _))
        · split
          · exact Asc.zero
          · exact .cons he (.while isDigit_lt _)
      · exact Asc.zero
    · exact Asc.zero
  · exact Asc.zero

/-- What holds of every lexing function on the text `s`. -/
structure GoodT {T : Type} (s : Bytes) (f : Bool → Nat → List ParseErrorKind → T × Nat × List ParseErrorKind) : Prop where
  cut : ∀ tf pos errs, V (s.drop (f tf pos errs).2.1)
  errs : ∀ P tf pos errs, PV P pos s → ErrsB P errs → ErrsB P (f tf pos errs).2.2

theorem goodT_const {T : Type} {s : Bytes} {n : Nat} (t : T) (h : V (s.drop n)) :
    GoodT s (fun _ _ errs => (t, n, errs)) := ⟨fun _ _ _ => h, fun _ _ _ _ _ h => h⟩

theorem goodT_float {s : Bytes} {n : Nat} (hs : Bool) (hv : V s) (h : Asc s n) (hn : n ≤ s.length) :
    GoodT s (fun tf pos errs => float tf pos n hs s errs) := by
  refine ⟨fun _ _ _ => by rw [float_len]; exact h.cut hv, fun P tf pos errs hp he => ?_⟩
  unfold float
  split
  · simp only
    split
    · exact he
    · exact he.one rfl hp.here (hp.p _ hn (h.cut hv))
  · exact he

theorem noSpace_b {P errs pos s n a} (hp : PV P pos s) (h : Asc s n) (hn : n ≤ s.length) (ha : a ≤ n) (he : ErrsB P errs) :
    ErrsB P (noSpace ⟨pos + a, pos + n⟩ (s.drop n) errs) := by
  unfold noSpace
  split
  · rename_i ch r hr
    split
    · rename_i hc
      have hch : ch < 128 := by
        simp only [Bool.or_eq_true, beq_iff_eq] at hc
        rcases hc with h | rfl
        · exact isAlpha_lt _ h
        · decide
      have h1 : Asc s (n + (1 + (r.takeWhile isAlpha).length)) := by
        refine h.add ?_
        rw [hr]; exact .cons hch (.while isAlpha_lt r)
      have hl := takeWhile_length_le isAlpha r
      have hlen : s.length - n = r.length + 1 := by rw [← List.length_drop, hr, List.length_cons]
      refine he.one rfl (hp.p _ (by omega) ((h.le ha).cut hp.v)) ?_
      have := hp.p _ (by omega) (h1.cut hp.v)
      simp only [Nat.add_assoc] at this ⊢
      exact this
    · exact he
  · exact he

theorem goodT_int {s : Bytes} {radix pre n : Nat} {ds rest : Bytes} (hv : V s) (h : Asc s n) (hn : n ≤ s.length)
    (hpre : pre ≤ n) (hrest : rest = s.drop n) :
    GoodT s (fun _ pos errs =>
      (Token.int (int radix pre pos n ds rest errs).1, n, (int radix pre pos n ds rest errs).2)) := by
  refine ⟨fun _ _ _ => h.cut hv, fun P tf pos errs hp he => ?_⟩
  subst hrest
  unfold int
  have h1 := noSpace_b hp h hn hpre he
  simp only
  split
  · exact h1
  · exact h1.one rfl (hp.p _ (by omega) ((h.le hpre).cut hv)) (hp.p _ hn (h.cut hv))

theorem goodT_ite {T : Type} {s : Bytes} {c : Prop} [Decidable c]
    {f g : Bool → Nat → List ParseErrorKind → T × Nat × List ParseErrorKind}
    (hf : c → GoodT s f) (hg : ¬c → GoodT s g) :
    GoodT s (fun tf pos errs => if c then f tf pos errs else g tf pos errs) := by
  by_cases h : c
  · simpa [h] using hf h
  · simpa [h] using hg h

theorem GoodT.some {T : Type} {s : Bytes} {f : Bool → Nat → List ParseErrorKind → T × Nat × List ParseErrorKind}
    (h : GoodT s f) :
    GoodT s (fun tf pos errs => (some (f tf pos errs).1, (f tf pos errs).2.1, (f tf pos errs).2.2)) := ⟨h.cut, h.errs⟩

theorem goodT_number {s : Bytes} (hv : V s) (hs : s.takeWhile isDigit ≠ []) :
    GoodT s (fun tf pos errs => number tf pos s errs) := by
  have hsplit := takeWhile_dropWhile_length isDigit s
  have hA : Asc s (s.takeWhile isDigit).length := .while isDigit_lt s
  have hD : s.dropWhile isDigit = s.drop (s.takeWhile isDigit).length := (drop_takeWhile _ _).symm
  have hT : s.take (s.takeWhile isDigit).length = s.takeWhile isDigit := take_takeWhile _ _
  unfold number
  simp only
  generalize hr : s.dropWhile isDigit = r at *
  generalize hd : s.takeWhile isDigit = ds at *
  split
  · rename_i r1
    have h1 := takeWhile_dropWhile_length isDigit r1
    have h2 := exponentLen_le (r1.dropWhile isDigit)
    have h3 := suffixLen_le ((r1.dropWhile isDigit).drop (exponentLen (r1.dropWhile isDigit)))
    rw [List.length_drop] at h3
    simp only [List.length_cons] at hsplit
    refine goodT_float _ hv ?_ (by omega)
    rw [show ∀ a b c d, a + 1 + b + c + d = a + (1 + (b + (c + d))) by omega]
    refine hA.add ?_
    rw [← hD]
    refine .cons (by decide) (Asc.add (.while isDigit_lt _) ?_)
    rw [drop_takeWhile]
    exact (asc_exponent _).add (asc_suffix _)
  · apply goodT_ite
    · intro _
      have h2 := exponentLen_le r
      have h3 := suffixLen_le (r.drop (exponentLen r))
      rw [List.length_drop] at h3
      refine goodT_float _ hv ?_ (by omega)
      rw [Nat.add_assoc]
      refine hA.add ?_
      rw [← hD]
      exact (asc_exponent _).add (asc_suffix _)
    · intro _
      apply goodT_ite
      · intro h0
        subst h0
        cases r with
        | nil => exact goodT_const _ (hA.cut hv)
        | cons x r1 =>
          simp only
          have h1 := takeWhile_dropWhile_length isHexDigit r1
          simp only [List.length_cons, List.length_nil] at hsplit
          apply goodT_ite
          · intro hx
            have hx : x < 128 := by
              simp only [Bool.or_eq_true, Bool.and_eq_true, beq_iff_eq] at hx
              rcases hx.1 with rfl | rfl <;> decide
            have hs2 : s.drop 2 = r1 := by
              have : s.drop 2 = (s.drop 1).drop 1 := by rw [List.drop_drop]
              rw [this]
              have h5 : s.drop 1 = x :: r1 := hD.symm
              rw [h5]; rfl
            refine goodT_int hv ?_ (by omega) (by omega) ?_
            · rw [show ∀ n, 2 + n = 1 + (1 + n) by omega]
              refine Asc.add (n := 1) hA ?_
              have h5 : s.drop 1 = x :: r1 := hD.symm
              rw [h5]
              exact .cons hx (.while isHexDigit_lt _)
            · rw [← List.drop_drop, hs2, drop_takeWhile]
          · intro _
            apply goodT_ite
            · intro h6
              refine goodT_float _ hv ?_ (by omega)
              refine Asc.add (n := 1) (m := 1) hA ?_
              have h5 : s.drop 1 = x :: r1 := hD.symm
              rw [h5, ← h6]
              exact asc_suffix _
            · intro _; exact goodT_const _ (hA.cut hv)
      · intro _
        have hend : GoodT s (fun tf pos errs => if suffixLen r = 1 then float tf pos (ds.length + 1) true s errs
            else (Token.int (int 10 0 pos ds.length ds r errs).1, ds.length, (int 10 0 pos ds.length ds r errs).2)) := by
          apply goodT_ite
          · intro h
            have := suffixLen_le r
            refine goodT_float _ hv (hA.add ?_) (by omega)
            rw [← hD, ← h]; exact asc_suffix _
          · intro _
            exact goodT_int hv hA (by omega) (by omega) hD
        rcases ds with _ | ⟨d, _ | ⟨d2, ds'⟩⟩
        · exact absurd rfl hs
        · have h : ∀ (α : Type) (f : UInt8 → Bytes → α) (g : α), (match [d] with | 48 :: d2 :: ds' => f d2 ds' | _ => g) = g := by
            intro α f g; split
            · simp_all
            · rfl
          simpa only [h] using hend
        · by_cases h48 : d = 48
          · subst h48
            simp only
            apply goodT_ite
            · intro _
              exact goodT_int hv hA (by omega) (by simp) hD
            · intro _; exact goodT_const _ (hA.cut hv)
          · split
            · rename_i heq; injection heq with h1 h2; exact absurd h1 h48
            · exact hend

/-! ## Strings -/

theorem charEscape_lt {c v : UInt8} (h : charEscape c = some v) : c < 128 := by
  unfold charEscape at h
  repeat' (split at h; · rename_i hc; rw [beq_iff_eq] at hc; subst hc; decide)
  cases h

theorem asc_take_while {p : UInt8 → Bool} (hp : ∀ b, p b = true → b < (128 : UInt8)) (l : Bytes) (m : Nat) :
    Asc l ((l.take m).takeWhile p).length := by
  intro x hx
  have hk : ((l.take m).takeWhile p).length ≤ m := by
    have := takeWhile_length_le p (l.take m)
    rw [List.length_take] at this; omega
  have : l.take ((l.take m).takeWhile p).length = (l.take m).takeWhile p := by
    conv => rhs; rw [← take_takeWhile p (l.take m)]
    rw [List.take_take, Nat.min_eq_left hk]
  rw [this] at hx
  exact hp x (takeWhile_mem hx)

theorem asc_all {p : UInt8 → Bool} (hp : ∀ b, p b = true → b < (128 : UInt8)) {l : Bytes} {m : Nat}
    (h : (l.take m).all p = true) : Asc l m := fun x hx => hp x (List.all_eq_true.1 h x hx)

theorem v_strComp {b : UInt8} {r : Bytes} (h : V (b :: r)) : V ((b :: r).drop (strComp (b :: r)).2) := by
  simp only [strComp]
  split
  · rename_i hb
    have hb : b < 128 := by simp only [Bool.or_eq_true, beq_iff_eq] at hb; rcases hb with rfl | rfl <;> decide
    exact (Asc.one hb).cut h
  · split
    · rename_i _ hb
      rw [beq_iff_eq] at hb; subst hb
      split
      · exact v_nil
      · rename_i c r'
        split
        · rename_i hc
          have hc : c < 128 := by
            simp only [Bool.or_eq_true, Bool.and_eq_true, beq_iff_eq] at hc
            rcases hc.1 with rfl | rfl <;> decide
          have : Asc (92 :: c :: r') (2 + ((r'.take 2).takeWhile isHexDigit).length) := by
            rw [show ∀ n, 2 + n = 1 + (1 + n) by omega]
            exact .cons (by decide) (.cons hc (asc_take_while isHexDigit_lt _ _))
          exact this.cut h
        · split
          · exact (Asc.cons (by decide) (asc_take_while isOctDigit_lt _ _)).cut h
          · split
            · rename_i hc
              simp only [Bool.and_eq_true, beq_iff_eq] at hc
              obtain ⟨⟨rfl, _⟩, hc⟩ := hc
              exact (Asc.cons (n := 5) (by decide) (.cons (n := 4) (by decide) (asc_all isHexDigit_lt hc))).cut h
            · split
              · rename_i hc
                simp only [Bool.and_eq_true, beq_iff_eq] at hc
                obtain ⟨⟨rfl, _⟩, hc⟩ := hc
                exact (Asc.cons (n := 9) (by decide) (.cons (n := 8) (by decide) (asc_all isHexDigit_lt hc))).cut h
              · split
                · rename_i hc
                  exact (Asc.cons (n := 1) (by decide) (.one (charEscape_lt hc))).cut h
                · exact (v_errLen h).2
    · split
      · rw [drop_takeWhile]
        exact (v_while isPlain_lt h).2
      · exact (v_errLen h).2

theorem strError_b {P sl span errs} (h : ErrsB P errs) (h1 : P span.start) (h2 : P span.stop) :
    ErrsB P (strError sl span errs) := by
  have fresh : ErrsB P (if sl.head? = some 92 then errs ++ [.invalidStringEscape span]
    else errs ++ [.invalidStringCharacters span]) := by
    split <;> exact h.one rfl h1 h2
  have merge : ∀ (k : Span → ParseErrorKind) (_ : ∀ s, (k s).spans = [s]) (e : Span),
      errs.getLast? = some (k e) → ErrsB P (errs.dropLast ++ [k ⟨e.start, span.stop⟩]) := by
    intro k hk e hl
    have hok := h (k e) (List.mem_of_getLast? hl) e (by simp [hk])
    exact ErrsB.one (fun x hx => h x ((List.dropLast_sublist _).subset hx)) (hk _) hok.1 h2
  unfold strError
  simp only
  split
  · rename_i e hl
    split
    · exact merge _ (fun _ => rfl) e hl
    · exact fresh
  · rename_i e hl
    split
    · exact merge _ (fun _ => rfl) e hl
    · exact fresh
  · exact fresh

theorem v_strLoop (term : UInt8) : ∀ (fuel pos : Nat) (s : Bytes) (n : Nat) (acc errs), V s →
    ∃ m, (strLoop term fuel pos s n acc errs).2.1 = n + m ∧ V (s.drop m) := by
  intro fuel
  induction fuel with
  | zero => intro pos s n acc errs h; exact ⟨0, rfl, h⟩
  | succ fuel ih =>
    intro pos s n acc errs h
    simp only [strLoop]
    cases s with
    | nil => exact ⟨0, rfl, h⟩
    | cons b r =>
      simp only
      have hv := v_strComp h
      have hstep : ∀ (len : Nat) pos' acc' errs', V ((b :: r).drop len) →
          ∃ m, (strLoop term fuel pos' ((b :: r).drop len) (n + len) acc' errs').2.1 = n + m ∧ V ((b :: r).drop m) := by
        intro len pos' acc' errs' hl
        obtain ⟨m, h1, h2⟩ := ih pos' _ (n + len) acc' errs' hl
        exact ⟨len + m, by rw [h1]; omega, by rw [List.drop_drop] at h2; exact h2⟩
      split
      all_goals (rename_i heq; rw [heq] at hv; simp only at hv)
      · exact hstep _ _ _ _ hv
      · split
        · exact ⟨_, rfl, hv⟩
        · exact hstep _ _ _ _ hv
      · exact hstep _ _ _ _ hv
      · exact hstep _ _ _ _ hv
      · split
        · exact ⟨_, rfl, hv⟩
        · exact hstep _ _ _ _ hv

theorem strLoop_b {P} (term : UInt8) : ∀ (fuel pos : Nat) (s : Bytes) (n : Nat) (acc errs), PV P pos s → ErrsB P errs →
    ErrsB P (strLoop term fuel pos s n acc errs).2.2 := by
  intro fuel
  induction fuel with
  | zero => intro pos s n acc errs _ h; exact h
  | succ fuel ih =>
    intro pos s n acc errs hp h
    simp only [strLoop]
    cases s with
    | nil => exact h.append (by simp [ParseErrorKind.spans])
    | cons b r =>
      simp only
      have hl := strComp_len (b :: r) (by simp)
      have hd := hp.drop hl.2 (v_strComp hp.v)
      split
      all_goals (rename_i heq; rw [heq] at hd; simp only at hd)
      · exact ih _ _ _ _ _ hd h
      · split
        · exact h
        · exact ih _ _ _ _ _ hd h
      · exact ih _ _ _ _ _ hd h
      · exact ih _ _ _ _ _ hd h
      · split
        · exact h.one rfl hp.here hd.here
        · exact ih _ _ _ _ _ hd (strError_b h hp.here hd.here)

theorem goodT_string {q : UInt8} {r : Bytes} (hq : q < 128) (hv : V (q :: r)) :
    GoodT (q :: r) (fun _ pos errs => string pos q r errs) := by
  have hr : V r := (v_ascii hq).1 hv
  constructor
  · intro _ pos errs
    obtain ⟨m, h1, h2⟩ := v_strLoop q (r.length + 1) (pos + 1) r 0 [] errs hr
    simp only [string, h1]
    rw [show 1 + (0 + m) = m + 1 by omega, List.drop_succ_cons]; exact h2
  · intro P _ pos errs hp he
    exact strLoop_b q _ _ _ _ _ _ (hp.drop (k := 1) (by simp) hr) he

/-! ## Comments -/

theorem normalize_ne {c : UInt8} (hc : c ≠ 13) (t : Bytes) : normalizeNewlines (c :: t) = c :: normalizeNewlines t := by
  rw [normalizeNewlines.eq_def]
  split
  · rename_i h; injection h with h1 _; exact absurd h1 hc
  · rename_i h; injection h with h1 h2; rw [h1, h2]
  · rename_i h; cases h

theorem normalize_pass {cs : Bytes} (h : ∀ c ∈ cs, c ≠ 13) (t : Bytes) :
    normalizeNewlines (cs ++ t) = cs ++ normalizeNewlines t := by
  induction cs with
  | nil => rfl
  | cons c cs ih =>
    rw [List.cons_append, normalize_ne (h c (by simp)), ih fun x hx => h x (by simp [hx]), List.cons_append]

theorem cont_ne13 {c : UInt8} (h : isCont c = true) : c ≠ 13 := by
  rintro rfl; cases h

theorem v_normalize {s : Bytes} (h : V s) : V (normalizeNewlines s) := by
  generalize hn : s.length = n
  induction n using Nat.strongRecOn generalizing s with
  | ind n ih =>
    cases s with
    | nil => exact v_nil
    | cons b r =>
      by_cases hb : b = 13
      · subst hb
        have hr : V r := (v_ascii (by decide)).1 h
        rw [normalizeNewlines.eq_def]
        split
        · rename_i r' heq
          injection heq with _ heq
          subst heq
          rw [v_ascii (by decide)] at hr ⊢
          exact ih _ (by subst hn; simp; omega) hr rfl
        · rename_i heq
          injection heq with h1 h2
          subst h1 h2
          rw [v_ascii (by decide)]
          exact ih _ (by subst hn; simp) hr rfl
        · rename_i heq; cases heq
      · obtain ⟨cs, t, rfl, h1, h2, h3⟩ := utf8_char h
        have ht : V t := by unfold V; rw [← h3]; exact h
        rw [normalize_ne hb, normalize_pass fun c hc => cont_ne13 (h1 c hc)]
        unfold V; rw [h3]
        exact ih _ (by subst hn; simp; omega) ht rfl

/-- A character of three bytes. -/
theorem v_three {a b c : UInt8} {r : Bytes} (h : V [a, b, c]) (h' : V (a :: b :: c :: r)) : V r :=
  v_of_append (a := [a, b, c]) h h'
theorem v_two {a b : UInt8} {r : Bytes} (h : V [a, b]) (h' : V (a :: b :: r)) : V r :=
  v_of_append (a := [a, b]) h h'

/-- The first three bytes are one character. -/
theorem v_e2 {c : UInt8} {r : Bytes} (h' : V (0xE2 :: 0x80 :: c :: r)) : V r := by
  unfold V at h'
  rw [utf8Valid.eq_def] at h'
  simp at h'
  exact h'.2

theorem v_trim {s : Bytes} (h : V s) : V (trimStart s) ∧ ∃ pre, s = pre ++ trimStart s := by
  generalize hn : s.length = n
  induction n using Nat.strongRecOn generalizing s with
  | ind n ih =>
    cases s with
    | nil => exact ⟨v_nil, [], rfl⟩
    | cons b r =>
      have key : ∀ (pre r' : Bytes), pre ≠ [] → b :: r = pre ++ r' → V r' →
          V (trimStart r') ∧ ∃ pre, b :: r = pre ++ trimStart r' := by
        intro pre r' hne he hv
        obtain ⟨h1, p, h2⟩ := ih r'.length (by
          subst hn; rw [he, List.length_append]
          have : 0 < pre.length := List.length_pos_iff.2 hne
          omega) hv rfl
        exact ⟨h1, pre ++ p, by rw [he, List.append_assoc, ← h2]⟩
      have stay : V (b :: r) ∧ ∃ pre, b :: r = pre ++ b :: r := ⟨h, [], rfl⟩
      unfold trimStart
      split
      · rename_i hb
        have hb : b < 128 := by
          simp only [Bool.or_eq_true, Bool.and_eq_true, decide_eq_true_eq, beq_iff_eq, UInt8.le_iff_toNat_le,
            UInt8.lt_iff_toNat_lt, UInt8.reduceToNat, ← UInt8.toNat_inj] at hb ⊢
          omega
        exact key [b] r (by simp) rfl ((v_ascii hb).1 h)
      · split
        · split
          · rename_i hc
            refine key [_, _] _ (by simp) rfl ?_
            simp only [Bool.or_eq_true, beq_iff_eq] at hc
            rcases hc with rfl | rfl <;> exact v_two (by decide) h
          · exact stay
        · exact key [_, _, _] _ (by simp) rfl (v_three (by decide) h)
        · split
          · exact key [_, _, _] _ (by simp) rfl (v_e2 h)
          · exact stay
        · exact key [_, _, _] _ (by simp) rfl (v_three (by decide) h)
        · exact key [_, _, _] _ (by simp) rfl (v_three (by decide) h)
        · exact stay

theorem v_skipStar {s : Bytes} (h : V s) : V (skipStar s) ∧ ∃ pre, s = pre ++ skipStar s := by
  unfold skipStar
  split
  · exact ⟨h, [], rfl⟩
  · exact ⟨(v_ascii (by decide)).1 h, [42], rfl⟩
  · exact ⟨h, [], rfl⟩

/-- The rest after a newline inside a block comment. -/
theorem v_newline {r : Bytes} (h : V r) : V (skipStar (trimStart r)) ∧
    skipStar (trimStart r) = (10 :: r).drop ((10 :: r).length - (skipStar (trimStart r)).length) := by
  obtain ⟨h1, p, h2⟩ := v_trim h
  obtain ⟨h3, q, h4⟩ := v_skipStar h1
  refine ⟨h3, ?_⟩
  generalize skipStar (trimStart r) = t at *
  have : 10 :: r = (10 :: p ++ q) ++ t := by rw [h2, h4]; simp
  rw [this, List.length_append, Nat.add_sub_cancel, List.drop_left]

theorem v_commentLoop (r0 : Bytes) : ∀ (fuel pos : Nat) (s : Bytes) (n total depth : Nat) (lastEnd : Option Nat) (acc errs),
    V s → s = r0.drop n → total = r0.length → (∀ e, lastEnd = some e → V (r0.drop e)) → V acc →
    V (r0.drop (commentLoop fuel pos s n total depth lastEnd acc errs).2.1) ∧
      V (commentLoop fuel pos s n total depth lastEnd acc errs).1 := by
  intro fuel
  induction fuel with
  | zero => intro pos s n total depth lastEnd acc errs hv hs ht he ha; exact ⟨hs ▸ hv, ha⟩
  | succ fuel ih =>
    intro pos s n total depth lastEnd acc errs hv hs ht he ha
    simp only [commentLoop]
    split
    · split
      · exact ⟨he _ rfl, ha⟩
      · subst ht; exact ⟨by rw [List.drop_length]; exact v_nil, ha⟩
    · rename_i r
      have hA : V ((42 :: 47 :: r).drop (2 + (r.takeWhile isSkip).length)) := by
        rw [show ∀ n, 2 + n = 1 + (1 + n) by omega]
        exact (Asc.cons (by decide) (.cons (by decide) (.while isSkip_lt r))).cut hv
      have hd : (42 :: 47 :: r).drop (2 + (r.takeWhile isSkip).length) =
          r0.drop (n + (2 + (r.takeWhile isSkip).length)) := by rw [hs, List.drop_drop]
      split
      · exact ⟨by rw [← hd]; exact hA, ha⟩
      · refine ih _ _ _ _ _ _ _ _ hA hd ht (fun e h' => ?_) ha
        injection h' with h'
        rw [← h', ← hd]; exact hA
    · rename_i r
      refine ih _ _ _ _ _ _ _ _ ?_ ?_ ht he ha
      · exact (Asc.cons (n := 1) (r := 42 :: r) (by decide) (.one (by decide))).cut hv
      · rw [← List.drop_drop, ← hs]; rfl
    · rename_i r
      have hr : V r := (v_ascii (by decide)).1 hv
      obtain ⟨h1, h2⟩ := v_newline hr
      refine ih _ _ _ _ _ _ _ _ h1 ?_ ht he (v_append ha rfl)
      rw [← List.drop_drop, ← hs]; exact h2
    · rename_i b r _ _ _
      obtain ⟨h1, h2⟩ := v_errLen hv
      refine ih _ _ _ _ _ _ _ _ h2 ?_ ht he (v_append ha h1)
      rw [← List.drop_drop, ← hs]

theorem commentLoop_b {P} : ∀ (fuel pos : Nat) (s : Bytes) (n total depth : Nat) (lastEnd : Option Nat) (acc errs),
    PV P pos s → ErrsB P errs → ErrsB P (commentLoop fuel pos s n total depth lastEnd acc errs).2.2 := by
  intro fuel
  induction fuel with
  | zero => intro pos s n total depth lastEnd acc errs _ h; exact h
  | succ fuel ih =>
    intro pos s n total depth lastEnd acc errs hp h
    simp only [commentLoop]
    split
    · split
      · exact h
      · exact h.append (by simp [ParseErrorKind.spans])
    · rename_i r
      split
      · exact h
      · have := takeWhile_length_le isSkip r
        refine ih _ _ _ _ _ _ _ _ (hp.drop (by simp; omega) ?_) h
        rw [show ∀ n, 2 + n = 1 + (1 + n) by omega]
        exact (Asc.cons (by decide) (.cons (by decide) (.while isSkip_lt r))).cut hp.v
    · rename_i r
      have hd : PV P (pos + 2) r := hp.drop (k := 2) (by simp)
        ((Asc.cons (n := 1) (r := 42 :: r) (by decide) (.one (by decide))).cut hp.v)
      exact ih _ _ _ _ _ _ _ _ hd (h.one rfl hp.here hd.here)
    · rename_i r
      have hr : V r := (v_ascii (by decide)).1 hp.v
      obtain ⟨h1, h2⟩ := v_newline hr
      have := hp.drop (k := (10 :: r).length - (skipStar (trimStart r)).length) (by omega) (h2 ▸ h1)
      rw [← h2] at this
      exact ih _ _ _ _ _ _ _ _ this h
    · rename_i b r _ _ _
      exact ih _ _ _ _ _ _ _ _ (hp.drop (errLen_bounds _ (by simp)).2 (v_errLen hp.v).2) h

theorem goodT_block {r : Bytes} (hv : V (47 :: 42 :: r)) :
    GoodT (47 :: 42 :: r) (fun _ pos errs => blockComment pos r errs) ∧
      ∀ pos errs, ∃ t, (blockComment pos r errs).1 = .blockComment t ∧ V t := by
  have hr : V r := by rw [v_ascii (by decide), v_ascii (by decide)] at hv; exact hv
  have key := fun pos errs => v_commentLoop r (r.length + 1) (pos + 2) r 0 r.length 1 none [] errs hr rfl rfl nofun v_nil
  refine ⟨⟨fun _ pos errs => ?_, fun P _ pos errs hp he => ?_⟩, fun pos errs => ⟨_, rfl, v_normalize (key pos errs).2⟩⟩
  · simp only [blockComment]
    rw [Nat.add_comm, List.drop_succ_cons, List.drop_succ_cons]
    exact (key pos errs).1
  · exact commentLoop_b _ _ _ _ _ _ _ _ _ (hp.drop (k := 2) (by simp) hr) he

theorem goodT_line {s : Bytes} {pre : Nat} (hash : Bool) (hv : V s) (ha : Asc s pre) (h2 : pre ≤ s.length) :
    GoodT s (fun tf pos errs => lineComment tf pos pre hash s errs) ∧
      ∀ tf pos errs, ∃ t, (lineComment tf pos pre hash s errs).1 = .lineComment t ∧ V t := by
  have hd := ha.cut hv
  have hw := v_while (p := (· != 10)) (fun b h => by simp at h; subst h; decide) hd
  have hsp := List.takeWhile_append_dropWhile (p := (· != 10)) (l := s.drop pre)
  have hlen := takeWhile_dropWhile_length (· != 10) (s.drop pre)
  rw [List.length_drop] at hlen
  have hcut : ∀ tf pos errs, V (s.drop (lineComment tf pos pre hash s errs).2.1) ∧
      (lineComment tf pos pre hash s errs).2.1 ≤ s.length := by
    intro tf pos errs
    simp only [lineComment]
    rw [Nat.add_assoc, ← List.drop_drop, ← List.drop_drop, drop_takeWhile]
    split
    · rename_i x r heq
      rw [heq] at hw hlen
      have hx : x = 10 := by
        have := List.head?_dropWhile_not (· != 10) (s.drop pre)
        rw [heq] at this
        simpa using this
      subst hx
      rw [heq]
      refine ⟨(v_ascii (by decide)).1 hw.2, ?_⟩
      simp only [List.length_cons] at hlen; omega
    · rename_i heq
      rw [heq] at hw hlen
      rw [heq]
      exact ⟨v_nil, by omega⟩
  refine ⟨⟨fun tf pos errs => (hcut tf pos errs).1, fun P tf pos errs hp he => ?_⟩, fun tf pos errs => ⟨_, rfl, v_normalize ?_⟩⟩
  · have h := hcut tf pos errs
    simp only [lineComment] at h ⊢
    split
    · exact he.one rfl hp.here (hp.p _ h.2 h.1)
    · exact he
  · rw [List.take_add, take_takeWhile, drop_takeWhile]
    refine v_append hw.1 ?_
    split
    · rename_i x r heq
      have hx : x = 10 := by
        have := List.head?_dropWhile_not (· != 10) (s.drop pre)
        rw [heq] at this
        simpa using this
      subst hx
      rw [heq]; rfl
    · rename_i heq
      rw [heq]; rfl

/-! ## Tokens -/

/-- The text of a comment. -/
def textOf : Token → Option Bytes
  | .lineComment t => some t
  | .blockComment t => some t
  | .ident t => some t
  | _ => none

/-- What a comment or an identifier says is text. -/
def TokV (t : Token) : Prop := ∀ b, textOf t = some b → V b

theorem number_tokV (tf pos s errs) : TokV (number tf pos s errs).1 := by
  have hfl : ∀ n h, TokV (float tf pos n h s errs).1 := by
    intro n h b hb
    unfold float at hb
    split at hb <;> cases hb
  unfold number
  simp only
  split
  · exact hfl _ _
  · split
    · exact hfl _ _
    · split
      · split
        · split
          · exact nofun
          · split
            · exact hfl _ _
            · exact nofun
        · exact nofun
      · split
        · split <;> exact nofun
        · split
          · exact hfl _ _
          · exact nofun

theorem ite_all {T : Type} {c : Prop} [Decidable c] {p : T → Prop} {a b : T} (ha : c → p a) (hb : ¬c → p b) :
    p (if c then a else b) := by
  split
  · exact ha ‹_›
  · exact hb ‹_›

theorem ite_tok {b k : UInt8} {x t : Token} {y : Option Token} (h : (if b == k then some x else y) = some t) :
    (b = k ∧ t = x) ∨ y = some t := by
  split at h
  · rename_i hc
    injection h with h
    exact .inl ⟨beq_iff_eq.1 hc, h.symm⟩
  · exact .inr h

theorem punct_lt {b : UInt8} {t} (h : punct b = some t) : b < 128 ∧ textOf t = none := by
  unfold punct at h
  iterate 17 (
    rcases ite_tok h with ⟨rfl, rfl⟩ | h
    · exact ⟨by decide, rfl⟩)
  cases h

theorem goodT_lexToken {s : Bytes} (hs : s ≠ []) (hv : V s) :
    GoodT s (fun tf pos errs => lexToken tf pos s errs) := by
  cases s with
  | nil => exact absurd rfl hs
  | cons b r =>
    unfold lexToken
    simp only
    apply goodT_ite
    · intro h
      exact goodT_const _ ((Asc.while isIdentCont_lt _).cut hv)
    · intro _
      apply goodT_ite
      · intro h
        exact (goodT_number hv (by simp [h])).some
      · intro _
        apply goodT_ite
        · intro hb
          apply GoodT.some
          have h1 := takeWhile_dropWhile_length isDigit r
          have h2 := exponentLen_le (r.dropWhile isDigit)
          have h3 := suffixLen_le ((r.dropWhile isDigit).drop (exponentLen (r.dropWhile isDigit)))
          rw [List.length_drop] at h3
          simp only [Bool.and_eq_true, beq_iff_eq] at hb
          refine goodT_float _ hv ?_ (by simp only [List.length_cons]; omega)
          rw [show ∀ a b c, 1 + a + b + c = 1 + (a + (b + c)) by omega, hb.1]
          refine .cons (by decide) (Asc.add (.while isDigit_lt _) ?_)
          rw [drop_takeWhile]
          exact (asc_exponent _).add (asc_suffix _)
        · intro _
          apply goodT_ite
          · intro hb
            refine (goodT_string ?_ hv).some
            simp only [Bool.or_eq_true, beq_iff_eq] at hb
            rcases hb with rfl | rfl <;> decide
          · intro _
            apply goodT_ite
            · intro hb
              rw [beq_iff_eq] at hb; subst hb
              exact (goodT_line true hv (.one (by decide)) (by simp)).1.some
            · intro _
              apply goodT_ite
              · intro h
                cases r with
                | nil => simp at h
                | cons c r =>
                  simp at h
                  obtain ⟨rfl, rfl⟩ := h
                  exact (goodT_line false hv (Asc.cons (n := 1) (by decide) (.one (by decide))) (by simp)).1.some
              · intro _
                apply goodT_ite
                · intro h
                  cases r with
                  | nil => simp at h
                  | cons c r =>
                    simp at h
                    obtain ⟨rfl, rfl⟩ := h
                    exact (goodT_block hv).1.some
                · intro _
                  split
                  · rename_i h
                    exact goodT_const _ ((Asc.one (punct_lt h).1).cut hv)
                  · exact goodT_const _ (v_errLen hv).2

theorem lexToken_tokV {s : Bytes} (hv : V s) (tf pos errs t) (h : (lexToken tf pos s errs).1 = some t) : TokV t := by
  cases s with
  | nil => cases h
  | cons b r =>
    revert h
    unfold lexToken
    simp only
    refine ite_all (p := fun x : Option Token × Nat × List ParseErrorKind => x.1 = some t → TokV t) ?_ fun _ => ite_all (p := fun x : Option Token × Nat × List ParseErrorKind => x.1 = some t → TokV t) ?_ fun _ =>
      ite_all (p := fun x : Option Token × Nat × List ParseErrorKind => x.1 = some t → TokV t) ?_ fun _ => ite_all (p := fun x : Option Token × Nat × List ParseErrorKind => x.1 = some t → TokV t) ?_ fun _ =>
      ite_all (p := fun x : Option Token × Nat × List ParseErrorKind => x.1 = some t → TokV t) ?_ fun _ => ite_all (p := fun x : Option Token × Nat × List ParseErrorKind => x.1 = some t → TokV t) ?_ fun _ =>
      ite_all (p := fun x : Option Token × Nat × List ParseErrorKind => x.1 = some t → TokV t) ?_ fun _ => ?_
    · rintro _ h
      injection h with h; subst h
      intro x hx
      injection hx with hx; subst hx
      exact v_all_ascii fun x hx => isIdentCont_lt x (takeWhile_mem hx)
    · rintro _ h
      injection h with h; subst h
      exact number_tokV _ _ _ _
    · rintro _ h
      injection h with h; subst h
      intro x hx
      unfold float at hx
      split at hx <;> cases hx
    · rintro _ h
      injection h with h; subst h
      nofun
    · rintro hb h
      injection h with h; subst h
      rw [beq_iff_eq] at hb; subst hb
      obtain ⟨x, h1, h2⟩ := (goodT_line (pre := 1) true hv (.one (by decide)) (by simp)).2 tf pos errs
      rw [h1]
      intro y hy; injection hy with hy; subst hy; exact h2
    · rintro hb h
      injection h with h; subst h
      cases r with
      | nil => simp at hb
      | cons c r =>
        simp at hb
        obtain ⟨rfl, rfl⟩ := hb
        obtain ⟨x, h1, h2⟩ := (goodT_line (pre := 2) false hv (Asc.cons (n := 1) (by decide) (.one (by decide))) (by simp)).2 tf pos errs
        rw [h1]
        intro y hy; injection hy with hy; subst hy; exact h2
    · rintro hb h
      injection h with h; subst h
      cases r with
      | nil => simp at hb
      | cons c r =>
        simp at hb
        obtain ⟨rfl, rfl⟩ := hb
        obtain ⟨x, h1, h2⟩ := (goodT_block hv).2 pos errs
        simp only [List.drop_succ_cons, List.drop_zero]
        rw [h1]
        intro y hy; injection hy with hy; subst hy; exact h2
    · split
      · rename_i h'
        rintro h
        injection h with h; subst h
        intro y hy
        rw [(punct_lt h').2] at hy; cases hy
      · nofun

/-- One step of the lexer on text. -/
structure NextText (P : Nat → Prop) (errs : List ParseErrorKind) (o : Out) : Prop where
  start : P o.span.start
  rest : PV P o.span.stop o.rest
  errs : ErrsB P errs → ErrsB P o.errs
  text : ∀ t, o.res = .tok t → TokV t

theorem next_text {P pos s} (tf errs) (hp : PV P pos s) : NextText P errs (next tf pos s errs) := by
  have hA : Asc s (s.takeWhile isSkip).length := .while isSkip_lt s
  have hp' := hp.drop (takeWhile_length_le isSkip s) (hA.cut hp.v)
  rw [drop_takeWhile] at hp'
  unfold next
  simp only
  generalize (s.takeWhile isSkip).length = k at *
  generalize s.dropWhile isSkip = t at *
  cases t with
  | nil => exact ⟨hp'.here, hp', id, nofun⟩
  | cons b r =>
    simp only
    have g := goodT_lexToken (by simp) hp'.v
    have hb : (lexToken tf (pos + k) (b :: r) errs).2.1 ≤ (b :: r).length :=
      ((good_lexToken (b :: r) (by simp)).bounds tf (pos + k) errs).2
    have hc : V ((b :: r).drop (lexToken tf (pos + k) (b :: r) errs).2.1) := g.cut tf (pos + k) errs
    have he : ErrsB P errs → ErrsB P (lexToken tf (pos + k) (b :: r) errs).2.2 := g.errs P tf (pos + k) errs hp'
    have ht := lexToken_tokV hp'.v tf (pos + k) errs
    revert hb hc he ht
    rcases lexToken tf (pos + k) (b :: r) errs with ⟨t1, n1, e1⟩
    intro hb hc he ht
    have hd := hp'.drop hb hc
    cases t1 with
    | some t => exact ⟨hp'.here, hd, he, fun t' h => by injection h with h; subst h; exact ht _ rfl⟩
    | none => exact ⟨hp'.here, hd, he, nofun⟩

end Verif.Text
