import Verif.Proofs.Faults
import Verif.Proofs.Lexeme3
/-! The diagnostics of the lexer say what is there: numbers and line comments. -/
namespace Verif
open Verif.Spec Verif.Lex
variable [FloatFmt]

/-- What is said about a token: the new diagnostics of `errs'` are true of the token `t` at `pos`, `n` bytes long. -/
def Adds (src : Bytes) (pos : Nat) (errs : List ParseErrorKind) (t : Option Token) (n : Nat) (errs' : List ParseErrorKind) : Prop :=
  ∃ new, errs' = errs ++ new ∧ ∀ k ∈ new, LexFault src (t, ⟨pos, pos + n⟩) k.shown

theorem Adds.none {src pos errs t n} : Adds src pos errs t n errs := ⟨[], by simp, nofun⟩

theorem Adds.one {src pos errs t n k} (h : LexFault src (t, ⟨pos, pos + n⟩) k.shown) : Adds src pos errs t n (errs ++ [k]) :=
  ⟨[k], rfl, fun k' hk => by rw [List.mem_singleton.1 hk]; exact h⟩

theorem Adds.more {src pos errs t n errs' k} (h : Adds src pos errs t n errs') (hk : LexFault src (t, ⟨pos, pos + n⟩) k.shown) :
    Adds src pos errs t n (errs' ++ [k]) := by
  obtain ⟨new, rfl, hn⟩ := h
  refine ⟨new ++ [k], by simp, fun k' hk' => ?_⟩
  rcases List.mem_append.1 hk' with h | h
  · exact hn _ h
  · rw [List.mem_singleton.1 h]; exact hk

theorem float_adds {src s : Bytes} {tf : Bool} {pos n : Nat} {hs : Bool} {errs : List ParseErrorKind} (h : s = src.drop pos)
    (hf : hs = true → ∃ a f, (f = 102 ∨ f = 70) ∧ s.take n = a ++ [f] ∧ s.take (n - 1) = a) :
    Adds src pos errs (some (float tf pos n hs s errs).1) (float tf pos n hs s errs).2.1 (float tf pos n hs s errs).2.2 := by
  unfold float
  split
  · rename_i hh
    obtain ⟨a, f, h1, h2, h3⟩ := hf hh
    simp only
    split
    · exact .none
    · refine .one ?_
      rw [h3]
      refine .floatSuffix h1 ?_
      have := textOf_at h 0 n
      simp only [Nat.add_zero, List.drop_zero, Nat.sub_zero] at this
      rw [this, h2]
  · exact .none

theorem noSpace_adds {src : Bytes} {v pos len base : Nat} {p ds rest : Bytes} {errs : List ParseErrorKind}
    (hr : rest = src.drop (pos + len)) (hb : IntBase base p) (hd : ∀ b ∈ ds, digitOf b ≠ none)
    (ht : textOf src ⟨pos, pos + len⟩ = p ++ ds) :
    Adds src pos errs (some (.int v)) len (noSpace ⟨pos + p.length, pos + len⟩ rest errs) := by
  unfold noSpace
  cases rest with
  | nil => exact .none
  | cons ch r =>
    simp only
    split
    · rename_i hc
      refine .one ?_
      have hsplit := List.takeWhile_append_dropWhile (p := isAlpha) (l := r)
      have hall : ∀ b ∈ r.takeWhile isAlpha, isAlpha b = true := fun b hb => takeWhile_all b hb
      refine .noSpace (sp := ⟨pos, pos + len⟩) (w := r.takeWhile isAlpha) hb hd ht (by simpa using hc) hall ?_ ?_
      · have := textOf_at hr 0 (1 + (r.takeWhile isAlpha).length)
        simp only [Nat.add_zero, List.drop_zero, Nat.sub_zero, ← Nat.add_assoc] at this
        simp only [this]
        rw [Nat.add_comm 1, List.take_succ_cons, take_takeWhile]
      · intro b hb'
        have e : src.drop (pos + len + 1 + (r.takeWhile isAlpha).length) = r.dropWhile isAlpha := by
          rw [← List.drop_drop, ← List.drop_drop, ← hr, List.drop_succ_cons, List.drop_zero]
          conv => lhs; arg 2; rw [← hsplit]
          exact List.drop_left
        simp only [e] at hb'
        have := List.head?_dropWhile_not isAlpha r
        rw [hb'] at this
        simpa using this
    · exact .none

theorem int_adds {src : Bytes} {pos len base : Nat} {p ds rest : Bytes} {errs : List ParseErrorKind}
    (hr : rest = src.drop (pos + len)) (hb : IntBase base p) (hne : ds ≠ []) (hx : ∀ b ∈ ds, isHexDigit b = true)
    (h10 : base ≠ 16 → Digits ds) (ht : textOf src ⟨pos, pos + len⟩ = p ++ ds) :
    Adds src pos errs (some (.int (int base p.length pos len ds rest errs).1)) len (int base p.length pos len ds rest errs).2 := by
  have hd : ∀ b ∈ ds, digitOf b ≠ none := fun b hb h => by rw [digitOf_hex (hx b hb)] at h; cases h
  have h0 := fun v => noSpace_adds (v := v) (errs := errs) hr hb hd ht
  unfold int
  simp only
  split
  · exact h0 _
  · rename_i hf
    refine (h0 _).more ?_
    unfold fromStrRadix at hf
    split at hf
    · rename_i hall
      split at hf
      · cases hf
      · rename_i hbig
        exact .tooLarge (sp := ⟨pos, pos + len⟩) hb
          (numeral_of hne fun b hb => ⟨hx b hb, by simpa using List.all_eq_true.1 hall b hb⟩) (by omega) ht
    · rename_i hall
      have : ∃ b ∈ ds, base ≤ digitVal b := by
        simpa using hall
      obtain ⟨b, hbm, hbv⟩ := this
      cases hb with
      | hex _ => have := digitVal_hex (hx b hbm); omega
      | decimal =>
        have := h10 (by decide) b hbm
        have := digitVal_digit (b := b) (by simpa [isDigit] using this)
        omega
      | octal =>
        have hdig := h10 (by decide)
        refine .notOctal (sp := ⟨pos, pos + len⟩) hdig ⟨b, hbm, ?_⟩ ht
        have h1 := hdig b hbm
        unfold digitVal at hbv
        rw [if_pos h1.2] at hbv
        rw [UInt8.lt_iff_toNat_lt]
        have : (55 : UInt8).toNat = 55 := rfl
        omega

theorem suffix_take {a c : Bytes} {n : Nat} (hn : n = a.length + suffixLen c) (hs : (suffixLen c == 1) = true) :
    ∃ a' f, (f = 102 ∨ f = 70) ∧ (a ++ c).take n = a' ++ [f] ∧ (a ++ c).take (n - 1) = a' := by
  rcases suffix_cases c a.length n hn with ⟨h, _⟩ | ⟨_, h2, f, r, rfl, hf⟩
  · rw [hs] at h; cases h
  · refine ⟨a, f, hf, ?_, ?_⟩
    · rw [show a ++ f :: r = (a ++ [f]) ++ r by simp, take_prefix _ (by simp [h2])]
    · exact take_prefix _ (by omega)

theorem number_adds {src s : Bytes} {tf : Bool} {pos : Nat} {errs : List ParseErrorKind} (h : s = src.drop pos)
    (hs : s.takeWhile isDigit ≠ []) :
    Adds src pos errs (some (number tf pos s errs).1) (number tf pos s errs).2.1 (number tf pos s errs).2.2 := by
  unfold number
  have hsplit := List.takeWhile_append_dropWhile (p := isDigit) (l := s)
  have hdig := digits_takeWhile s
  have hall : ∀ c ∈ s.takeWhile isDigit, isDigit c = true := fun c hc => takeWhile_all c hc
  simp only
  generalize s.takeWhile isDigit = ds at *
  generalize s.dropWhile isDigit = r at *
  have fl : ∀ (a c : Bytes) (k : Nat), s = a ++ c → k = a.length + suffixLen c →
      Adds src pos errs (some (float tf pos k (suffixLen c == 1) s errs).1) (float tf pos k (suffixLen c == 1) s errs).2.1
        (float tf pos k (suffixLen c == 1) s errs).2.2 := by
    intro a c k he hk
    exact float_adds h fun hh => by rw [he]; exact suffix_take hk hh
  have fl1 : ∀ (a c : Bytes) (k : Nat), s = a ++ c → suffixLen c = 1 → k = a.length + 1 →
      Adds src pos errs (some (float tf pos k true s errs).1) (float tf pos k true s errs).2.1
        (float tf pos k true s errs).2.2 := by
    intro a c k he hc hk
    have := fl a c k he (by omega)
    rwa [hc] at this
  have rest : ∀ (a c : Bytes), s = a ++ c → c = src.drop (pos + a.length) := by
    intro a c he
    rw [← List.drop_drop, ← h, he, List.drop_left]
  have text : ∀ (a c : Bytes), s = a ++ c → textOf src ⟨pos, pos + a.length⟩ = a := by
    intro a c he
    have := textOf_at h 0 a.length
    simp only [Nat.add_zero, List.drop_zero, Nat.sub_zero] at this
    rw [this, he, List.take_left']
    rfl
  split
  · rename_i r1
    have hfr := List.takeWhile_append_dropWhile (p := isDigit) (l := r1)
    refine fl (ds ++ 46 :: r1.takeWhile isDigit ++ (r1.dropWhile isDigit).take (exponentLen (r1.dropWhile isDigit)))
      ((r1.dropWhile isDigit).drop (exponentLen (r1.dropWhile isDigit))) _ ?_ ?_
    · rw [List.append_assoc, List.take_append_drop, List.append_assoc, List.cons_append, hfr, hsplit]
    · rw [List.length_append, take_exp_length]; simp; omega
  · split
    · refine fl (ds ++ r.take (exponentLen r)) (r.drop (exponentLen r)) _ ?_ ?_
      · rw [List.append_assoc, List.take_append_drop, hsplit]
      · rw [List.length_append, take_exp_length]
    · split
      · rename_i h0
        subst h0
        cases r with
        | nil => exact .none
        | cons x r1 =>
          simp only
          split
          · rename_i hx
            simp only [Bool.and_eq_true, Bool.or_eq_true, beq_iff_eq, decide_eq_true_eq] at hx
            have hfr := List.takeWhile_append_dropWhile (p := isHexDigit) (l := r1)
            have e : s = (48 :: x :: r1.takeWhile isHexDigit) ++ r1.dropWhile isHexDigit := by
              rw [← hsplit]; simp
            have hl : (48 :: x :: r1.takeWhile isHexDigit).length = 2 + (r1.takeWhile isHexDigit).length := by simp; omega
            have h1 := rest _ _ e
            have h2 := text _ _ e
            rw [hl] at h1 h2
            exact int_adds (p := [48, x]) h1 (.hex hx.1) (fun hh => hx.2 (by rw [hh]; rfl))
              (fun b hb => takeWhile_all b hb) (fun hh => absurd rfl hh) h2
          · split
            · rename_i hsl
              exact fl1 [48] (x :: r1) 2 hsplit.symm hsl rfl
            · exact .none
      · split
        · rename_i d2 ds' _ 
          split
          · refine int_adds (p := [48]) (rest _ _ hsplit.symm) .octal (by simp)
              (fun b hb => isHex_of_digit (hall b (by simp [hb]))) (fun _ b hb => hdig b (by simp [hb])) (text _ _ hsplit.symm)
          · exact .none
        · split
          · rename_i hsl
            exact fl1 _ _ _ hsplit.symm hsl rfl
          · exact int_adds (p := []) (rest _ _ hsplit.symm) .decimal hs (fun b hb => isHex_of_digit (hall b hb)) (fun _ => hdig)
              (text _ _ hsplit.symm)

theorem lineComment_adds {src s : Bytes} {tf : Bool} {pos pre : Nat} {hash : Bool} {errs : List ParseErrorKind} (h : s = src.drop pos)
    (hh : hash = true → pre = 1 ∧ s.head? = some 35) :
    Adds src pos errs (some (lineComment tf pos pre hash s errs).1) (lineComment tf pos pre hash s errs).2.1
      (lineComment tf pos pre hash s errs).2.2 := by
  unfold lineComment
  by_cases hc : (!tf && hash) = true
  · simp only [hc, if_true]
    simp only [Bool.and_eq_true, Bool.not_eq_true'] at hc
    obtain ⟨rfl, h35⟩ := hh hc.2
    refine .one ?_
    have ht := fun n => textOf_at h 0 n
    simp only [Nat.add_zero, List.drop_zero, Nat.sub_zero] at ht
    cases s with
    | nil => cases h35
    | cons b r =>
      cases h35
      simp only [List.drop_succ_cons, List.drop_zero]
      have hsplit := List.takeWhile_append_dropWhile (p := (· != (10 : UInt8))) (l := r)
      have hno : (10 : UInt8) ∉ r.takeWhile (· != 10) := fun hm => by
        have := takeWhile_all (p := (· != (10 : UInt8))) 10 hm
        simp at this
      have hhd := List.head?_dropWhile_not (· != (10 : UInt8)) r
      generalize r.takeWhile (· != 10) = l at *
      generalize r.dropWhile (· != 10) = d at *
      cases d with
      | nil =>
        refine .hash (sp := ⟨pos, _⟩) (l := l) ?_ ⟨l, hno, .inl rfl⟩
        rw [ht, ← hsplit]
        simp [Nat.add_comm]
      | cons x d =>
        simp at hhd
        subst hhd
        refine .hash (sp := ⟨pos, _⟩) (l := l ++ [10]) ?_ ⟨l, hno, .inr rfl⟩
        rw [ht, ← hsplit, show 1 + l.length + 1 = (l.length + 1) + 1 by omega, List.take_succ_cons,
          show l ++ 10 :: d = (l ++ [10]) ++ d by simp, take_prefix _ (by simp)]
  · simp only [hc]
    exact .none

end Verif
