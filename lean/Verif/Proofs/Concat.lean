import Verif.Proofs.Cut2
import Verif.Proofs.Lexeme4
import Verif.Proofs.Cpl7
/-! Lexing a source that is followed by a line break and another source. -/
namespace Verif.Lex
open Spec

theorem tw_app {p : UInt8 → Bool} (hp : p 10 = false) (Z : Bytes) : ∀ a : Bytes,
    (a ++ 10 :: Z).takeWhile p = a.takeWhile p ∧ (a ++ 10 :: Z).dropWhile p = a.dropWhile p ++ 10 :: Z
  | [] => by simp [List.takeWhile_cons, List.dropWhile_cons, hp]
  | b :: a => by
    obtain ⟨h1, h2⟩ := tw_app hp Z a
    by_cases hb : p b = true
    · simp [List.takeWhile_cons, List.dropWhile_cons, hb, h1, h2]
    · simp [List.takeWhile_cons, List.dropWhile_cons, hb]

theorem exp_app (a Z : Bytes) : exponentLen (a ++ 10 :: Z) = exponentLen a := by
  have := exp_cut (r := []) (Z := Z) a (by rw [List.append_nil]; exact exponentLen_le a)
  rwa [List.append_nil] at this

theorem suffix_app (a Z : Bytes) : suffixLen (a ++ 10 :: Z) = suffixLen a := by
  have := suffix_cut (r := []) (Z := Z) a (by rw [List.append_nil]; exact suffixLen_le a)
  rwa [List.append_nil] at this

theorem drop_app {a Z : Bytes} {n : Nat} (h : n ≤ a.length) : (a ++ 10 :: Z).drop n = a.drop n ++ 10 :: Z := List.drop_append_of_le_length h

theorem take_app {a Z : Bytes} {n : Nat} (h : n ≤ a.length) : (a ++ 10 :: Z).take n = a.take n := List.take_append_of_le_length h

theorem float_line {tf pos n hs} {a Z : Bytes} {errs} (h : n ≤ a.length) : float tf pos n hs (a ++ 10 :: Z) errs = float tf pos n hs a errs := by
  unfold float
  rw [take_app h, take_app (by omega)]

theorem noSpace_line (sp) (a Z : Bytes) (errs) : noSpace sp (a ++ 10 :: Z) errs = noSpace sp a errs := by
  cases a with
  | nil => rfl
  | cons c a => simp only [List.cons_append, noSpace, (tw_app (p := isAlpha) rfl Z a).1]

theorem int_line (radix pre pos len ds) (a Z : Bytes) (errs) : int radix pre pos len ds (a ++ 10 :: Z) errs = int radix pre pos len ds a errs := by
  unfold int
  simp only [noSpace_line]

theorem len_split (p : UInt8 → Bool) (a : Bytes) : a.length = (a.takeWhile p).length + (a.dropWhile p).length := by
  have := congrArg List.length (List.takeWhile_append_dropWhile (p := p) (l := a))
  rw [List.length_append] at this
  exact this.symm

theorem number_line (tf pos) (a Z : Bytes) (errs) (hd : a.takeWhile isDigit ≠ []) :
    number tf pos (a ++ 10 :: Z) errs = number tf pos a errs := by
  have hl := len_split isDigit a
  have hpos := List.length_pos_iff.2 hd
  unfold number
  simp only [(tw_app (p := isDigit) rfl Z a).1, (tw_app (p := isDigit) rfl Z a).2]
  have fl : ∀ {n hs}, n ≤ a.length → float tf pos n hs (a ++ 10 :: Z) errs = float tf pos n hs a errs := float_line
  generalize a.takeWhile isDigit = ds at *
  generalize a.dropWhile isDigit = d at *
  cases d with
  | nil =>
    simp only [List.nil_append]
    have e0 : exponentLen (10 :: Z) = 0 := rfl
    have e1 : exponentLen [] = 0 := rfl
    have s0 : suffixLen (10 :: Z) = 0 := rfl
    have s1 : suffixLen [] = 0 := rfl
    have i0 := fun radix pre len x => int_line radix pre pos len x [] Z errs
    simp only [List.nil_append] at i0
    split
    · rename_i h; cases h
    · simp only [e0, e1, s0, s1, i0, ne_eq, not_true_eq_false, if_false]
      split
      · simp
      · rfl
  | cons c d =>
    simp only [List.cons_append]
    have hc := exp_app (c :: d) Z
    have hs := suffix_app (c :: d) Z
    have hel := exponentLen_le (c :: d)
    have hcd := suffix_app ((c :: d).drop (exponentLen (c :: d))) Z
    rw [← drop_app hel] at hcd
    have hsl := suffixLen_le ((c :: d).drop (exponentLen (c :: d)))
    rw [List.length_drop] at hsl
    have i0 := fun radix pre len x => int_line radix pre pos len x (c :: d) Z errs
    simp only [List.cons_append] at hc hs hcd i0
    have t2 := (tw_app (p := isHexDigit) rfl Z d)
    by_cases h46 : c = 46
    · subst h46
      have f := tw_app (p := isDigit) rfl Z d
      have fe := exp_app (d.dropWhile isDigit) Z
      have fle := exponentLen_le (d.dropWhile isDigit)
      have fs := suffix_app ((d.dropWhile isDigit).drop (exponentLen (d.dropWhile isDigit))) Z
      have fsl := suffixLen_le ((d.dropWhile isDigit).drop (exponentLen (d.dropWhile isDigit)))
      rw [List.length_drop] at fsl
      rw [← drop_app fle] at fs
      have hl2 := len_split isDigit d
      simp only [f.1, f.2, fe, fs]
      refine fl ?_
      simp only [List.length_cons] at hl
      omega
    · have n1 : ∀ r1, c :: (d ++ 10 :: Z) = 46 :: r1 → False := fun r1 h => h46 (by injection h)
      have n2 : ∀ r1, c :: d = 46 :: r1 → False := fun r1 h => h46 (by injection h)
      simp only [n1, n2, hc, hs, hcd, i0, t2.1, t2.2, int_line]
      simp only [List.length_cons] at hl hel hsl
      split
      · exact fl (by omega)
      · split
        · rename_i h48
          rw [h48] at hl
          simp only [List.length_cons, List.length_nil] at hl
          split
          · rfl
          · split
            · exact fl (by omega)
            · rfl
        · split
          · rfl
          · split
            · exact fl (by omega)
            · rfl
theorem float_none (tf pos n hs s) : (float tf pos n hs s []).2.2 = [] ↔ (hs = true → tf = true) := by
  unfold float
  cases hs <;> cases tf <;> simp

theorem float_pos (tf pos pos' n hs s) : (float tf pos n hs s []).2.2 = [] ↔ (float tf pos' n hs s []).2.2 = [] := by
  rw [float_none, float_none]

theorem noSpace_pos (sp sp') (rest) : noSpace sp rest [] = [] ↔ noSpace sp' rest [] = [] := by
  unfold noSpace
  cases rest with
  | nil => simp
  | cons c r => dsimp only; split <;> simp

theorem int_pos (radix pre pos pos' len ds rest) : (int radix pre pos len ds rest []).2 = [] ↔ (int radix pre pos' len ds rest []).2 = [] := by
  have h := noSpace_pos ⟨pos + pre, pos + len⟩ ⟨pos' + pre, pos' + len⟩ rest
  unfold int
  dsimp only
  split
  · exact h
  · simp

theorem number_pos (tf pos pos' s) : (number tf pos s []).2.2 = [] ↔ (number tf pos' s []).2.2 = [] := by
  unfold number
  dsimp only
  split
  · exact float_pos ..
  · split
    · exact float_pos ..
    · split
      · split
        · split
          · exact int_pos ..
          · split
            · exact float_pos ..
            · exact Iff.rfl
        · exact Iff.rfl
      · split
        · split
          · exact int_pos ..
          · exact Iff.rfl
        · split
          · exact float_pos ..
          · exact int_pos ..

theorem lineComment_errs (tf pos pre hash s) : (lineComment tf pos pre hash s []).2.2 = [] ↔ (hash = true → tf = true) := by
  unfold lineComment
  cases hash <;> cases tf <;> simp

/-- What follows a token on a new line does not matter, nor where the token is. -/
theorem lexToken_go {tf pos pos'} {s e : Bytes} {t n} (h : lexToken tf pos s [] = (some t, n, [])) (hn : n ≤ s.length)
    (he : e = [] ∨ ∃ Z, e = 10 :: Z) (hr : e = [] ∨ n < s.length ∨ ∀ c, t ≠ .lineComment c) :
    lexToken tf pos' (s ++ e) [] = (some t, n, []) := by
  have hl := lexToken_lexeme h
  have htl : tl (lexToken tf pos' (s ++ e) []) = (some t, n) := by
    have h0 : tl (lexToken tf pos (s ++ []) []) = (some t, n) := by rw [List.append_nil, h]; rfl
    rcases he with rfl | ⟨Z, rfl⟩
    · rw [← h0]
      refine tl_indep ?_ ..
      rintro h'
      rw [List.append_nil] at h'
      subst h'
      cases h
    · refine lexToken_cut (tf0 := tf) h0 hn (by rw [List.append_nil]; exact hl) ?_
      rw [List.append_nil]
      rcases hr with h' | h'
      · cases h'
      · exact h'
  suffices hE : (lexToken tf pos' (s ++ e) []).2.2 = [] by
    rcases hx : lexToken tf pos' (s ++ e) [] with ⟨o, k, es⟩
    rw [hx] at htl hE
    cases hE
    cases htl
    rfl
  have viaText : (Ends (s.take n) t (s.drop n ++ e)) → (lexToken tf pos' (s ++ e) []).2.2 = [] := by
    intro hE
    have h1 := lexToken_of hl pos' _ [] hE
    rw [← List.append_assoc, List.take_append_drop] at h1
    rw [h1]
  cases s with
  | nil => cases h
  | cons b a =>
    have tw : ∀ {p : UInt8 → Bool}, p 10 = false → ∀ a : Bytes, (a ++ e).takeWhile p = a.takeWhile p ∧ (a ++ e).dropWhile p = a.dropWhile p ++ e := by
      intro p hp a
      rcases he with rfl | ⟨Z, rfl⟩
      · simp
      · exact tw_app hp Z a
    have hd : ∀ {c : UInt8}, c ≠ 10 → ((a ++ e).head? = some c ↔ a.head? = some c) := by
      intro c hc
      cases a with
      | nil =>
        rcases he with rfl | ⟨Z, rfl⟩
        · exact Iff.rfl
        · simp [Ne.symm hc]
      | cons x a => exact Iff.rfl
    rw [List.cons_append] at htl viaText ⊢
    unfold lexToken at h viaText ⊢
    dsimp only at h viaText ⊢
    by_cases h1 : isIdentStart b = true
    · rw [if_pos h1]
    rw [if_neg h1] at h ⊢
    by_cases h2 : isDigit b = true
    · rw [if_pos h2] at h ⊢
      dsimp only at h ⊢
      have hne : (b :: a).takeWhile isDigit ≠ [] := by simp [List.takeWhile_cons, h2]
      have hnum : (number tf pos (b :: a) []).2.2 = [] := by injection h with _ h; injection h
      rw [number_pos tf pos pos'] at hnum
      rcases he with rfl | ⟨Z, rfl⟩
      · rw [List.append_nil]; exact hnum
      · have := number_line tf pos' (b :: a) Z [] hne
        rw [List.cons_append] at this
        rw [this]
        exact hnum
    rw [if_neg h2] at h ⊢
    have hst : startsWith isDigit (a ++ e) = startsWith isDigit a := by
      cases a with
      | nil =>
        rcases he with rfl | ⟨Z, rfl⟩ <;> rfl
      | cons x a => rfl
    by_cases h3 : (b == 46 && startsWith isDigit a) = true
    · rw [if_pos h3] at h
      rw [hst, if_pos h3]
      dsimp only at h ⊢
      have hfl := congrArg (·.2.2) h
      dsimp only at hfl
      rw [float_none] at hfl ⊢
      have e1 : ∀ x : Bytes, exponentLen (x ++ e) = exponentLen x := by
        intro x
        rcases he with rfl | ⟨Z, rfl⟩
        · rw [List.append_nil]
        · exact exp_app x Z
      have s1 : ∀ x : Bytes, suffixLen (x ++ e) = suffixLen x := by
        intro x
        rcases he with rfl | ⟨Z, rfl⟩
        · rw [List.append_nil]
        · exact suffix_app x Z
      rw [(tw (p := isDigit) rfl a).2, e1, List.drop_append_of_le_length (exponentLen_le _), s1]
      exact hfl
    rw [if_neg h3] at h
    rw [hst, if_neg h3]
    rw [hst, if_neg h1, if_neg h2, if_neg h3] at viaText
    simp only [hd (by decide : (47 : UInt8) ≠ 10), hd (by decide : (42 : UInt8) ≠ 10)] at viaText ⊢
    by_cases h4 : (b == 39 || b == 34) = true
    · have ht : ∃ v, t = .string v := by
        rw [if_pos h4] at h
        injection h with h _
        injection h with h
        exact ⟨_, h.symm⟩
      obtain ⟨v, rfl⟩ := ht
      exact viaText trivial
    rw [if_neg h4] at h ⊢
    by_cases h5 : (b == 35) = true
    · rw [if_pos h5] at h ⊢
      have := congrArg (·.2.2) h
      dsimp only at this ⊢
      rw [lineComment_errs] at this ⊢
      exact this
    rw [if_neg h5] at h ⊢
    by_cases h6 : (b == 47 && a.head? = some 47) = true
    · rw [if_pos h6] at h ⊢
      dsimp only
      rw [lineComment_errs]
      exact nofun
    rw [if_neg h6] at h ⊢
    by_cases h7 : (b == 47 && a.head? = some 42) = true
    · have ht : ∃ v, t = .blockComment v := by
        rw [if_pos h7] at h
        injection h with h _
        injection h with h
        exact ⟨_, h.symm⟩
      obtain ⟨v, rfl⟩ := ht
      rw [if_neg h4, if_neg h5, if_neg h6] at viaText
      refine viaText ?_
      have hx : (tl (lexToken tf pos ((b :: a).take n ++ (b :: a).drop n) [])).2 = ((b :: a).take n).length := by
        rw [List.take_append_drop]
        unfold lexToken
        dsimp only
        rw [if_neg h1, if_neg h2, if_neg h3, if_neg h4, if_neg h5, if_neg h6, h, List.length_take, Nat.min_eq_left hn]
        rfl
      have hE := block_ends hl hx
      cases hdr : (b :: a).drop n with
      | nil =>
        rcases he with rfl | ⟨Z, rfl⟩
        · exact nofun
        · intro c hc
          cases hc
          rw [← skip_blank]
          decide
      | cons c l =>
        rw [hdr] at hE
        exact hE
    rw [if_neg h7]
    split <;> rfl

end Verif.Lex

namespace Verif
open Lex Spec Parse

theorem next_go {tf pos pos'} {a e : Bytes} {t} (h : (next tf pos a []).res = .tok t) (h0 : (next tf pos a []).errs = [])
    (he : e = [] ∨ ∃ Z, e = 10 :: Z) (hr : e = [] ∨ (next tf pos a []).rest ≠ [] ∨ ∀ c, t ≠ .lineComment c) :
    (next tf pos' (a ++ e) []).res = .tok t ∧ (next tf pos' (a ++ e) []).errs = [] ∧
    (next tf pos' (a ++ e) []).rest = (next tf pos a []).rest ++ e ∧
    (next tf pos' (a ++ e) []).span.start + pos = (next tf pos a []).span.start + pos' ∧
    (next tf pos' (a ++ e) []).span.stop + pos = (next tf pos a []).span.stop + pos' := by
  have hf := (next_facts tf pos a []).stop_rest
  have tw : (a ++ e).takeWhile isSkip = a.takeWhile isSkip ∧ (a ++ e).dropWhile isSkip = a.dropWhile isSkip ++ e := by
    rcases he with rfl | ⟨Z, rfl⟩
    · simp
    · exact tw_app rfl Z a
  have hl := len_split isSkip a
  unfold next at h h0 hr hf ⊢
  dsimp only at h h0 hr hf ⊢
  rw [tw.1, tw.2]
  cases hd : a.dropWhile isSkip with
  | nil => rw [hd] at h; cases h
  | cons b s =>
    rw [hd] at h h0 hr hf hl
    rw [List.cons_append]
    dsimp only at h h0 hr hf ⊢
    rcases hx : lexToken tf (pos + (a.takeWhile isSkip).length) (b :: s) [] with ⟨o, n, es⟩
    rw [hx] at h h0 hr hf
    cases o with
    | none => cases h
    | some t' =>
      cases h
      dsimp only at h0 hr hf
      subst h0
      have hn : n ≤ (b :: s).length := by
        rw [List.length_drop] at hf
        omega
      have := lexToken_go (pos' := pos' + (a.takeWhile isSkip).length) hx hn he (by
        rcases hr with hr | hr | hr
        · exact .inl hr
        · refine .inr (.inl ?_)
          rcases Nat.lt_or_ge n (b :: s).length with h | h
          · exact h
          · exact absurd (List.drop_eq_nil_of_le h) hr
        · exact .inr (.inr hr))
      rw [List.cons_append] at this
      rw [this]
      refine ⟨rfl, rfl, ?_, ?_, ?_⟩
      · dsimp only; rw [← List.cons_append, List.drop_append_of_le_length hn]
      · dsimp only; omega
      · dsimp only; omega

/-- Whether a source lexes does not depend on where it is. -/
theorem ok_pos : ∀ (k : Nat) {s : Bytes}, s.length < k → ∀ {m pos}, okFrom m pos s = true → ∀ pos', okFrom m pos' s = true
  | 0, _, h => absurd h (Nat.not_lt_zero _)
  | k + 1, s, hk => by
    rename_i m pos
    intro h pos'
    rw [okFrom_unfold] at h ⊢
    obtain ⟨h0, h1⟩ := Bool.and_eq_true_iff.1 h
    have h0 := of_decide_eq_true h0
    obtain ⟨i1, i2, i3, i4⟩ := next_indep m.text m.text pos' pos s [] []
    cases hr : (next m.text pos s []).res with
    | eof =>
      rw [i1, hr]
      have : (next m.text pos' s []).errs = [] := by
        rw [hr] at i1
        unfold next at i1 ⊢
        dsimp only at i1 ⊢
        split
        · rfl
        · rename_i hs
          rw [hs] at i1
          dsimp only at i1
          split at i1 <;> cases i1
      simp [this]
    | error => rw [hr] at h1; cases h1
    | tok t =>
      rw [hr] at h1
      dsimp only at h1
      obtain ⟨g1, g2, g3, _, _⟩ := next_go (pos' := pos') (e := []) hr h0 (.inl rfl) (.inl rfl)
      rw [List.append_nil] at g1 g2 g3
      rw [g1, g2, g3, List.append_nil]
      dsimp only
      have hlt := next_rest_lt' m.text pos s (by simp [hr])
      rw [ok_pos k (by omega) h1]
      rfl

theorem okFrom_pos (m pos pos') (s : Bytes) : okFrom m pos s = okFrom m pos' s := by
  cases h : okFrom m pos s with
  | true => exact (ok_pos _ (Nat.lt_succ_self _) h pos').symm
  | false =>
    cases h' : okFrom m pos' s with
    | false => rfl
    | true => rw [ok_pos _ (Nat.lt_succ_self _) h' pos] at h; cases h

/-- Where the token after these stands. -/
def modeAfter (m : Mode) (ts : List (Option STok)) : Mode := ts.foldl (fun m x => match x with | some t => m.step t.1 | none => m) m

/-- Lexing a source and then, on a new line, another one. -/
theorem ok_app (Z : Bytes) : ∀ (k : Nat) {a : Bytes}, a.length < k → ∀ {m pos}, okFrom m pos a = true →
    okFrom m pos (a ++ 10 :: Z) = okFrom (modeAfter m (sigToks pos a)) (pos + a.length + 1) Z ∧
    sigToks pos (a ++ 10 :: Z) = sigToks pos a ++ sigToks (pos + a.length + 1) Z
  | 0, _, h => absurd h (Nat.not_lt_zero _)
  | k + 1, a, hk => by
    rename_i m pos
    intro h
    have hcopy := h
    rw [okFrom_unfold] at h
    obtain ⟨h0, h1⟩ := Bool.and_eq_true_iff.1 h
    have h0 := of_decide_eq_true h0
    obtain ⟨b, x, e1, hb, s1, s2, s3, s4⟩ := next_split m.text pos a []
    have hf := next_facts m.text pos a []
    obtain ⟨c1, c2, c3⟩ := next_same m.text pos a []
    -- a line break
    have nl : ∀ {b : Bytes} {m : Mode} {pos : Nat}, Blank b → okFrom m pos (b ++ 10 :: Z) = okFrom m (pos + b.length + 1) Z := by
      intro b m pos hb
      have := next_of (tf := m.text) (lead := b) (text := [10]) (r := Z) hb .newline trivial pos []
      rw [okFrom_unfold, show b ++ 10 :: Z = b ++ ([10] ++ Z) from rfl, this]
      simp only [decide_true, Bool.true_and]
      rw [Mode.step_trivia rfl]
      rfl
    cases hr : (next m.text pos a []).res with
    | error => rw [hr] at h1; cases h1
    | eof =>
      have hx := s3 hr
      have hrest := (hf.eof_rest hr).1
      rw [hx, hrest] at e1
      simp only [List.append_nil] at e1
      have hsig : sigToks pos a = [] := by
        unfold sigToks
        rw [rawToks_unfold, ← c1, hr]
        rfl
      rw [hsig, e1]
      exact ⟨nl hb, sig_break hb pos Z⟩
    | tok t =>
      rw [hr] at h1
      dsimp only at h1
      have hlt := next_rest_lt' m.text pos a (by simp [hr])
      have hst := hf.stop_rest
      -- the token of `a`
      have hsig : sigToks pos a = significant [(some t, (next m.text pos a []).span)] ++
          sigToks (next m.text pos a []).span.stop (next m.text pos a []).rest := by
        unfold sigToks
        rw [rawToks_unfold, ← c1, hr, ← c2, ← c3]
        exact significant_append [_] _
      have hmode : ∀ l, modeAfter m (significant [(some t, (next m.text pos a []).span)] ++ l) = modeAfter (m.step t) l := by
        intro l
        cases ht : t.isTrivia with
        | true => simp [significant, ht, Mode.step_trivia ht]
        | false => simp [significant, ht, modeAfter]
      by_cases hcase : (next m.text pos a []).rest ≠ [] ∨ ∀ c, t ≠ .lineComment c
      · obtain ⟨g1, g2, g3, g4, g5⟩ := next_go (pos' := pos) (e := 10 :: Z) hr h0 (.inr ⟨Z, rfl⟩) (.inr hcase)
        have g4 : (next m.text pos (a ++ 10 :: Z) []).span.start = (next m.text pos a []).span.start := by omega
        have g5 : (next m.text pos (a ++ 10 :: Z) []).span.stop = (next m.text pos a []).span.stop := by omega
        have g6 : (next m.text pos (a ++ 10 :: Z) []).span = (next m.text pos a []).span := by
          rcases hA : (next m.text pos (a ++ 10 :: Z) []).span with ⟨x1, x2⟩
          rcases hB : (next m.text pos a []).span with ⟨y1, y2⟩
          rw [hA, hB] at g4 g5
          cases g4
          cases g5
          rfl
        obtain ⟨i1, i2⟩ := ok_app Z k (by omega) h1
        have hlen : (next m.text pos a []).span.stop + (next m.text pos a []).rest.length + 1 = pos + a.length + 1 := by omega
        rw [hlen] at i1 i2
        constructor
        · rw [okFrom_unfold, g1, g2, g3, g5, hsig, hmode, ← i1]
          rfl
        · obtain ⟨d1, d2, d3⟩ := next_same m.text pos (a ++ 10 :: Z) []
          have : sigToks pos (a ++ 10 :: Z) = significant [(some t, (next m.text pos a []).span)] ++
              sigToks (next m.text pos a []).span.stop ((next m.text pos a []).rest ++ 10 :: Z) := by
            unfold sigToks
            rw [rawToks_unfold, ← d1, g1, ← d2, ← d3, g3, g6]
            exact significant_append [_] _
          rw [this, i2, hsig, List.append_assoc]
      · have hrest : (next m.text pos a []).rest = [] := by
          by_cases h : (next m.text pos a []).rest = []
          · exact h
          · exact absurd (.inl h) hcase
        have hc : ∃ c, t = .lineComment c := Classical.byContradiction fun h => hcase (.inr fun c hc => h ⟨c, hc⟩)
        obtain ⟨c, rfl⟩ := hc
        have hlex := s4 _ hr rfl h0
        rw [hrest, List.append_nil] at e1
        have hs0 : sigToks pos a = [] := by
          rw [hsig, hrest]
          rfl
        rw [hs0]
        refine ⟨?_, ?_⟩
        · have two : ∀ {text text2 r c}, Lexeme m.text text (.lineComment c) → text.getLast? = some 10 → text ++ r = text2 →
              okFrom m pos (b ++ text2) = okFrom m (pos + b.length + text.length) r := by
            rintro text _ r c h hx rfl
            have h1 := next_of hb h (.inl hx : Ends text (.lineComment c) r) pos []
            rw [okFrom_unfold, h1]
            simp only [decide_true, Bool.true_and]
            rw [Mode.step_trivia rfl]
          have both : ∀ p : Bytes, p ≠ [] → (∀ s t, IsLine s → Crlf s t → Lexeme m.text (p ++ s) (.lineComment t)) → ∀ s t, IsLine s → Crlf s t →
              okFrom m pos (b ++ ((p ++ s) ++ 10 :: Z)) = okFrom m (pos + b.length + (p ++ s).length + 1) Z := by
            intro p hp hx s t hs ht
            obtain ⟨l, hl10, hs | hs⟩ := hs <;> subst hs
            · have := two (r := Z) (hx (s ++ [10]) _ ⟨s, hl10, .inr rfl⟩ (crlf_of _)) (by simp) (text2 := p ++ s ++ 10 :: Z) (by simp)
              rw [this]
              simp [Nat.add_assoc]
            · rw [two (r := 10 :: Z) (hx (l ++ [10]) t ⟨l, hl10, .inr rfl⟩ ht) (by simp) rfl]
              exact nl (b := []) nofun
          have : okFrom m pos (b ++ (x ++ 10 :: Z)) = okFrom m (pos + b.length + x.length + 1) Z := by
            generalize ht : Token.lineComment c = t at hlex
            cases hlex with
            | lineComment h1 h2 => exact both [47, 47] (by simp) (fun s t => .lineComment) _ _ h1 h2
            | hashComment htf h1 h2 => exact both [35] (by simp) (fun s t => .hashComment htf) _ _ h1 h2
            | _ => cases ht
          rw [e1, List.append_assoc, this, List.length_append, Nat.add_assoc pos]
          rfl
        · have := sig_comment hb hlex pos Z
          unfold sigToks
          rw [e1, List.append_assoc, this, List.length_append, Nat.add_assoc pos]
          rfl

end Verif
