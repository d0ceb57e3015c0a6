import Verif.Proofs.Lexer
/-! One lexing step: its slice is non-empty and inside the input, token and length depend on the input only,
errors stay inside the source, and a step without errors in the strict mode has no errors in any mode. -/
namespace Verif.Lex

/-- What holds of every lexing function on an input of `len` bytes. -/
structure Good {T : Type} (len : Nat) (f : Bool → Nat → List ParseErrorKind → T × Nat × List ParseErrorKind) : Prop where
  indep : ∀ tf pos errs tf' pos' errs', (f tf pos errs).1 = (f tf' pos' errs').1 ∧
    (f tf pos errs).2.1 = (f tf' pos' errs').2.1
  bounds : ∀ tf pos errs, 1 ≤ (f tf pos errs).2.1 ∧ (f tf pos errs).2.1 ≤ len
  errs : ∀ L tf pos errs, ErrsOk L errs → pos + len ≤ L → ErrsOk L (f tf pos errs).2.2
  ne : ∀ tf pos errs, errs ≠ [] → (f tf pos errs).2.2 ≠ []
  clean : ∀ tf pos pos' errs, (f false pos []).2.2 = [] → (f tf pos' errs).2.2 = errs

theorem good_const {T : Type} (len n : Nat) (t : T) (h1 : 1 ≤ n) (h2 : n ≤ len) :
    Good len (fun _ _ errs => (t, n, errs)) where
  indep := by intros; exact ⟨rfl, rfl⟩
  bounds := by intros; exact ⟨h1, h2⟩
  errs := by intro L tf pos errs h _; exact h
  ne := by intro _ _ _ h; exact h
  clean := by intros; rfl

theorem good_float (len n : Nat) (hs : Bool) (s : Bytes) (h1 : 1 ≤ n) (h2 : n ≤ len) :
    Good len (fun tf pos errs => float tf pos n hs s errs) where
  indep := by intros; exact ⟨float_indep .., by rw [float_len, float_len]⟩
  bounds := by intros; rw [float_len]; exact ⟨h1, h2⟩
  errs := by intro L tf pos errs h hL; exact float_errs h (by omega)
  ne := by intro _ _ _ h; exact float_errs_ne h
  clean := by intro _ _ _ _ h; exact float_clean h

theorem good_int (len radix pre n : Nat) (ds rest : Bytes) (h1 : 1 ≤ n) (hp : pre ≤ n)
    (h2 : n + rest.length ≤ len) :
    Good len (fun _ pos errs =>
      (Token.int (int radix pre pos n ds rest errs).1, n, (int radix pre pos n ds rest errs).2)) where
  indep := by intros; exact ⟨by simp only [int_indep radix pre _ 0 n ds rest _ []], rfl⟩
  bounds := by intros; exact ⟨h1, by simp only; omega⟩
  errs := by intro L tf pos errs h hL; exact int_errs h hp (by omega)
  ne := by intro _ _ _ h; exact int_errs_ne h
  clean := by intro _ _ _ _ h; exact int_clean h

theorem good_ite {T : Type} {len : Nat} {c : Prop} [Decidable c]
    {f g : Bool → Nat → List ParseErrorKind → T × Nat × List ParseErrorKind}
    (hf : c → Good len f) (hg : ¬c → Good len g) :
    Good len (fun tf pos errs => if c then f tf pos errs else g tf pos errs) := by
  by_cases h : c
  · simpa [h] using hf h
  · simpa [h] using hg h

theorem Good.some {T : Type} {len : Nat} {f : Bool → Nat → List ParseErrorKind → T × Nat × List ParseErrorKind}
    (h : Good len f) :
    Good len (fun tf pos errs => (some (f tf pos errs).1, (f tf pos errs).2.1, (f tf pos errs).2.2)) where
  indep := by intro a b c d e g; exact ⟨by rw [(h.indep a b c d e g).1], (h.indep a b c d e g).2⟩
  bounds := h.bounds
  errs := h.errs
  ne := h.ne
  clean := h.clean

theorem good_number (s : Bytes) (hs : s.takeWhile isDigit ≠ []) :
    Good s.length (fun tf pos errs => number tf pos s errs) := by
  have hsplit := takeWhile_dropWhile_length isDigit s
  have hds : 1 ≤ (s.takeWhile isDigit).length := by
    rcases h : s.takeWhile isDigit with _ | ⟨a, l⟩
    · exact absurd h hs
    · simp
  unfold number
  simp only
  generalize hr : s.dropWhile isDigit = r at *
  generalize hd : s.takeWhile isDigit = ds at *
  split
  · rename_i r1
    have h1 := takeWhile_dropWhile_length isDigit r1
    have h2 := exponentLen_le (r1.dropWhile isDigit)
    have h3 := suffixLen_le ((r1.dropWhile isDigit).drop (exponentLen (r1.dropWhile isDigit)))
    rw [List.length_drop] at h3
    simp only [List.length_cons] at hsplit
    apply good_float <;> omega
  · apply good_ite
    · intro _
      have h2 := exponentLen_le r
      have h3 := suffixLen_le (r.drop (exponentLen r))
      rw [List.length_drop] at h3
      apply good_float <;> omega
    · intro _
      apply good_ite
      · intro h0
        subst h0
        cases r with
        | nil => exact good_const _ _ _ (by omega) (by omega)
        | cons x r1 =>
          simp only
          have h1 := takeWhile_dropWhile_length isHexDigit r1
          simp only [List.length_cons, List.length_nil] at hsplit
          apply good_ite
          · intro _
            apply good_int <;> omega
          · intro _
            apply good_ite
            · intro _; apply good_float <;> omega
            · intro _; exact good_const _ _ _ (by omega) (by omega)
      · intro _
        have hend : Good s.length (fun tf pos errs => if suffixLen r = 1 then float tf pos (ds.length + 1) true s errs
            else (Token.int (int 10 0 pos ds.length ds r errs).1, ds.length, (int 10 0 pos ds.length ds r errs).2)) := by
          apply good_ite
          · intro h
            have := suffixLen_le r
            apply good_float <;> omega
          · intro _
            apply good_int <;> omega
        rcases ds with _ | ⟨d, _ | ⟨d2, ds'⟩⟩
        · simp at hds
        · have h : ∀ (α : Type) (f : UInt8 → Bytes → α) (g : α), (match [d] with | 48 :: d2 :: ds' => f d2 ds' | _ => g) = g := by
            intro α f g; split
            · simp_all
            · rfl
          simpa only [h] using hend
        · by_cases h48 : d = 48
          · subst h48
            simp only
            apply good_ite
            · intro _
              apply good_int <;> (try simp only [List.length_cons] at *) <;> omega
            · intro _; exact good_const _ _ _ (by simp) (by omega)
          · split
            · rename_i heq; injection heq with h1 h2; exact absurd h1 h48
            · exact hend

theorem good_string (q : UInt8) (r : Bytes) : Good (1 + r.length) (fun _ pos errs => string pos q r errs) where
  indep := by
    intro _ pos errs _ pos' errs'
    have := strLoop_indep q (r.length + 1) (pos + 1) (pos' + 1) r 0 [] errs errs'
    simp only [string]
    rw [this.1, this.2]; exact ⟨rfl, rfl⟩
  bounds := by
    intro _ pos errs
    have := strLoop_len q (r.length + 1) (pos + 1) r 0 [] errs
    simp only [string]; omega
  errs := by
    intro L _ pos errs h hL
    exact strLoop_errs q L _ _ _ _ _ _ h (by omega)
  ne := by intro _ _ _ h; exact strLoop_errs_ne _ _ _ _ _ _ _ h
  clean := by intro _ _ _ _ h; exact strLoop_clean _ _ _ _ _ _ _ _ h

theorem good_block (r : Bytes) : Good (2 + r.length) (fun _ pos errs => blockComment pos r errs) where
  indep := by
    intro _ pos errs _ pos' errs'
    have := commentLoop_indep (r.length + 1) (pos + 2) (pos' + 2) r 0 r.length 1 none [] errs errs'
    simp only [blockComment]
    rw [this.1, this.2]; exact ⟨rfl, rfl⟩
  bounds := by
    intro _ pos errs
    have := commentLoop_len (r.length + 1) (pos + 2) r 0 r.length 1 none [] errs (by omega) (by nofun)
    simp only [blockComment]; omega
  errs := by
    intro L _ pos errs h hL
    exact commentLoop_errs L _ _ _ _ _ _ _ _ _ h (by omega)
  ne := by intro _ _ _ h; exact commentLoop_errs_ne _ _ _ _ _ _ _ _ _ h
  clean := by intro _ _ _ _ h; exact commentLoop_clean _ _ _ _ _ _ _ _ _ _ h

theorem good_line (pre : Nat) (hash : Bool) (s : Bytes) (h1 : 1 ≤ pre) (h2 : pre ≤ s.length) :
    Good s.length (fun tf pos errs => lineComment tf pos pre hash s errs) := by
  have hb := takeWhile_dropWhile_length (· != 10) (s.drop pre)
  rw [List.length_drop] at hb
  have hn : ∀ tf pos errs, (lineComment tf pos pre hash s errs).2.1 ≤ s.length ∧
      1 ≤ (lineComment tf pos pre hash s errs).2.1 := by
    intro tf pos errs
    simp only [lineComment]
    split <;> rename_i heq <;> rw [heq] at hb <;> simp at hb ⊢ <;> omega
  constructor
  · intros; exact ⟨rfl, rfl⟩
  · intro tf pos errs; exact ⟨(hn tf pos errs).2, (hn tf pos errs).1⟩
  · intro L tf pos errs h hL
    have := (hn tf pos errs).1
    simp only [lineComment] at this ⊢
    split
    · apply h.append
      intro s hs
      simp only [ParseErrorKind.spans, List.mem_singleton] at hs; subst hs
      simp only [SpanOk]; omega
    · exact h
  · intro tf pos errs h
    simp only [lineComment]
    split
    · simp
    · exact h
  · intro tf pos pos' errs h
    simp only [lineComment] at h ⊢
    split at h
    · simp at h
    · rename_i hc
      simp at hc
      simp [hc]

theorem good_lexToken (s : Bytes) (hs : s ≠ []) :
    Good s.length (fun tf pos errs => lexToken tf pos s errs) := by
  cases s with
  | nil => exact absurd rfl hs
  | cons b r =>
    unfold lexToken
    simp only
    apply good_ite
    · intro h
      have := takeWhile_length_le isIdentCont (b :: r)
      have hi : isIdentCont b = true := by
        simp only [isIdentStart, isIdentCont, isAlnum, Bool.or_eq_true] at h ⊢
        rcases h with h | h
        · exact Or.inl (Or.inl h)
        · exact Or.inr h
      exact good_const _ _ _ (by simp [hi]) this
    · intro _
      apply good_ite
      · intro h
        exact (good_number (b :: r) (by simp [h])).some
      · intro _
        apply good_ite
        · intro _
          apply Good.some
          have h1 := takeWhile_dropWhile_length isDigit r
          have h2 := exponentLen_le (r.dropWhile isDigit)
          have h3 := suffixLen_le ((r.dropWhile isDigit).drop (exponentLen (r.dropWhile isDigit)))
          rw [List.length_drop] at h3
          apply good_float <;> (try simp only [List.length_cons]) <;> omega
        · intro _
          apply good_ite
          · intro _
            have := (good_string b r).some
            rw [List.length_cons, Nat.add_comm]; exact this
          · intro _
            apply good_ite
            · intro _
              exact (good_line 1 true (b :: r) (by omega) (by simp)).some
            · intro _
              apply good_ite
              · intro h
                cases r with
                | nil => simp at h
                | cons c r => exact (good_line 2 false (b :: c :: r) (by omega) (by simp)).some
              · intro _
                apply good_ite
                · intro h
                  cases r with
                  | nil => simp at h
                  | cons c r =>
                    have := (good_block r).some
                    rw [show (b :: c :: r).length = 2 + r.length by simp; omega]
                    exact this
                · intro _
                  split
                  · exact good_const _ _ _ (by omega) (by simp)
                  · have := errLen_bounds (b :: r) (by simp)
                    exact good_const _ _ _ this.1 this.2

/-! `Lex.next` -/

theorem next_eof_or (tf pos s errs) :
    (next tf pos s errs).res = .eof ↔ s.dropWhile isSkip = [] := by
  unfold next
  simp only
  generalize s.dropWhile isSkip = t
  cases t with
  | nil => simp
  | cons b r =>
    simp only
    split <;> simp

/-- Result, remaining input and slice length depend on the input only. -/
theorem next_indep (tf tf' pos pos' s errs errs') :
    (next tf pos s errs).res = (next tf' pos' s errs').res ∧
    (next tf pos s errs).rest = (next tf' pos' s errs').rest ∧
    (next tf pos s errs).span.start + pos' = (next tf' pos' s errs').span.start + pos ∧
    (next tf pos s errs).span.stop + pos' = (next tf' pos' s errs').span.stop + pos := by
  unfold next
  simp only
  generalize hs : (s.takeWhile isSkip).length = k
  generalize s.dropWhile isSkip = t
  cases t with
  | nil => refine ⟨rfl, rfl, ?_, ?_⟩ <;> simp only <;> omega
  | cons b r =>
    simp only
    have h := (good_lexToken (b :: r) (by simp)).indep tf (pos + k) errs tf' (pos' + k) errs'
    rcases h1 : lexToken tf (pos + k) (b :: r) errs with ⟨t1, n1, e1⟩
    rcases h2 : lexToken tf' (pos' + k) (b :: r) errs' with ⟨t2, n2, e2⟩
    simp only [h1, h2] at h
    obtain ⟨rfl, rfl⟩ := h
    cases t1 <;> refine ⟨rfl, rfl, ?_, ?_⟩ <;> simp only <;> omega

/-- Facts about one step of the lexer on the input `s` at position `pos`. -/
structure NextFacts (pos : Nat) (s : Bytes) (errs : List ParseErrorKind) (o : Out) : Prop where
  stop_rest : o.span.stop + o.rest.length = pos + s.length
  start_ge : pos ≤ o.span.start
  start_le : o.span.start ≤ o.span.stop
  nonempty : o.res ≠ .eof → o.span.start < o.span.stop
  eof_rest : o.res = .eof → o.rest = [] ∧ o.span.start = o.span.stop
  errs_ok : ∀ L, ErrsOk L errs → pos + s.length ≤ L → ErrsOk L o.errs
  errs_ne : errs ≠ [] → o.errs ≠ []

theorem next_facts (tf pos s errs) : NextFacts pos s errs (next tf pos s errs) := by
  have hsplit := takeWhile_dropWhile_length isSkip s
  unfold next
  simp only
  generalize hk : (s.takeWhile isSkip).length = k at *
  generalize hs : s.dropWhile isSkip = t at *
  cases t with
  | nil =>
    simp only [List.length_nil] at hsplit
    constructor <;> simp only [List.length_nil]
    · omega
    · omega
    · omega
    · intro h; exact absurd rfl h
    · intro _; exact by simp
    · intro L h _; exact h
    · exact id
  | cons b r =>
    simp only
    have g := good_lexToken (b :: r) (by simp)
    have hl := g.bounds tf (pos + k) errs
    have he := fun L h1 h2 => g.errs L tf (pos + k) errs h1 h2
    have hn := g.ne tf (pos + k) errs
    rcases h1 : lexToken tf (pos + k) (b :: r) errs with ⟨t1, n1, e1⟩
    simp only [h1] at hl he hn
    simp only [List.length_cons] at hsplit hl he
    have key : NextFacts pos s errs ⟨(match t1 with | some t => Res.tok t | none => Res.error), ⟨pos + k, pos + k + n1⟩,
        (b :: r).drop n1, e1⟩ := by
      constructor <;> simp only
      · rw [List.length_drop]; simp only [List.length_cons]; omega
      · omega
      · omega
      · intro _; omega
      · intro h; cases t1 <;> simp at h
      · intro L h hL; exact he L h (by omega)
      · exact hn
    cases t1 <;> exact key

/-- A step without errors in the strict mode records none in any mode, from any error list. -/
theorem next_clean (tf pos pos' s errs) (h : (next false pos s []).errs = []) :
    (next tf pos' s errs).errs = errs := by
  unfold next at h ⊢
  simp only at h ⊢
  generalize hk : (s.takeWhile isSkip).length = k at *
  generalize hs : s.dropWhile isSkip = t at *
  cases t with
  | nil => rfl
  | cons b r =>
    simp only at h ⊢
    have g := (good_lexToken (b :: r) (by simp)).clean tf (pos + k) (pos' + k) errs
    rcases h1 : lexToken tf (pos' + k) (b :: r) errs with ⟨t1, n1, e1⟩
    rcases h2 : lexToken false (pos + k) (b :: r) [] with ⟨t2, n2, e2⟩
    simp only [h1, h2] at g h ⊢
    cases t1 <;> cases t2 <;> exact g h

end Verif.Lex
