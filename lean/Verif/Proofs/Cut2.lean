import Verif.Proofs.Cut
/-! The token at the beginning of a source that is cut somewhere after it. -/
namespace Verif.Lex
open Spec

theorem tl_indep {s : Bytes} (hs : s ≠ []) (tf pos errs tf' pos' errs') : tl (lexToken tf pos s errs) = tl (lexToken tf' pos' s errs') := by
  have h := (good_lexToken s hs).indep tf pos errs tf' pos' errs'
  exact Prod.ext h.1 h.2

theorem starts_cut {p : UInt8 → Bool} (hp : p 10 = false) {a r Z : Bytes} (h : startsWith p (a ++ r) = false ∨ a ≠ []) :
    startsWith p (a ++ 10 :: Z) = startsWith p (a ++ r) := by
  cases a with
  | nil =>
    rw [List.nil_append, List.nil_append]
    rcases h with h | h
    · rw [show startsWith p r = false from h]; exact hp
    · exact absurd rfl h
  | cons b a => rfl

theorem head_cut {c : UInt8} (hc : c ≠ 10) {a r Z : Bytes} (h : (a ++ r).head? ≠ some c ∨ a ≠ []) :
    (a ++ 10 :: Z).head? = some c ↔ (a ++ r).head? = some c := by
  cases a with
  | nil =>
    rw [List.nil_append, List.nil_append]
    rcases h with h | h
    · exact ⟨fun h' => absurd (by injection h' with h'; exact h'.symm) hc, fun h' => absurd h' h⟩
    · exact absurd rfl h
  | cons b a => exact Iff.rfl

theorem tl_line (tf pos pre hash s errs) : tl (lineComment tf pos pre hash s errs) =
    (let body := (s.drop pre).takeWhile (· != 10)
     let nl := match (s.drop pre).dropWhile (· != 10) with | _ :: _ => 1 | [] => 0
     (.lineComment (normalizeNewlines ((s.drop pre).take (body.length + nl))), pre + body.length + nl)) := rfl

/-- What a line comment is, when its line ends before the cut. -/
theorem line_cut {tf pos hash errs tf' pos' hash' errs'} {a r Z : Bytes} {pre : Nat}
    (h : (tl (lineComment tf pos pre hash (a ++ r) errs)).2 ≤ a.length)
    (hr : (tl (lineComment tf pos pre hash (a ++ r) errs)).2 < (a ++ r).length) :
    tl (lineComment tf' pos' pre hash' (a ++ 10 :: Z) errs') = tl (lineComment tf pos pre hash (a ++ r) errs) := by
  rw [tl_line] at h hr ⊢
  rw [tl_line]
  dsimp only at h hr ⊢
  have hp : pre ≤ a.length := by omega
  rw [drop_cut hp] at h hr ⊢
  rw [drop_cut hp]
  have hlen : (a.drop pre).length = a.length - pre := List.length_drop
  obtain ⟨h1, a', h2, h3, h4⟩ := tw_cut (p := (· != 10)) rfl (r := r) (Z := Z) (a.drop pre) (by omega)
  have hne : ∃ c l, a' ++ r = c :: l ∧ a' ≠ [] := by
    cases a' with
    | nil =>
      cases r with
      | nil =>
        rw [h2] at hr
        simp only [List.append_nil, List.length_nil] at hr h4
        omega
      | cons c r =>
        rw [h2] at h
        simp only [List.nil_append, List.length_nil] at h h4
        omega
    | cons c a' => exact ⟨c, a' ++ r, rfl, by simp⟩
  obtain ⟨c, l, hl, hne⟩ := hne
  obtain ⟨c', l', hl'⟩ : ∃ c l, a' ++ 10 :: Z = c :: l := by cases a' <;> exact ⟨_, _, rfl⟩
  rw [h1, h2, h3, hl, hl']
  rw [h2, hl] at h
  dsimp only at h ⊢
  rw [take_cut (r := r) (by omega)]

theorem skip_blank {b : UInt8} : isSkip b = true ↔ Blank [b] := by
  simp only [isSkip, Blank, Bool.or_eq_true, beq_iff_eq, List.mem_singleton, forall_eq]
  simp only [or_assoc]

/-- A block comment takes the blanks after it along. -/
theorem block_ends {tf0 tf pos errs} {text r : Bytes} {u : Bytes} (hl : Lexeme tf0 text (.blockComment u))
    (h : (tl (lexToken tf pos (text ++ r) errs)).2 = text.length) : Ends text (.blockComment u) r := by
  generalize ht : Token.blockComment u = t at hl
  cases hl with
  | blockComment h1 h2 h3 h4 h5 =>
    cases ht
    rename_i s w t
    intro b hb hbl
    have hw : Blank (w ++ r.takeWhile isSkip) := by
      intro c hc
      rcases List.mem_append.1 hc with hc | hc
      · exact h5 c hc
      · exact skip_blank.1 (takeWhile_all c hc) c (List.mem_singleton.2 rfl)
    have hx := lexToken_of (.blockComment (tf := tf) h1 h2 h3 h4 hw) pos (r.dropWhile isSkip) errs (by
      intro c hc hcb
      cases hd : r.dropWhile isSkip with
      | nil => rw [hd] at hc; cases hc
      | cons c' l =>
        rw [hd] at hc
        cases hc
        have := (dropWhile_stop (p := isSkip) r).1
        rw [hd, List.takeWhile_cons, skip_blank.2 hcb] at this
        cases this)
    have he : 47 :: 42 :: s ++ 42 :: 47 :: (w ++ r.takeWhile isSkip) ++ r.dropWhile isSkip = 47 :: 42 :: s ++ 42 :: 47 :: w ++ r := by
      simp [List.takeWhile_append_dropWhile]
    rw [he] at hx
    rw [hx] at h
    have h0 : r.takeWhile isSkip ≠ [] := by
      cases r with
      | nil => cases hb
      | cons c r =>
        cases hb
        rw [List.takeWhile_cons, skip_blank.2 hbl]
        simp
    have : 0 < (r.takeWhile isSkip).length := List.length_pos_iff.2 h0
    have h : (47 :: 42 :: s ++ 42 :: 47 :: (w ++ r.takeWhile isSkip)).length = (47 :: 42 :: s ++ 42 :: 47 :: w).length := h
    simp only [List.length_append, List.length_cons] at h
    omega
  | _ => cases ht

theorem lexToken_cut {tf0 tf pos errs tf' pos' errs'} {a r Z : Bytes} {t : Token} {n : Nat}
    (h : tl (lexToken tf pos (a ++ r) errs) = (some t, n)) (hn : n ≤ a.length) (hl : Lexeme tf0 ((a ++ r).take n) t)
    (hr : n < (a ++ r).length ∨ ∀ c, t ≠ .lineComment c) : tl (lexToken tf' pos' (a ++ 10 :: Z) errs') = (some t, n) := by
  -- by the text of the token
  have viaText : (∀ text rest : Bytes, text = (a ++ r).take n → rest = a.drop n ++ 10 :: Z → Ends text t rest) →
      tl (lexToken tf' pos' (a ++ 10 :: Z) errs') = (some t, n) := by
    intro hE
    have h1 := lexToken_of hl pos' _ errs' (hE _ _ rfl rfl)
    have h2 : (a ++ r).take n ++ (a.drop n ++ 10 :: Z) = a ++ 10 :: Z := by
      rw [List.take_append_of_le_length hn, ← List.append_assoc, List.take_append_drop]
    rw [h2] at h1
    rw [tl_indep (by simp) tf' pos' errs' tf0 pos' errs', h1]
    simp only [tl]
    rw [List.length_take, Nat.min_eq_left]
    rw [List.length_append]; omega
  have hpos : a ≠ [] := by
    rintro rfl
    obtain ⟨b, x, hx, _⟩ := lexeme_head hl
    have : n = 0 := by simpa using hn
    subst this
    cases hx
  cases a with
  | nil => exact absurd rfl hpos
  | cons b a =>
    rw [List.cons_append] at h
    rw [List.cons_append]
    unfold lexToken at h ⊢
    dsimp only at h ⊢
    by_cases h1 : isIdentStart b = true
    · rw [if_pos h1] at h ⊢
      cases h
      have := (tw_cut (p := isIdentCont) rfl (r := r) (Z := Z) (b :: a) hn).1
      simp only [List.cons_append] at this
      rw [this]
      rfl
    rw [if_neg h1] at h ⊢
    by_cases h2 : isDigit b = true
    · rw [if_pos h2] at h ⊢
      have hd : (b :: a ++ r).takeWhile isDigit ≠ [] := by simp [List.takeWhile_cons, h2]
      have hc := number_cut (tf := tf) (tf' := tf') (pos := pos) (pos' := pos') (errs := errs) (errs' := errs') (r := r) (Z := Z) (b :: a) hd (by
        have : (tl (number tf pos (b :: a ++ r) errs)).2 = n := congrArg Prod.snd h
        omega)
      rw [← h]
      exact congrArg (fun x : Token × Nat => (some x.1, x.2)) hc
    rw [if_neg h2] at h ⊢
    by_cases h3 : (b == 46 && startsWith isDigit (a ++ r)) = true
    · rw [if_pos h3] at h
      simp only [Bool.and_eq_true] at h3
      have hf : tl (float tf pos (1 + ((a ++ r).takeWhile isDigit).length + exponentLen ((a ++ r).dropWhile isDigit) +
          suffixLen (((a ++ r).dropWhile isDigit).drop (exponentLen ((a ++ r).dropWhile isDigit))))
          (suffixLen (((a ++ r).dropWhile isDigit).drop (exponentLen ((a ++ r).dropWhile isDigit))) == 1) (b :: (a ++ r)) errs) = (t, n) := by
        have := h
        simp only [tl, Prod.mk.injEq, Option.some.injEq] at this ⊢
        exact this
      rw [float_tl] at hf
      injection hf with hf1 hf2
      have hne : (a ++ r).takeWhile isDigit ≠ [] := by
        cases hx : a ++ r with
        | nil => rw [hx] at h3; cases h3.2
        | cons c l =>
          rw [hx] at h3
          have : isDigit c = true := h3.2
          simp [List.takeWhile_cons, this]
      have hlen := List.length_pos_iff.2 hne
      simp only [List.length_cons] at hn
      obtain ⟨f1, f2, f3⟩ := frac_cut (r := r) (Z := Z) a (by omega)
      have ha : a ≠ [] := by rintro rfl; simp only [List.nil_append, List.length_nil] at *; omega
      rw [if_pos (show (b == 46 && startsWith isDigit (a ++ 10 :: Z)) = true by rw [starts_cut (r := r) rfl (.inr ha), h3.1, h3.2]; rfl)]
      rw [f2, f3, f1]
      show (some (tl (float _ _ _ _ _ _)).1, (tl (float _ _ _ _ _ _)).2) = _
      rw [float_tl]
      rw [← hf1, ← hf2]
      refine congrArg (fun x => (some (Token.float x), _)) ?_
      refine take_cut (a := b :: a) (r := r) (Z := Z) ?_
      simp only [List.length_cons]
      split <;> omega
    rw [if_neg h3] at h
    have h3' : ¬ (b == 46 && startsWith isDigit (a ++ 10 :: Z)) = true := by
      intro h'
      simp only [Bool.and_eq_true, not_and, Bool.not_eq_true] at h3 h'
      rw [starts_cut rfl (.inl (h3 h'.1))] at h'
      rw [h3 h'.1] at h'
      exact nomatch h'.2
    rw [if_neg h3']
    by_cases h4 : (b == 39 || b == 34) = true
    · have ht : ∃ v, t = .string v := by
        rw [if_pos h4] at h
        injection h with h _
        injection h with h
        exact ⟨_, h.symm⟩
      obtain ⟨v, rfl⟩ := ht
      have := viaText fun _ _ _ _ => trivial
      rw [List.cons_append] at this
      unfold lexToken at this
      dsimp only at this
      rwa [if_neg h1, if_neg h2, if_neg h3'] at this
    rw [if_neg h4] at h ⊢
    by_cases h5 : (b == 35) = true
    · rw [if_pos h5] at h ⊢
      have ht : ∃ c, t = .lineComment c := by
        injection h with h _
        injection h with h
        exact ⟨_, h.symm⟩
      obtain ⟨c, rfl⟩ := ht
      have hc := line_cut (tf := tf) (tf' := tf') (pos := pos) (pos' := pos') (hash := true) (hash' := true) (errs := errs) (errs' := errs') (pre := 1)
        (a := b :: a) (r := r) (Z := Z) (by
          have : (tl (lineComment tf pos 1 true (b :: a ++ r) errs)).2 = n := congrArg Prod.snd h
          omega) (by
          have : (tl (lineComment tf pos 1 true (b :: a ++ r) errs)).2 = n := congrArg Prod.snd h
          rw [this]
          exact hr.resolve_right fun h => h c rfl)
      rw [← h]
      exact congrArg (fun x : Token × Nat => (some x.1, x.2)) hc
    rw [if_neg h5] at h ⊢
    by_cases h6 : (b == 47 && (a ++ r).head? = some 47) = true
    · rw [if_pos h6] at h
      have ht : ∃ c, t = .lineComment c := by
        injection h with h _
        injection h with h
        exact ⟨_, h.symm⟩
      obtain ⟨c, rfl⟩ := ht
      have hle : (tl (lineComment tf pos 2 false (b :: a ++ r) errs)).2 = n := congrArg Prod.snd h
      have ha : a ≠ [] := by
        rintro rfl
        rw [tl_line] at hle
        dsimp only at hle
        simp only [List.length_cons, List.length_nil] at hn
        omega
      rw [if_pos (by
        simp only [Bool.and_eq_true, decide_eq_true_eq] at h6 ⊢
        exact ⟨h6.1, (head_cut (by decide) (.inr ha)).2 h6.2⟩)]
      have hc := line_cut (tf := tf) (tf' := tf') (pos := pos) (pos' := pos') (hash := false) (hash' := false) (errs := errs) (errs' := errs') (pre := 2)
        (a := b :: a) (r := r) (Z := Z) (by omega) (by rw [hle]; exact hr.resolve_right fun h => h c rfl)
      rw [← h]
      exact congrArg (fun x : Token × Nat => (some x.1, x.2)) hc
    rw [if_neg h6] at h
    have h6' : ¬ (b == 47 && (a ++ 10 :: Z).head? = some 47) = true := by
      simp only [Bool.and_eq_true, decide_eq_true_eq, not_and] at h6 ⊢
      intro hb
      rw [head_cut (by decide) (.inl (h6 hb))]
      exact h6 hb
    rw [if_neg h6']
    by_cases h7 : (b == 47 && (a ++ r).head? = some 42) = true
    · have ht : ∃ v, t = .blockComment v := by
        rw [if_pos h7] at h
        injection h with h _
        injection h with h
        exact ⟨_, h.symm⟩
      obtain ⟨v, rfl⟩ := ht
      have hx : tl (lexToken tf pos ((b :: a ++ r).take n ++ (b :: a ++ r).drop n) errs) = (some (.blockComment v), n) := by
        rw [List.take_append_drop, List.cons_append]
        unfold lexToken
        dsimp only
        rw [if_neg h1, if_neg h2, if_neg h3, if_neg h4, if_neg h5, if_neg h6]
        exact h
      have hlen : ((b :: a ++ r).take n).length = n := by rw [List.length_take, List.length_append]; omega
      have hE := block_ends hl (by rw [hx, hlen])
      have := viaText (by
        rintro text rest rfl rfl
        cases hd : (b :: a).drop n with
        | nil =>
          intro c hc
          cases hc
          rw [← skip_blank]
          decide
        | cons c l =>
          rw [drop_cut hn, hd] at hE
          exact hE)
      rw [List.cons_append] at this
      unfold lexToken at this
      dsimp only at this
      rwa [if_neg h1, if_neg h2, if_neg h3', if_neg h4, if_neg h5, if_neg h6'] at this
    rw [if_neg h7] at h
    have h7' : ¬ (b == 47 && (a ++ 10 :: Z).head? = some 42) = true := by
      simp only [Bool.and_eq_true, decide_eq_true_eq, not_and] at h7 ⊢
      intro hb
      rw [head_cut (by decide) (.inl (h7 hb))]
      exact h7 hb
    rw [if_neg h7']
    revert h
    cases punct b with
    | none => intro h; cases h
    | some t' => intro h; exact h

end Verif.Lex

namespace Verif
open Lex Spec

theorem significant_append (a b : List (Option Token × Span)) : significant (a ++ b) = significant a ++ significant b := List.filterMap_append

/-- A line break after blanks. -/
theorem sig_break {a : Bytes} (ha : Blank a) (pos : Nat) (Z : Bytes) :
    significant (rawToks pos (a ++ 10 :: Z)) = significant (rawToks (pos + a.length + 1) Z) := by
  have h := next_of (tf := false) (lead := a) (text := [10]) (r := Z) ha .newline trivial pos []
  rw [rawToks_unfold, show a ++ 10 :: Z = a ++ ([10] ++ Z) from rfl, h]
  rfl

/-- A comment up to the end of the source, and then a line break. -/
theorem sig_comment {lead text : Bytes} {c : Bytes} (hl : Blank lead) {tf} (h : Lexeme tf text (.lineComment c)) (pos : Nat) (Z : Bytes) :
    significant (rawToks pos (lead ++ (text ++ 10 :: Z))) = significant (rawToks (pos + lead.length + text.length + 1) Z) := by
  have two : ∀ {text text2 r c}, Lexeme tf text (.lineComment c) → text.getLast? = some 10 → text ++ r = text2 →
      significant (rawToks pos (lead ++ text2)) = significant (rawToks (pos + lead.length + text.length) r) := by
    rintro text _ r c h hx rfl
    have h1 := next_of hl h (.inl hx : Ends text (.lineComment c) r) pos []
    obtain ⟨c1, c2, c3⟩ := next_same tf pos (lead ++ (text ++ r)) []
    rw [h1] at c1 c2 c3
    rw [rawToks_unfold, ← c1, ← c2, ← c3]
    rfl
  have both : ∀ p : Bytes, p ≠ [] → (∀ s t, IsLine s → Crlf s t → Lexeme tf (p ++ s) (.lineComment t)) → ∀ s t, IsLine s → Crlf s t →
      significant (rawToks pos (lead ++ ((p ++ s) ++ 10 :: Z))) = significant (rawToks (pos + lead.length + (p ++ s).length + 1) Z) := by
    intro p hp hx s t hs ht
    obtain ⟨l, hl10, hs | hs⟩ := hs <;> subst hs
    · have := two (r := Z) (hx (s ++ [10]) _ ⟨s, hl10, .inr rfl⟩ (crlf_of _)) (by simp) (text2 := p ++ s ++ 10 :: Z) (by simp)
      rw [this]
      simp [Nat.add_assoc]
    · rw [two (r := 10 :: Z) (hx (l ++ [10]) t ⟨l, hl10, .inr rfl⟩ ht) (by simp) rfl]
      exact sig_break (a := []) nofun _ Z
  generalize ht : Token.lineComment c = t at h
  cases h with
  | lineComment h1 h2 => exact both [47, 47] (by simp) (fun s t => .lineComment) _ _ h1 h2
  | hashComment htf h1 h2 => exact both [35] (by simp) (fun s t => .hashComment htf) _ _ h1 h2
  | _ => cases ht

/-- One token before a cut. -/
theorem next_cut {pos : Nat} {a r Z : Bytes} {t : Token} (h : (next false pos (a ++ r) []).res = .tok t)
    (hstop : (next false pos (a ++ r) []).span.stop ≤ pos + a.length) {tf}
    (hl : ∀ b x, a ++ r = b ++ x ++ (next false pos (a ++ r) []).rest → (next false pos (a ++ r) []).span.start = pos + b.length → Lexeme tf x t)
    (hr : (next false pos (a ++ r) []).rest ≠ [] ∨ ∀ c, t ≠ .lineComment c) :
    (next false pos (a ++ 10 :: Z) []).res = .tok t ∧
    (next false pos (a ++ 10 :: Z) []).span = (next false pos (a ++ r) []).span ∧
    ∃ a', (next false pos (a ++ r) []).rest = a' ++ r ∧ (next false pos (a ++ 10 :: Z) []).rest = a' ++ 10 :: Z ∧
      pos + a.length = (next false pos (a ++ r) []).span.stop + a'.length := by
  have hf := next_facts false pos (a ++ r) []
  have hst : (next false pos (a ++ r) []).span.start = pos + ((a ++ r).takeWhile Lex.isSkip).length := by
    unfold Lex.next
    simp only
    split
    · rfl
    · split <;> rfl
  have hle : ((a ++ r).takeWhile Lex.isSkip).length ≤ a.length := by have := hf.start_le; omega
  obtain ⟨h1, a1, h2, h3, h4⟩ := tw_cut (p := Lex.isSkip) rfl (r := r) (Z := Z) a hle
  have hsplit := List.takeWhile_append_dropWhile (p := isSkip) (l := a ++ r)
  rw [hst] at hl
  unfold next at h hstop hl hr ⊢
  dsimp only at h hstop hl hr ⊢
  rw [h1, h3]
  rw [h2] at h hstop hl hr hsplit ⊢
  cases ha : a1 ++ r with
  | nil => rw [ha] at h; cases h
  | cons b l =>
    rw [ha] at h hstop hl hr
    dsimp only at h hstop hl hr ⊢
    rcases hx : lexToken false (pos + ((a ++ r).takeWhile Lex.isSkip).length) (b :: l) [] with ⟨o, n, e⟩
    rw [hx] at h hstop hl hr
    cases o with
    | none => cases h
    | some t' =>
      cases h
      dsimp only at hstop hl hr ⊢
      have hn : n ≤ a1.length := by omega
      have htl : tl (lexToken false (pos + ((a ++ r).takeWhile Lex.isSkip).length) (a1 ++ r) []) = (some t, n) := by
        rw [ha, hx]; rfl
      have hc := lexToken_cut (Z := Z) (tf' := false) (pos' := pos + ((a ++ r).takeWhile Lex.isSkip).length) (errs' := []) htl hn (hl _ ((a1 ++ r).take n) (by
          rw [← ha, List.append_assoc, List.take_append_drop]; exact hsplit.symm) rfl) (by
          rcases hr with hr | hr
          · left
            rw [ha]
            rcases Nat.lt_or_ge n (b :: l).length with h | h
            · exact h
            · exact absurd (List.drop_eq_nil_of_le h) hr
          · exact .inr hr)
      obtain ⟨c', l', hcl⟩ : ∃ c l, a1 ++ 10 :: Z = c :: l := by cases a1 <;> exact ⟨_, _, rfl⟩
      rw [hcl] at hc ⊢
      dsimp only
      rcases hy : lexToken false (pos + ((a ++ r).takeWhile Lex.isSkip).length) (c' :: l') [] with ⟨o', n', e'⟩
      rw [hy] at hc
      cases hc
      refine ⟨rfl, rfl, a1.drop n', ?_, ?_, ?_⟩
      · rw [← ha]; exact drop_cut hn
      · dsimp only; rw [← hcl]; exact drop_cut hn
      · have hn : n' ≤ a1.length := hn
        dsimp only; rw [List.length_drop]; omega

/-- The significant tokens before a cut stay what they are. -/
theorem sig_cut (src Z : Bytes) : ∀ (pre : List (Option Token × Span)) (p a r : Bytes) (post : List (Option Token × Span)), src = p ++ (a ++ r) →
    rawToks p.length (a ++ r) = pre ++ post →
    (∀ x ∈ pre, x.2.stop ≤ p.length + a.length ∧ ∃ t, x.1 = some t ∧ Lexeme true (textOf src x.2) t) →
    (∀ x, post.head? = some x → p.length + a.length ≤ x.2.start) →
    significant (rawToks p.length (a ++ 10 :: Z)) = significant pre ++ significant (rawToks (p.length + a.length + 1) Z)
  | [], p, a, r, post, _, hraw, _, hpost => by
    refine sig_break (a := a) ?_ _ Z
    obtain ⟨b, t, e1, hb, h1, h2, h3, _⟩ := next_split false p.length (a ++ r) []
    have hf := next_facts false p.length (a ++ r) []
    have hle : a.length ≤ b.length ∧ a <+: b := by
      have : a.length ≤ b.length := by
        rw [rawToks_unfold] at hraw
        cases hr : (next false p.length (a ++ r) []).res with
        | eof =>
          have hr2 := (hf.eof_rest hr).1
          rw [h3 hr, hr2] at e1
          have := congrArg List.length e1
          simp at this
          omega
        | _ =>
          rw [hr] at hraw
          have := hpost _ (by rw [List.nil_append] at hraw; rw [← hraw]; rfl)
          dsimp only at this
          omega
      refine ⟨this, List.prefix_of_prefix_length_le (l₃ := a ++ r) (List.prefix_append ..) ?_ this⟩
      rw [e1, List.append_assoc]
      exact List.prefix_append ..
    exact fun c hc => hb c (hle.2.subset hc)
  | x :: pre, p, a, r, post, hsrc, hraw, hpre, hpost => by
    obtain ⟨hstop, t, hxt, hlex⟩ := hpre x (.head _)
    obtain ⟨b, x0, e1, hb, h1, h2, h3, _⟩ := next_split false p.length (a ++ r) []
    have hf := next_facts false p.length (a ++ r) []
    rw [rawToks_unfold] at hraw
    cases hres : (next false p.length (a ++ r) []).res with
    | eof => rw [hres] at hraw; cases hraw
    | error =>
      rw [hres] at hraw
      have := (List.cons.inj hraw).1
      rw [← this] at hxt
      cases hxt
    | tok t' =>
      rw [hres] at hraw
      obtain ⟨hx, hraw2⟩ := List.cons.inj hraw
      replace hraw : rawToks (next false p.length (a ++ r) []).span.stop (next false p.length (a ++ r) []).rest = pre ++ post := hraw2
      clear hraw2
      rw [← hx] at hxt hstop hlex
      cases hxt
      dsimp only at hstop hlex
      have htext : textOf src (next false p.length (a ++ r) []).span = x0 := by
        have hs : src = (p ++ b) ++ x0 ++ (next false p.length (a ++ r) []).rest := hsrc.trans (by
          rw [List.append_assoc, List.append_assoc, ← List.append_assoc b]; exact congrArg (p ++ ·) e1)
        generalize next false p.length (a ++ r) [] = N at h1 h2 hs ⊢
        rw [hs]
        exact textOf_mid (p ++ b) x0 _ _ (by rw [h1, List.length_append]) (by rw [h2, List.length_append])
      rw [htext] at hlex
      have hx0 : ∀ b' y, a ++ r = b' ++ y ++ (next false p.length (a ++ r) []).rest → (next false p.length (a ++ r) []).span.start = p.length + b'.length → y = x0 := by
        intro b' y he hs
        have hlen : b'.length = b.length := by omega
        have := e1.symm.trans he
        have := List.append_cancel_right this
        exact (List.append_inj_right this hlen.symm).symm
      have hhead : significant (x :: pre) = significant [x] ++ significant pre := significant_append [x] pre
      by_cases hcase : (next false p.length (a ++ r) []).rest ≠ [] ∨ ∀ c, t ≠ .lineComment c
      · obtain ⟨c1, c2, a', c3, c4, c5⟩ := next_cut (Z := Z) hres hstop (tf := true) (fun b' y he hs => hx0 b' y he hs ▸ hlex) hcase
        have hplen : (p ++ (b ++ x0)).length = (next false p.length (a ++ r) []).span.stop := by
          rw [h2, List.length_append, List.length_append]; omega
        have ih := sig_cut src Z pre (p ++ (b ++ x0)) a' r post (by rw [hsrc, e1, c3]; simp) (by rw [hplen, ← c3]; exact hraw)
          (fun y hy => by
            have := hpre y (.tail _ hy)
            rw [hplen]
            exact ⟨by omega, this.2⟩)
          (fun y hy => by rw [hplen]; have := hpost y hy; omega)
        rw [rawToks_unfold, c1, c2, c4]
        dsimp only
        rw [hplen] at ih
        rw [show ∀ z l, significant (z :: l) = significant [z] ++ significant l from fun z l => significant_append [z] l, ih, hx, hhead,
          List.append_assoc, c5]
      · have hrest : (next false p.length (a ++ r) []).rest = [] := by
          by_cases h : (next false p.length (a ++ r) []).rest = []
          · exact h
          · exact absurd (.inl h) hcase
        have hc : ∃ c, t = .lineComment c := Classical.byContradiction fun h => hcase (.inr fun c hc => h ⟨c, hc⟩)
        obtain ⟨c, rfl⟩ := hc
        rw [hrest] at e1 hraw
        have hnil : rawToks (next false p.length (a ++ r) []).span.stop [] = [] := rfl
        rw [hnil] at hraw
        have hpre0 : pre = [] := by
          have := hraw.symm
          simp at this
          exact this.1
        have hlen : a.length + r.length = b.length + x0.length := by have := congrArg List.length e1; simpa using this
        have hr0 : r = [] := List.length_eq_zero_iff.1 (by omega)
        subst hr0
        rw [List.append_nil, List.append_nil] at e1
        rw [hpre0, ← hx, e1, List.append_assoc, sig_comment hb hlex]
        rw [List.length_append]
        show _ = [] ++ _
        rw [List.nil_append]
        congr 2
        omega

end Verif
