import Verif.Proofs.Lexeme3
import Verif.Proofs.Tokens
/-! Every token of a source that lexes without errors stands for its text; the spans of the tokens. -/
namespace Verif
open Verif.Spec

namespace Lex

theorem punct_lexeme {tf : Bool} {b : UInt8} {t} (h : punct b = some t) : Lexeme tf [b] t := by
  have ite : ∀ (c : UInt8) (a : Token) (o : Option Token), Lexeme tf [c] a → (o = some t → Lexeme tf [b] t) →
      (if b == c then some a else o) = some t → Lexeme tf [b] t := by
    intro c a o ha ho hh
    by_cases hc : b == c
    · rw [if_pos hc] at hh
      cases hh
      rw [eq_of_beq hc]; exact ha
    · rw [if_neg hc] at hh; exact ho hh
  unfold punct at h
  exact ite _ _ _ .dot (ite _ _ _ .minus (ite _ _ _ .plus (ite _ _ _ .leftParen (ite _ _ _ .rightParen
    (ite _ _ _ .leftBrace (ite _ _ _ .rightBrace (ite _ _ _ .leftBracket (ite _ _ _ .rightBracket
    (ite _ _ _ .leftAngle (ite _ _ _ .rightAngle (ite _ _ _ .comma (ite _ _ _ .equals (ite _ _ _ .colon
    (ite _ _ _ .semicolon (ite _ _ _ .slash (ite _ _ _ .newline (by nofun))))))))))))))))) h

theorem lexToken_lexeme {tf pos s t n} (h : lexToken tf pos s [] = (some t, n, [])) : Lexeme tf (s.take n) t := by
  have hgood := lexToken_good h
  unfold lexToken at h
  cases s with
  | nil => cases h
  | cons b r =>
    simp only at h
    split at h
    · simp only [Prod.mk.injEq, Option.some.injEq, and_true] at h
      obtain ⟨rfl, rfl⟩ := h
      rw [take_takeWhile]
      exact .ident hgood
    · split at h
      · rename_i hd
        cases hn : number tf pos (b :: r) [] with
        | mk t' p =>
          obtain ⟨n', e⟩ := p
          rw [hn] at h
          simp only [Prod.mk.injEq, Option.some.injEq] at h
          obtain ⟨rfl, rfl, rfl⟩ := h
          refine number_lexeme ?_ hn
          rw [List.takeWhile_cons, if_pos hd]; simp
      · split at h
        · rename_i hdot
          simp only [Bool.and_eq_true, beq_iff_eq] at hdot
          obtain ⟨rfl, hst⟩ := hdot
          have hfr := List.takeWhile_append_dropWhile (p := isDigit) (l := r)
          have hfd := digits_takeWhile r
          have hne : r.takeWhile isDigit ≠ [] := by
            cases r with
            | nil => simp [startsWith] at hst
            | cons y ys => have : isDigit y = true := hst; simp [this]
          generalize r.takeWhile isDigit = fr at *
          generalize r.dropWhile isDigit = r2 at *
          subst hfr
          cases hfl : float tf pos (1 + fr.length + exponentLen r2 + suffixLen (r2.drop (exponentLen r2)))
              (suffixLen (r2.drop (exponentLen r2)) == 1) (46 :: (fr ++ r2)) [] with
          | mk t' p =>
            obtain ⟨n', e⟩ := p
            rw [hfl] at h
            simp only [Prod.mk.injEq, Option.some.injEq] at h
            obtain ⟨rfl, rfl, rfl⟩ := h
            have hn : 1 + fr.length + exponentLen r2 + suffixLen (r2.drop (exponentLen r2)) = n' := by
              have := float_len tf pos (1 + fr.length + exponentLen r2 + suffixLen (r2.drop (exponentLen r2)))
                (suffixLen (r2.drop (exponentLen r2)) == 1) (46 :: (fr ++ r2)) []
              rw [hfl] at this; exact this.symm
            rw [hn] at hfl
            have hs : 46 :: (fr ++ r2) = (46 :: fr ++ r2.take (exponentLen r2)) ++ r2.drop (exponentLen r2) := by
              simp [List.take_append_drop]
            rw [hs] at hfl ⊢
            refine float_lexeme ⟨[], fr, _, (by intro b hb; cases hb), hfd, ?_, .inl ⟨rfl, .inr hne⟩⟩
              (suffix_cases _ _ _ ?_) hfl
            · rcases exponentLen_spec r2 with he | he
              · rw [he]; exact .inl rfl
              · exact .inr he
            · rw [List.length_append, take_exp_length, ← hn]; simp; omega
        · split at h
          · rename_i hq
            cases hn : string pos b r [] with
            | mk t' p =>
              obtain ⟨n', e⟩ := p
              rw [hn] at h
              simp only [Prod.mk.injEq, Option.some.injEq] at h
              obtain ⟨rfl, rfl, rfl⟩ := h
              refine string_lexeme ?_ hn
              simp only [Bool.or_eq_true, beq_iff_eq] at hq
              exact hq.symm
          · split at h
            · rename_i hh
              have := eq_of_beq hh; subst this
              cases hn : lineComment tf pos 1 true (35 :: r) [] with
              | mk t' p =>
                obtain ⟨n', e⟩ := p
                rw [hn] at h
                simp only [Prod.mk.injEq, Option.some.injEq] at h
                obtain ⟨rfl, rfl, rfl⟩ := h
                exact line_lexeme (.inl ⟨rfl, rfl, r, rfl⟩) hn
            · split at h
              · rename_i hh
                simp only [Bool.and_eq_true, beq_iff_eq, decide_eq_true_eq] at hh
                obtain ⟨rfl, hr⟩ := hh
                cases r with
                | nil => cases hr
                | cons c r =>
                  cases hr
                  cases hn : lineComment tf pos 2 false (47 :: 47 :: r) [] with
                  | mk t' p =>
                    obtain ⟨n', e⟩ := p
                    rw [hn] at h
                    simp only [Prod.mk.injEq, Option.some.injEq] at h
                    obtain ⟨rfl, rfl, rfl⟩ := h
                    exact line_lexeme (.inr ⟨rfl, r, rfl⟩) hn
              · split at h
                · rename_i hh
                  simp only [Bool.and_eq_true, beq_iff_eq, decide_eq_true_eq] at hh
                  obtain ⟨rfl, hr⟩ := hh
                  cases r with
                  | nil => cases hr
                  | cons c r =>
                    cases hr
                    simp only [List.drop_succ_cons, List.drop_zero] at h
                    cases hn : blockComment pos r [] with
                    | mk t' p =>
                      obtain ⟨n', e⟩ := p
                      rw [hn] at h
                      simp only [Prod.mk.injEq, Option.some.injEq] at h
                      obtain ⟨rfl, rfl, rfl⟩ := h
                      exact block_lexeme hn
                · split at h
                  · rename_i t' hp
                    simp only [Prod.mk.injEq, Option.some.injEq, and_true] at h
                    obtain ⟨rfl, rfl⟩ := h
                    exact punct_lexeme hp
                  · cases h

/-- One step of the lexer: blanks, then the text of the token, then the rest. -/
theorem next_split (tf pos s errs) : ∃ b t, s = b ++ t ++ (next tf pos s errs).rest ∧ Blank b ∧
    (next tf pos s errs).span.start = pos + b.length ∧
    (next tf pos s errs).span.stop = pos + b.length + t.length ∧
    ((next tf pos s errs).res = .eof → t = []) ∧
    (∀ k, (next tf pos s errs).res = .tok k → errs = [] → (next tf pos s errs).errs = [] → Lexeme tf t k) := by
  have hsplit := List.takeWhile_append_dropWhile (p := isSkip) (l := s)
  have hblank : Blank (s.takeWhile isSkip) := fun b hb => by
    have := takeWhile_all b hb
    simp only [isSkip, Bool.or_eq_true, beq_iff_eq] at this
    rcases this with (((h | h) | h) | h) | h <;> simp [h]
  unfold next
  simp only
  generalize s.takeWhile isSkip = b at *
  generalize s.dropWhile isSkip = r at *
  subst hsplit
  cases r with
  | nil => exact ⟨b, [], by simp, hblank, rfl, rfl, fun _ => rfl, nofun⟩
  | cons x r =>
    have hg := good_lexToken (x :: r) (by simp)
    have hle := (hg.bounds tf (pos + b.length) errs).2
    simp only
    cases hl : lexToken tf (pos + b.length) (x :: r) errs with
    | mk o p =>
      obtain ⟨n, e⟩ := p
      rw [hl] at hle
      have hlen : ((x :: r).take n).length = n := by
        rw [List.length_take]; exact Nat.min_eq_left hle
      cases o with
      | none =>
        refine ⟨b, (x :: r).take n, ?_, hblank, rfl, ?_, nofun, nofun⟩
        · simp
        · simp only [hlen]
      | some t =>
        refine ⟨b, (x :: r).take n, ?_, hblank, rfl, ?_, nofun, ?_⟩
        · simp
        · simp only [hlen]
        · intro k hk he hee
          cases hk
          subst he
          simp only at hee
          subst hee
          exact lexToken_lexeme hl

end Lex

theorem textOf_mid (a t r : Bytes) (sp : Span) (h1 : sp.start = a.length) (h2 : sp.stop = a.length + t.length) :
    textOf (a ++ t ++ r) sp = t := by
  unfold textOf
  rw [h1, h2, List.append_assoc, List.drop_left' rfl]
  rw [Nat.add_sub_cancel_left, Lex.take_prefix _ rfl]

/-- Everything about the tokens of the source `src` from `pos` on: the spans, the gaps, the texts. -/
theorem rawToks_facts (src : Bytes) : ∀ (n : Nat) (pre s : Bytes), s.length < n → src = pre ++ s →
    (∀ x ∈ rawToks pre.length s, pre.length ≤ x.2.start ∧ x.2.start < x.2.stop ∧ x.2.stop ≤ src.length) ∧
    (rawToks pre.length s).Pairwise (fun x y => x.2.stop ≤ y.2.start) ∧
    (∀ (k : Nat) b, pre.length ≤ k → src[k]? = some b →
      (∃ x ∈ rawToks pre.length s, x.2.start ≤ k ∧ k < x.2.stop) ∨ Blank [b]) ∧
    (∀ tf, lexCleanIn tf pre.length s = true → ∀ x ∈ rawToks pre.length s, ∀ t, x.1 = some t →
      Lexeme tf (textOf src x.2) t) := by
  intro n
  induction n with
  | zero => intro pre s h; omega
  | succ n ih =>
    intro pre s hn hsrc
    have hu := rawToks_unfold pre.length s
    have hlt := next_rest_lt pre.length s
    obtain ⟨b, t, e1, hb, h1, h2, h3, _⟩ := Lex.next_split false pre.length s []
    have hlex : ∀ tf k, (Lex.next false pre.length s []).res = .tok k →
        lexCleanIn tf pre.length s = true → Lexeme tf t k := by
      intro tf k hk hcl
      obtain ⟨b', t', f1, _, f2, f3, _, f4⟩ := Lex.next_split tf pre.length s []
      obtain ⟨g1, g2, g3⟩ := next_same tf pre.length s []
      rw [g3] at f2 f3
      rw [g2] at f1
      have hbl : b'.length = b.length := by omega
      have htl : t'.length = t.length := by omega
      have : b' ++ (t' ++ (Lex.next false pre.length s []).rest) = b ++ (t ++ (Lex.next false pre.length s []).rest) := by
        rw [← List.append_assoc, ← List.append_assoc, ← f1, ← e1]
      have := (List.append_inj this hbl).2
      have := (List.append_inj this htl).1
      subst this
      refine f4 k (by rw [g1]; exact hk) rfl ?_
      rw [lexCleanIn_unfold] at hcl
      simp only [Bool.and_eq_true, decide_eq_true_eq] at hcl
      exact hcl.1
    have hcr : ∀ tf, (Lex.next false pre.length s []).res ≠ .eof → lexCleanIn tf pre.length s = true →
        lexCleanIn tf (Lex.next false pre.length s []).span.stop (Lex.next false pre.length s []).rest = true := by
      intro tf hne hcl
      obtain ⟨g1, g2, g3⟩ := next_same tf pre.length s []
      rw [lexCleanIn_unfold, g1, g2, g3] at hcl
      simp only [Bool.and_eq_true] at hcl
      exact hcl.2
    have hnonempty := (Lex.next_facts false pre.length s []).nonempty
    have hrest := (Lex.next_facts false pre.length s []).eof_rest
    generalize Lex.next false pre.length s [] = o at *
    -- a token or error: the rest by induction
    have step : ∀ y : Option Token, rawToks pre.length s = (y, o.span) :: rawToks o.span.stop o.rest → o.res ≠ .eof →
        (∀ k, y = some k → o.res = .tok k) →
        (∀ x ∈ rawToks pre.length s, pre.length ≤ x.2.start ∧ x.2.start < x.2.stop ∧ x.2.stop ≤ src.length) ∧
        (rawToks pre.length s).Pairwise (fun x y => x.2.stop ≤ y.2.start) ∧
        (∀ (k : Nat) b, pre.length ≤ k → src[k]? = some b →
          (∃ x ∈ rawToks pre.length s, x.2.start ≤ k ∧ k < x.2.stop) ∨ Blank [b]) ∧
        (∀ tf, lexCleanIn tf pre.length s = true → ∀ x ∈ rawToks pre.length s, ∀ t, x.1 = some t →
          Lexeme tf (textOf src x.2) t) := by
      intro y hy hne hres
      have hst : o.span.stop = (pre ++ b ++ t).length := by simp; omega
      have hsrc' : src = (pre ++ b ++ t) ++ o.rest := by rw [hsrc, e1]; simp
      have hrl := hlt hne
      obtain ⟨i1, i2, i3, i4⟩ := ih (pre ++ b ++ t) o.rest (by omega) hsrc'
      rw [← hst] at i1 i2 i3 i4
      have hnn := hnonempty hne
      rw [hy]
      have hlen : src.length = pre.length + s.length := by rw [hsrc]; simp
      have hslen : s.length = b.length + t.length + o.rest.length := by
        conv => lhs; rw [e1]
        simp; omega
      refine ⟨?_, ?_, ?_, ?_⟩
      · intro x hx
        rcases List.mem_cons.1 hx with rfl | hx
        · refine ⟨?_, hnn, ?_⟩ <;> simp only <;> omega
        · have := i1 x hx
          omega
      · rw [List.pairwise_cons]
        exact ⟨fun x hx => (i1 x hx).1, i2⟩
      · intro k c hk hc
        by_cases hk1 : k < o.span.start
        · right
          have : c ∈ b := by
            rw [hsrc, e1] at hc
            rw [List.getElem?_append_right hk, List.append_assoc, List.getElem?_append_left (by omega)] at hc
            exact List.mem_of_getElem? hc
          intro d hd
          rw [List.mem_singleton.1 hd]; exact hb c this
        · by_cases hk2 : k < o.span.stop
          · exact .inl ⟨_, List.mem_cons_self, by simp only; omega, hk2⟩
          · rcases i3 k c (by omega) hc with ⟨x, hx, h⟩ | h
            · exact .inl ⟨x, List.mem_cons_of_mem _ hx, h⟩
            · exact .inr h
      · intro tf hcl x hx k hk
        rcases List.mem_cons.1 hx with rfl | hx
        · simp only at hk ⊢
          have hte : textOf src o.span = t := by
            rw [hsrc, e1, ← List.append_assoc, ← List.append_assoc]
            exact textOf_mid (pre ++ b) t o.rest _ (by rw [h1]; simp) (by rw [h2]; simp)
          rw [hte]
          exact hlex tf k (hres k hk) hcl
        · exact i4 tf (hcr tf hne hcl) x hx k hk
    cases hr : o.res with
    | eof =>
      rw [hr] at hu
      rw [hu]
      refine ⟨nofun, .nil, ?_, nofun⟩
      intro k c hk hc
      right
      have ht := h3 hr
      subst ht
      have : c ∈ b := by
        rw [hsrc, e1, (hrest hr).1] at hc
        rw [List.getElem?_append_right hk] at hc
        simpa using List.mem_of_getElem? hc
      intro d hd
      rw [List.mem_singleton.1 hd]; exact hb c this
    | tok k =>
      rw [hr] at hu
      exact step (some k) hu (by simp [hr]) (fun k' h => by cases h; exact hr)
    | error =>
      rw [hr] at hu
      exact step none hu (by simp [hr]) nofun

end Verif
