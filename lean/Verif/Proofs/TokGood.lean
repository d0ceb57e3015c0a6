import Verif.Spec.Lexeme
/-!
What the lexer's tokens look like: identifiers are identifiers, integers fit 64 bits.
-/
namespace Verif

/-- A token the lexer can produce. -/
def TokGood : Token → Prop
  | .ident s => IsIdent s
  | .int n => n < 2 ^ 64
  | _ => True

namespace Lex

theorem fromStrRadix_lt {r ds v} (h : fromStrRadix r ds = some v) : v < 2 ^ 64 := by
  unfold fromStrRadix at h
  split at h
  · split at h
    · cases h; assumption
    · cases h
  · cases h

theorem int_lt (radix pre pos len ds rest errs) : (int radix pre pos len ds rest errs).1 < 2 ^ 64 := by
  unfold int
  cases h : fromStrRadix radix ds with
  | none => simp [h]
  | some v => simpa [h] using fromStrRadix_lt h

theorem float_good (tf pos n b s errs) : TokGood (float tf pos n b s errs).1 := by
  unfold float; split <;> exact trivial

theorem number_good (tf pos s errs) : TokGood (number tf pos s errs).1 := by
  unfold number
  simp only
  split
  · exact float_good ..
  · split
    · exact float_good ..
    · split
      · split
        · split
          · exact int_lt ..
          · split
            · exact float_good ..
            · show (0 : Nat) < 2 ^ 64; decide
        · show (0 : Nat) < 2 ^ 64; decide
      · split
        · split
          · exact int_lt ..
          · show (0 : Nat) < 2 ^ 64; decide
        · split
          · exact float_good ..
          · exact int_lt ..

theorem takeWhile_all {p : UInt8 → Bool} : ∀ {s : Bytes}, ∀ c ∈ s.takeWhile p, p c = true
  | [], c, h => by cases h
  | b :: r, c, h => by
    rw [List.takeWhile_cons] at h
    split at h
    · rcases List.mem_cons.1 h with rfl | h
      · assumption
      · exact takeWhile_all c h
    · cases h

theorem ite_good {c : Prop} [Decidable c] {a : Token} {o : Option Token} (ha : TokGood a)
    (ho : ∀ t, o = some t → TokGood t) : ∀ t, (if c then some a else o) = some t → TokGood t := by
  intro t h
  by_cases hc : c
  · rw [if_pos hc] at h; cases h; exact ha
  · rw [if_neg hc] at h; exact ho t h

theorem punct_good {b t} (h : punct b = some t) : TokGood t := by
  suffices ∀ t, punct b = some t → TokGood t from this t h
  unfold punct
  iterate 17 refine ite_good (by exact trivial) ?_
  nofun

theorem lexToken_good {tf pos s errs t n e} (h : lexToken tf pos s errs = (some t, n, e)) : TokGood t := by
  unfold lexToken at h
  cases s with
  | nil => cases h
  | cons b r =>
    simp only at h
    split at h
    · rename_i hb
      cases h
      have hc : isIdentCont b = true := by
        simp only [isIdentStart, isIdentCont, isAlnum, Bool.or_eq_true] at hb ⊢
        rcases hb with hb | hb
        · exact .inl (.inl hb)
        · exact .inr hb
      rw [List.takeWhile_cons, if_pos hc]
      refine ⟨b, _, rfl, ?_, fun c h => ?_⟩
      · simpa [isIdentStart] using hb
      · simpa [isIdentCont] using takeWhile_all c h
    · split at h
      · cases h; exact number_good ..
      · split at h
        · cases h; exact float_good ..
        · split at h
          · cases h; exact trivial
          · split at h
            · cases h; exact trivial
            · split at h
              · cases h; exact trivial
              · split at h
                · cases h; exact trivial
                · split at h
                  · rename_i hp; cases h; exact punct_good hp
                  · cases h

theorem next_good {tf pos s errs t} (h : (next tf pos s errs).res = .tok t) : TokGood t := by
  unfold next at h
  simp only at h
  split at h
  · cases h
  · rename_i heq
    cases hl : lexToken tf (pos + (s.takeWhile isSkip).length) (s.dropWhile isSkip) errs with
    | mk o p =>
      obtain ⟨n, e⟩ := p
      rw [hl] at h
      cases o with
      | none => cases h
      | some t' => cases h; exact lexToken_good hl
end Lex

theorem rawToksN_good : ∀ (n pos : Nat) (s : Bytes) (x : Option Token × Span), x ∈ rawToksN n pos s →
    ∀ t, x.1 = some t → TokGood t
  | 0, _, _, _, h => by cases h
  | n + 1, pos, s, x, h => by
    intro t ht
    unfold rawToksN at h
    simp only at h
    split at h
    · cases h
    · rename_i heq
      rcases List.mem_cons.1 h with rfl | h
      · cases ht; exact Lex.next_good heq
      · exact rawToksN_good n _ _ x h t ht
    · rcases List.mem_cons.1 h with rfl | h
      · cases ht
      · exact rawToksN_good n _ _ x h t ht

/-- Every significant token is one the lexer can produce. -/
theorem sigToks_good {pos : Nat} {s : Bytes} {ts : List STok} (h : sigToks pos s = ts.map some) :
    ∀ t ∈ ts.map (·.1), TokGood t := by
  intro t ht
  obtain ⟨x, hx, rfl⟩ := List.mem_map.1 ht
  have : some x ∈ sigToks pos s := by rw [h]; exact List.mem_map_of_mem hx
  obtain ⟨y, hy, hyx⟩ := List.mem_filterMap.1 this
  split at hyx
  · cases hyx
  · rename_i heq
    split at hyx
    · cases hyx
    · cases hyx; exact rawToksN_good _ _ _ y hy _ heq
end Verif
