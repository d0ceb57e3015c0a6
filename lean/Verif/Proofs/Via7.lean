import Verif.Proofs.Via6
/-! What comes before the first complaint can be completed to a file that is not complained about. -/
namespace Verif.Exec
open Parse Prog Spec

/-- A header that is taken either takes nothing or ends with a semicolon. -/
theorem header_last {F W a w} (hF : W.length < F) (h : exec (parseHeader F 0) W = .done a w) :
    w = W ∨ ∃ c, W = c ++ some .semicolon :: w ∧ ∃ a, exec (parseHeader F 0) (c ++ [some .semicolon]) = .done a [] := by
  obtain ⟨F, rfl⟩ : ∃ k, F = k + 1 := ⟨F - 1, by omega⟩
  match W with
  | [] => cases h; exact .inl rfl
  | none :: W => cases h
  | some x :: W =>
    by_cases hx : x = kw b!"syntax"
    · subst hx
      match W with
      | [] => cases h
      | none :: W => cases h
      | some y :: W =>
        by_cases hy : y = .equals
        · subst hy
          rw [exec_header] at h
          match W with
          | [] => cases h
          | none :: W => cases h
          | some s :: W =>
            by_cases hs : ∃ v, s = .string v
            · obtain ⟨v, rfl⟩ := hs
              obtain ⟨acc, strs, w3, rfl, h1, h2, h3⟩ := exec_stringLoop (F + 1) ⟨v, sp0⟩ W (by simp at hF; omega)
              rcases h3 with h3 | h3
              · dsimp only at h
                rw [h2 _ h3] at h
                have h : (exec (synEnd ld0 sp0 acc) w3).bind _ = _ := h
                rcases exec_synEnd (l := ld0) (start := sp0) (v := acc) with ⟨b, hs⟩ | hs
                · rw [hs, exec_expectEq] at h
                  match w3 with
                  | [] => cases h
                  | none :: w3 => cases h
                  | some x :: w3 =>
                    dsimp only at h
                    split at h
                    · rename_i hx
                      subst hx
                      cases h
                      refine .inr ⟨some (kw b!"syntax") :: some .equals :: some (.string v) :: strs, rfl, ((b sp0).1, some ((b sp0).2.1, (b sp0).2.2), (b sp0).2.1), ?_⟩
                      show exec (parseHeader (F + 1) 0) (some (kw b!"syntax") :: some .equals :: some (.string v) :: (strs ++ [some .semicolon])) = _
                      rw [exec_header]
                      show ((exec (loopM stringStep (F + 1) ⟨v, sp0⟩) (strs ++ [some .semicolon])).bind _).bind _ = _
                      rw [h2 [some .semicolon] ⟨nofun, nofun⟩]
                      show (exec (synEnd ld0 sp0 acc) [some .semicolon]).bind _ = _
                      rw [hs]
                      rfl
                    · cases h
                · rw [hs] at h
                  cases h
              · dsimp only at h
                rw [h3] at h
                cases h
            · cases s <;> first | exact absurd ⟨_, rfl⟩ hs | cases h
        · have he : exec (parseHeader (F + 1) 0) (some (kw b!"syntax") :: some y :: W) =
              .blamed (.oneOf [.token .equals]) y (some y :: W) := by
            show exec (parseSyntax (F + 1) >>= _) _ = _
            rw [exec_bind, show exec (parseSyntax (F + 1)) (some (kw b!"syntax") :: some y :: W) = .blamed (.oneOf [.token .equals]) y (some y :: W) from ?_]
            · rfl
            · show exec (expectEq .equals >>= _) _ = _
              rw [exec_bind, exec_expectEq]
              dsimp only
              rw [if_neg hy]
              rfl
          rw [he] at h
          cases h
    · have he : exec (parseHeader (F + 1) 0) (some x :: W) = .done (.proto2, none, sp0) (some x :: W) := by
        show exec (if x = kw b!"syntax" then _ else _) _ = _
        rw [if_neg hx]
        rfl
      rw [he] at h
      cases h
      exact .inl rfl

variable [FloatFmt]

/-- What comes before the first complaint can be completed so that nothing is complained about and the header is taken. -/
theorem viable_file {F u w' ex o rest} (hF : 2 * u.length + 2 ≤ F) (hF' : (u ++ w').length < F) (hu : none ∉ u)
    (h : allEvents F (u ++ w') = (ex, o, w') :: rest) :
    ∃ z : List Token, (∀ t ∈ z, Plain t) ∧ ∀ F2, F ≤ F2 → allEvents F2 (u ++ z.map some) = [] ∧
      ∃ a w, exec (parseHeader F2 0) (u ++ z.map some) = .done a w := by
  have done : ∀ (z : List Token) a, exec (parseHeader F 0) (u ++ z.map some) = .done a [] → ∀ F2, F ≤ F2 → allEvents F2 (u ++ z.map some) = [] ∧
      ∃ a w, exec (parseHeader F2 0) (u ++ z.map some) = .done a w := by
    intro z a hz F2 hF2
    have hs := exec_same (same_parseHeader hF2 (l0 := 0) (l := 0)) (u ++ z.map some)
    rw [hz] at hs
    obtain ⟨a0, _, hs⟩ := hs
    rw [allEvents, hs]
    exact ⟨events_nil .., _, _, rfl⟩
  have complete : Complains (exec (parseHeader F 0) (u ++ w')) w' → ∃ z : List Token, (∀ t ∈ z, Plain t) ∧ ∀ F2, F ≤ F2 → allEvents F2 (u ++ z.map some) = [] ∧
      ∃ a w, exec (parseHeader F2 0) (u ++ z.map some) = .done a w := by
    intro hc
    obtain ⟨z, hz, a, ha⟩ := header_viable hF' hc
    exact ⟨z, hz, done z a ha⟩
  rcases exec_split (parseHeader F 0) u with he | ⟨u', hu', hsuf, ⟨a, he⟩ | ⟨ex', t', he⟩ | ⟨r, he⟩⟩ | ⟨q, hq⟩
  · rw [allEvents, he] at h; cases h
  · rw [allEvents, he] at h
    obtain ⟨k, rfl⟩ : ∃ k, F = k + 1 := ⟨F - 1, by omega⟩
    have hl := hsuf.length_le
    obtain ⟨z, hz, hev⟩ := viable_events (u := u') (by omega) (fun h => hu (hsuf.subset h)) h
    refine ⟨z, hz, fun F2 hF2 => ?_⟩
    have hs := exec_same (same_parseHeader hF2 (l0 := 0) (l := 0)) (u ++ z.map some)
    rw [he] at hs
    obtain ⟨a0, _, hs⟩ := hs
    rw [allEvents, hs]
    exact ⟨hev F2 hF2 F2, _, _, rfl⟩
  · rw [allEvents, he] at h
    injection h with h _
    exact absurd (congrArg (·.2.2) h) (append_ne hu')
  · rw [allEvents, he] at h
    cases r with
    | none => cases h
    | some ex' =>
      injection h with h _
      exact absurd (congrArg (·.2.2) h) (append_ne hu')
  · cases he : exec (parseHeader F 0) (u ++ w') with
    | oof => rw [allEvents, he] at h; cases h
    | blamed ex' t w =>
      rw [allEvents, he] at h
      injection h with h _
      exact complete (.inl ⟨ex', t, he.trans (by rw [show w = w' from congrArg (·.2.2) h])⟩)
    | stop r w =>
      rw [allEvents, he] at h
      cases r with
      | none => cases h
      | some ex' =>
        injection h with h _
        exact complete (.inr ⟨ex', he.trans (by rw [show w = w' from congrArg (·.2.2) h])⟩)
    | done a w =>
      have hw : w' <:+ w := by
        rw [allEvents, he] at h
        exact events_suffix _ _ _ _ _ _ (h ▸ List.mem_cons_self)
      rcases header_last hF' he with rfl | ⟨c, hc, a2, ha2⟩
      · have hu0 : u = [] := by
          have := hw.length_le
          rw [hq.exec] at he
          have hl := (exec_rest _ _ _ (by rw [he]; rfl)).length_le
          exact List.length_eq_zero_iff.1 (by rw [List.length_append] at hl; omega)
        subst hu0
        exact ⟨[], nofun, done [] _ rfl⟩
      · rw [hq.exec] at he
        have hl := (exec_rest _ _ _ (by rw [he]; rfl)).length_le
        have hww : w = w' := (hw.eq_of_length (by have := hw.length_le; omega)).symm
        subst hww
        have : u = c ++ [some .semicolon] := List.append_cancel_right (hc.trans (by simp))
        exact ⟨[], nofun, done [] a2 (by rw [List.map_nil, List.append_nil, this]; exact ha2)⟩

end Verif.Exec
