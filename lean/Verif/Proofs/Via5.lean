import Verif.Proofs.Via4
/-! Whatever comes before the first complaint about a token can be completed. -/
namespace Verif.Exec
open Parse Prog Spec

/-- A larger counter changes nothing about a run that comes to an end. -/
def ExSame {α : Type} (R : α → α → Prop) (x0 : Ex α) : Ex α → Prop
  | .done a w => ∃ a0, R a0 a ∧ x0 = .done a0 w
  | .blamed ex t w => x0 = .blamed ex t w
  | .stop r w => x0 = .stop r w
  | .oof => True

theorem exec_unexpected {α : Type} {ex : Expect} (w : Toks) : exec (unexpected ex : Prog α) w = match w with
    | [] => .stop (some ex) []
    | some t :: w => .blamed ex t (some t :: w)
    | none :: w => .stop none (none :: w) := by
  match w with
  | [] => rfl
  | some t :: w => rfl
  | none :: w => rfl

theorem exec_same {α : Type} {R : α → α → Prop} {p0 p : Prog α} (h : Same R p0 p) : ∀ w, ExSame R (exec p0 w) (exec p w) := by
  induction h with
  | bot p => exact fun _ => trivial
  | ret h => exact fun w => ⟨_, h, rfl⟩
  | peek h hn ih ihn =>
    intro w
    match w with
    | [] => exact ihn []
    | some t :: w => exact ih t sp0 _
    | none :: w => rfl
  | peekSkip h hn ih ihn =>
    intro w
    match w with
    | [] => exact ihn []
    | some t :: w => exact ih t sp0 _
    | none :: w => rfl
  | bump h ih =>
    intro w
    match w with
    | [] => trivial
    | some t :: w => exact ih sp0 w
    | none :: w => trivial
  | unexpected ex hx =>
    intro w
    rw [exec_unexpected]
    match w with
    | [] => exact rfl
    | some t :: w => exact rfl
    | none :: w => exact rfl
  | addError h he0 he hk ih =>
    intro w
    rw [exec, exec, h, he0, he]
    split
    · rfl
    · exact ih w
  | leading h ih => exact ih _
  | trailing h ih => exact ih _
  | setTextMode b h ih => exact ih
  | assertNoPeek h ih => exact ih
  | failed => exact fun _ => rfl
  | panicked p => exact fun _ => trivial

section
variable [FloatFmt]

theorem same_fileProg {n0 n} (hn : n ≤ n0) : ∀ {k0 k}, k ≤ k0 → Same Any (fileProg n0 k0) (fileProg n k)
  | _, 0, _ => .bot _
  | 0, k + 1, h => absurd h (by omega)
  | k0 + 1, k + 1, h => by
    refine (same_parseStatement hn).bind fun a0 a ha => ?_
    cases a0 <;> cases a
    · exact .ret trivial
    · cases ha
    · cases ha
    · exact same_fileProg hn (by omega)

theorem viable_events {F m u w' ex o rest} (hF : 2 * u.length + 2 ≤ F) (hu : none ∉ u)
    (h : events F F (m + 1) (u ++ w') = (ex, o, w') :: rest) :
    ∃ z : List Token, (∀ t ∈ z, Plain t) ∧ ∀ F2, F ≤ F2 → ∀ m2, events F2 F2 m2 (u ++ z.map some) = [] := by
  have close : ∀ (z : List Token) a, exec (fileProg F F) (u ++ z.map some) = .done a [] → ∀ F2, F ≤ F2 → ∀ m2, events F2 F2 m2 (u ++ z.map some) = [] := by
    intro z a hz F2 hF2 m2
    cases m2 with
    | zero => rfl
    | succ m2 =>
      have hs := exec_same (same_fileProg hF2 hF2) (u ++ z.map some)
      rw [hz] at hs
      obtain ⟨a0, _, hs⟩ := hs
      rw [events, hs]
  have hc : C false u.length (· = none) (fileProg F F) := c_fileProg F u.length (by omega) hF
  rcases exec_split (fileProg F F) u with he | ⟨u', hu', hsuf, ⟨a, he⟩ | ⟨ex', t', he⟩ | ⟨r, he⟩⟩ | ⟨q, hq⟩
  · rw [events, he] at h; cases h
  · rw [events, he] at h; cases h
  · rw [events, he] at h
    injection h with h _
    exact absurd (congrArg (·.2.2) h) (append_ne hu')
  · rw [events, he] at h
    cases r with
    | some ex' =>
      injection h with h _
      exact absurd (congrArg (·.2.2) h) (append_ne hu')
    | none =>
      have hq := quiet_fileProg (F := F) F _ _ (he w')
      cases u' with
      | nil => exact absurd rfl hu'
      | cons x u' =>
        have hx : x = none := by injection hq
        exact absurd (hsuf.subset (by rw [hx]; exact .head _)) hu
  · cases u with
    | nil => exact ⟨[], nofun, close [] () (by obtain ⟨k, rfl⟩ : ∃ k, F = k + 1 := ⟨F - 1, by omega⟩; rfl)⟩
    | cons x u =>
      obtain ⟨z, hz, _, ho⟩ := ac_left hq (by simp) hc.ac
      refine ⟨z, hz, ?_⟩
      rw [← hq.exec] at ho
      revert ho
      cases he : exec (fileProg F F) (x :: u ++ z.map some) with
      | done a w => exact fun ho => close z a (he.trans (by rw [show w = [] from ho]))
      | blamed ex t w => exact fun ho => ho.elim
      | stop r w =>
        cases r with
        | none => exact fun ho => (nomatch (ho : false = true))
        | some _ => exact fun ho => ho.elim
      | oof => exact fun ho => ho.elim

/-- What comes before the first complaint can be completed so that nothing is complained about. -/
theorem viable_tokens {F u w' ex o rest} (hF : 2 * u.length + 2 ≤ F) (hu : none ∉ u)
    (h : allEvents F (u ++ w') = (ex, o, w') :: rest) :
    ∃ z : List Token, (∀ t ∈ z, Plain t) ∧ ∀ F2, F ≤ F2 → allEvents F2 (u ++ z.map some) = [] := by
  rcases exec_split (parseHeader F 0) u with he | ⟨u', hu', hsuf, ⟨a, he⟩ | ⟨ex', t', he⟩ | ⟨r, he⟩⟩ | ⟨q, hq⟩
  · rw [allEvents, he] at h; cases h
  · rw [allEvents, he] at h
    obtain ⟨k, rfl⟩ : ∃ k, F = k + 1 := ⟨F - 1, by omega⟩
    have hl := hsuf.length_le
    obtain ⟨z, hz, hev⟩ := viable_events (u := u') (by omega) (fun h => hu (hsuf.subset h)) h
    refine ⟨z, hz, fun F2 hF2 => ?_⟩
    have hs := exec_same (same_parseHeader hF2 (l0 := 0) (l := 0)) (u ++ z.map some)
    rw [he] at hs
    obtain ⟨a0, _, hs⟩ := hs
    rw [allEvents, hs]
    exact hev F2 hF2 F2
  · rw [allEvents, he] at h
    injection h with h _
    exact absurd (congrArg (·.2.2) h) (append_ne hu')
  · rw [allEvents, he] at h
    cases r with
    | none => cases h
    | some ex' =>
      injection h with h _
      exact absurd (congrArg (·.2.2) h) (append_ne hu')
  · have done : ∀ (z : List Token) a, exec (parseHeader F 0) (u ++ z.map some) = .done a [] → ∀ F2, F ≤ F2 → allEvents F2 (u ++ z.map some) = [] := by
      intro z a hz F2 hF2
      have hs := exec_same (same_parseHeader hF2 (l0 := 0) (l := 0)) (u ++ z.map some)
      rw [hz] at hs
      obtain ⟨a0, _, hs⟩ := hs
      rw [allEvents, hs]
      exact events_nil ..
    cases u with
    | nil => exact ⟨[], nofun, done [] _ rfl⟩
    | cons x u =>
      have hc := c_parseHeader (n := (x :: u).length) (len := 0) hF
      obtain ⟨z, hz, _, ho⟩ := ac_left (hq.bind _) (by simp) hc.ac
      refine ⟨z, hz, ?_⟩
      rw [← (hq.bind _).exec, exec_bind] at ho
      revert ho
      cases he : exec (parseHeader F 0) (x :: u ++ z.map some) with
      | done a w => exact fun ho => done z a (he.trans (by rw [show w = [] from ho]))
      | blamed ex t w => exact fun ho => ho.elim
      | stop r w =>
        cases r with
        | none =>
          intro _ F2 hF2
          have hs := exec_same (same_parseHeader hF2 (l0 := 0) (l := 0)) (x :: u ++ z.map some)
          rw [he] at hs
          have hs : exec (parseHeader F2 0) (x :: u ++ z.map some) = .stop none w := hs
          rw [allEvents, hs]
          rfl
        | some _ => exact fun ho => ho.elim
      | oof => exact fun ho => ho.elim

end
end Verif.Exec
