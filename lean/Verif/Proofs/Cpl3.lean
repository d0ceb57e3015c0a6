import Verif.Proofs.Cpl2
/-! Completeness of the grammar methods: ranges, reserved names, types, fields without bodies. -/
namespace Verif.Parse
open Lex Verif.Ast Verif.Grammar

section
variable {n fuel : Nat} {e : Bool}

theorem er_range {a b : ReservedRange} (h : er a.start = er b.start) (h2 : er a.stop = er b.stop) : er a = er b := by
  show ReservedRange.mk _ _ = ReservedRange.mk _ _
  rw [h, h2]

/-- A range followed by `,` or `;`, or a range with an end followed by `[`. -/
def rangeEnd (r : ReservedRange) (rest : List Token) : Prop :=
  ∃ c r', rest = c :: r' ∧ (c = .comma ∨ c = .semicolon ∨ (c = .leftBracket ∧ r.stop ≠ .none))

theorem range_cpl {ts rest : List Token} {v : ReservedRange} {pk : Bool} {Q : ReservedRange → TS → Prop} (hg : RangeG ts v) (hF : rangeEnd v rest)
    (hQ : ∀ v' pk', er v' = er v → Q v' (At' rest pk' false)) : wpc parseReservedRange Q (At' (ts ++ rest) pk e) := by
  unfold parseReservedRange
  cases hg with
  | @single ts i h =>
    refine (parseInt_cpl (n := (ts ++ rest).length)).use (Nat.le_refl _) h trivial fun v' pk' hv => ?_
    obtain ⟨c, r, rfl, hc⟩ := hF
    have hc : c = .comma ∨ c = .semicolon := by
      rcases hc with h | h | h
      · exact .inl h
      · exact .inr h
      · exact absurd rfl h.2
    refine skip_b fun sp => ?_
    have h1 : c ≠ Parse.kw b!"to" := by rcases hc with rfl | rfl <;> simp
    dsimp only
    rw [if_neg h1, if_pos hc]
    exact hQ _ _ (er_range hv rfl)
  | @to ts i us j h h2 =>
    rw [List.append_assoc, List.cons_append]
    refine (parseInt_cpl (n := (ts ++ (kw b!"to" :: (us ++ rest))).length)).use (Nat.le_refl _) h trivial fun v' pk' hv => ?_
    refine skip_b fun sp => ?_
    dsimp only
    rw [if_pos rfl]
    refine bump_b rfl (by simp) (by simp) fun _ => ?_
    have key : ∀ pk, wpc (do let i ← parseInt; pure (⟨v', .int i⟩ : ReservedRange)) Q (At' (us ++ rest) pk false) := by
      intro pk
      refine (parseInt_cpl (n := (us ++ rest).length)).use (Nat.le_refl _) h2 trivial fun w pk'' hw => ?_
      exact hQ _ _ (er_range hv (congrArg ReservedRangeEnd.int hw))
    cases h2 with
    | pos => exact skip_b fun sp => key _
    | neg => exact skip_b fun sp => key _
  | @max ts i sp0 h =>
    rw [List.append_assoc, List.cons_append, List.singleton_append]
    refine (parseInt_cpl (n := (ts ++ (kw b!"to" :: kw b!"max" :: rest)).length)).use (Nat.le_refl _) h trivial fun v' pk' hv => ?_
    refine skip_b fun sp => ?_
    dsimp only
    rw [if_pos rfl]
    refine bump_b rfl (by simp) (by simp) fun _ => ?_
    refine skip_b fun sp => ?_
    dsimp only
    rw [if_pos rfl]
    refine bump_b rfl (by simp) (by simp) fun _ => ?_
    exact hQ _ _ (er_range hv rfl)

theorem sepBy_last {α : Type} {sep : Token} {item : List Token → α → Prop} {ts : List Token} {as : List α} (h : SepBy sep item ts as) :
    as ≠ [] := by cases h <;> simp

theorem many_cons_inv {σ : Type} {elem : List Token → σ → σ → Prop} {us : List Token} {s s' : σ} (h : Many elem us s s') :
    us = [] ∨ ∃ t ts s1, us = t ++ ts ∧ elem t s s1 ∧ Many elem ts s1 s' := by
  cases h with
  | nil => exact .inl rfl
  | cons h1 h2 => exact .inr ⟨_, _, _, rfl, h1, h2⟩

/-- Ranges separated by commas, up to a terminator. `opts`: options follow. -/
theorem ranges_cpl {terms : List Expected} (hf : n < fuel) {Q : List ReservedRange → TS → Prop} {c : Token} {r : List Token}
    (hc1 : c ≠ .comma) (hc : terms.any (·.matches c) = true) :
    ∀ (ts : List Token) (rs : List ReservedRange), SepBy .comma RangeG ts rs → ∀ (pk : Bool) (acc : List ReservedRange),
      (ts ++ c :: r).length < fuel →
      (c = .semicolon ∨ c = .leftBracket ∧ ∀ r, rs.getLast? = some r → r.stop ≠ .none) →
      (∀ rs' pk', er rs' = er (acc ++ rs) → Q rs' (At' (c :: r) pk' false)) → ∀ k acc', er acc' = er acc → ts.length ≤ k →
      wpc (parseReservedRange >>= fun x => loopM (reservedRangesStep terms) k (acc' ++ [x])) Q (At' (ts ++ c :: r) pk false) := by
  intro ts rs h
  induction h with
  | @one t a h =>
    intro pk acc hl hcl hQ k acc' hacc hk
    rw [wpc_bind]
    refine range_cpl h ⟨c, r, rfl, ?_⟩ fun v' pk' hv => ?_
    · rcases hcl with h | h
      · exact .inr (.inl h)
      · exact .inr (.inr ⟨h.1, h.2 a rfl⟩)
    · cases k with
      | zero => cases h with
        | single h => cases h <;> simp at hk
        | to h => simp at hk
        | max h => simp at hk
      | succ k =>
        unfold loopM reservedRangesStep
        rw [wpc_bind]
        refine skip_b fun sp => ?_
        dsimp only
        rw [if_neg hc1, if_pos hc]
        exact hQ _ _ (er_snoc hacc hv)
  | @cons t a ts as h h2 ih =>
    intro pk acc hl hcl hQ k acc' hacc hk
    rw [wpc_bind, List.append_assoc, List.cons_append]
    refine range_cpl h ⟨.comma, _, rfl, .inl rfl⟩ fun v' pk' hv => ?_
    cases k with
    | zero => simp at hk
    | succ k =>
      unfold loopM
      rw [wpc_bind]
      unfold reservedRangesStep
      refine skip_b fun sp => ?_
      dsimp only
      rw [if_pos rfl]
      refine bump_b rfl (by simp) (by simp) fun _ => ?_
      have := ih false (acc ++ [a]) (by simp at hl ⊢; omega) ?_ (fun rs' pk' hr => hQ rs' pk' (by simpa using hr)) k (acc' ++ [v'])
        (er_snoc hacc hv) (by simp at hk; omega)
      · rw [wpc_bind] at this ⊢
        exact this
      · rcases hcl with h | ⟨h, h3⟩
        · exact .inl h
        · refine .inr ⟨h, fun r hr => h3 r ?_⟩
          rw [List.getLast?_cons_of_ne_nil (sepBy_last h2)]
          exact hr

theorem utf8_b {β : Type} {f : Bytes × Span → Prog β} {Q : β → TS → Prop} {ts rest : List Token} {v : Bytes} {pk : Bool} (hf : n < fuel)
    (hn : (ts ++ rest).length ≤ n) (hg : Utf8G ts v) (hF : NoStr rest) (hQ : ∀ sp pk', wpc (f (v, sp)) Q (At' rest pk' false)) :
    wpc (parseUtf8String fuel >>= f) Q (At' (ts ++ rest) pk e) := by
  obtain ⟨⟨sp, h⟩, h2⟩ := hg
  unfold parseUtf8String
  rw [wpc_bind]
  refine (parseString_cpl hf).use hn h hF fun v' pk' hv => ?_
  have hv := er_str.1 hv
  simp only at hv
  rw [hv, if_pos h2, wpc_pure]
  exact hQ _ _

theorem er_ident {a b : Ident} : er a = er b ↔ a.value = b.value := by
  cases a; cases b; simp [er]

theorem parseIdentString_cpl (hf : n < fuel) : Cpl n e (parseIdentString fuel) IdentStrG NoStr := by
  intro ts v rest pk Q hn hg hF hQ
  unfold parseIdentString
  refine utf8_b hf hn hg.1 hF fun sp pk' => ?_
  dsimp only
  rw [if_pos (isValidIdent_iff.2 hg.2), wpc_pure]
  exact hQ _ _ (er_ident.2 rfl)

theorem er_reserved {a b : Reserved} (h : er a.kind = er b.kind) : er a = er b := by
  show Reserved.mk _ _ _ = Reserved.mk _ _ _
  rw [h]; rfl

theorem parseReserved_cpl (hf : n < fuel) : Cpl n false (parseReserved fuel) ReservedG Any := by
  intro ts v rest pk Q hn hg hF hQ
  unfold parseReserved
  cases hg with
  | @ranges ts rs c0 sp0 h =>
    simp only [List.cons_append, List.append_assoc, List.singleton_append, List.nil_append] at hn ⊢
    refine leading_b fun c => ?_
    refine expect_b rfl (by simp) (by simp) fun sp => ?_
    have key : ∀ pk lead start, wpc (do
        let ranges ← parseReservedRanges fuel [.token .semicolon]
        let stop ← expectEq .semicolon
        let comments ← Prog.trailing lead
        pure (⟨.ranges ranges, comments, joinSpan start stop⟩ : Reserved)) Q (At' (ts ++ .semicolon :: rest) pk false) := by
      intro pk lead start
      rw [wpc_bind]
      unfold parseReservedRanges
      refine ranges_cpl hf (by simp) (by decide) ts rs h pk [] (by simp at hn ⊢; omega) (.inl rfl) ?_ fuel [] rfl (by simp at hn; omega)
      intro rs' pk' hr
      refine expect_b rfl (by simp) (by simp) fun sp => ?_
      refine trailing_b fun c => ?_
      exact hQ _ _ (er_reserved (congrArg ReservedKind.ranges hr))
    obtain ⟨t, a, us, as, rfl, rfl, h3, h4⟩ := sepBy_split h
    rw [List.append_assoc] at key ⊢
    have hi : ∃ i is us', t ++ (us ++ .semicolon :: rest) = is ++ us' ∧ IntG is i := by
      cases h3 with
      | single h7 => exact ⟨_, _, _, rfl, h7⟩
      | to h7 => exact ⟨_, _, _, by rw [List.append_assoc], h7⟩
      | max h7 => exact ⟨_, _, _, by rw [List.append_assoc], h7⟩
    obtain ⟨i, is, us', h5, h6⟩ := hi
    rw [h5] at key ⊢
    cases h6 with
    | pos => exact skip_b fun sp => key _ _ _
    | neg => exact skip_b fun sp => key _ _ _
  | @names ts ns c0 sp0 h =>
    simp only [List.cons_append, List.append_assoc, List.singleton_append, List.nil_append] at hn ⊢
    refine leading_b fun c => ?_
    refine expect_b rfl (by simp) (by simp) fun sp => ?_
    obtain ⟨t, a, us, as, rfl, rfl, h3, h4⟩ := sepBy_split h
    rw [List.append_assoc] at hn ⊢
    have key : ∀ pk lead start, wpc (do
        let (names, stop) ← parseReservedNames fuel
        let comments ← Prog.trailing lead
        pure (⟨.names names, comments, joinSpan start stop⟩ : Reserved)) Q (At' (t ++ (us ++ .semicolon :: rest)) pk false) := by
      intro pk lead start
      rw [wpc_bind]
      unfold parseReservedNames
      refine (parseIdentString_cpl hf).use (by simp at hn ⊢; omega) h3 ?_ fun v' pk' hv => ?_
      · rcases many_cons_inv (h4 []) with rfl | ⟨_, _, _, rfl, ⟨_, _, rfl, _⟩, _⟩ <;> exact noStr_cons (by simp)
      refine sep_loop (F := NoStr) (fun _ => noStr_cons (by simp)) ?_ (h4 [a]) (by rw [er_cons, er_cons, hv]) pk' (n := n)
        (by simp only [List.length_append, List.length_cons] at hn ⊢; omega) hf (noStr_cons (by simp)) ?_
      · intro t a s rest pk R h hl hF hR
        unfold reservedNamesStep
        rw [List.cons_append] at hl ⊢
        refine skip_b fun sp => ?_
        dsimp only
        rw [if_pos rfl]
        refine bump_b rfl (by simp) (by simp) fun _ => ?_
        refine (parseIdentString_cpl hf).use (by simp at hl ⊢; omega) h hF fun v' pk' hv => ?_
        exact hR _ _ hv
      · intro s2 pk hs
        unfold reservedNamesStep
        refine skip_b fun sp => ?_
        simp only [reduceCtorEq, if_false, if_true]
        refine bump_b rfl (by simp) (by simp) fun _ => ?_
        show wpc (Prog.trailing lead >>= _) _ _
        refine trailing_b fun c => ?_
        exact hQ _ _ (er_reserved (congrArg ReservedKind.names hs))
    have h6 := h3.1
    obtain ⟨⟨_, ps, hne, rfl, _⟩, _⟩ := h6
    cases ps with
    | nil => exact absurd rfl hne
    | cons p ps => exact skip_b fun sp => key _ _ _

variable [FloatFmt]

theorem parseExtensions_cpl (hf : n < fuel) : Cpl n false (parseExtensions fuel) ExtensionsG Any := by
  intro ts v rest pk Q hn hg hF hQ
  unfold parseExtensions
  obtain ⟨h1, h2, h3⟩ := hg
  rename_i ts rs us os c0 sp0
  simp only [List.cons_append, List.append_assoc, List.singleton_append, List.nil_append] at hn ⊢
  refine leading_b fun c => ?_
  refine expect_b rfl (by simp) (by simp) fun sp => ?_
  rw [wpc_bind]
  unfold parseReservedRanges
  have key : ∀ rs' pk' lead start, er rs' = er rs → wpc (do
      let options ← parseOptOptions fuel .semicolon
      let stop ← expectEq .semicolon
      let comments ← Prog.trailing lead
      pure (⟨rs', options, comments, joinSpan start stop⟩ : Extensions)) Q (At' (us ++ .semicolon :: rest) pk' false) := by
    intro rs' pk' lead start hr
    refine (parseOptOptions_cpl hf (by simp)).use (by simp at hn ⊢; omega) h2 (By.mk (by simp)) fun v' pk' hv => ?_
    refine expect_b rfl (by simp) (by simp) fun sp => ?_
    refine trailing_b fun c => ?_
    refine hQ _ _ ?_
    show Extensions.mk _ _ _ _ = Extensions.mk _ _ _ _
    rw [hr, hv]; rfl
  cases h2 with
  | none =>
    refine ranges_cpl hf (by simp) (by decide) ts rs h1 _ [] (by simp at hn ⊢; omega) (.inl rfl) ?_ fuel [] rfl (by simp at hn; omega)
    intro rs' pk' hr
    exact key _ _ _ _ hr
  | some h =>
    simp only [List.cons_append, List.append_assoc, List.singleton_append, List.nil_append] at hn key ⊢
    refine ranges_cpl hf (by simp) (by decide) ts rs h1 _ [] (by simp at hn ⊢; omega) (.inr ⟨rfl, h3 rfl⟩) ?_ fuel [] rfl
      (by simp at hn; omega)
    intro rs' pk' hr
    exact key _ _ _ _ hr

end
end Verif.Parse
