import Verif.Proofs.Pos2
/-!
Places and comments: options, ranges, reserved names.
-/
namespace Verif.Pos
open Verif.Parse Verif.Spec Verif.Ast Verif.Places
open Verif.Grammar (balanced aggText)

/-! ## Aggregates -/

theorem textFormat [FloatFmt] {β : Type} {Q : β → AS → Prop} {f : Bytes → Prog β} {st : AS} {fuel : Nat}
    (k : ∀ ts st', st.toks = ts ++ st'.toks → (st'.toks = [] ∨ balanced 0 (ts.map (·.tok)) = true) →
      wp (f (aggText (ts.map (·.tok)))) Q st') :
    wp (parseTextFormat fuel >>= f) Q st := by
  unfold parseTextFormat
  rw [bind, bind]
  show wp (loopM textFormatStep fuel ([], 0) >>= _) _ _
  rw [bind]
  refine loop (fun s st1 => ∃ ts, st.toks = ts ++ st1.toks ∧ s.1 = aggText (ts.map (·.tok)) ∧ Level 0 (ts.map (·.tok)) s.2)
    ?_ fuel ([], 0) st ⟨[], rfl, rfl, fun r => rfl⟩
  rintro ⟨text, level⟩ st1 ⟨ts, e, ht, hl⟩
  simp only at ht hl
  subst ht
  unfold textFormatStep
  refine peekO (fun e0 => ?_) (fun a r st' e1 e1' _ => ?_)
  · exact k ts _ (by simp [e]) (.inl (by simp [e0]))
  · simp only
    split
    · rename_i hz
      refine k ts _ (by rw [e, e1', e1]) (.inr ?_)
      obtain ⟨_, rfl⟩ := hz
      have := hl []
      simpa [balanced] using this
    · rename_i hz
      refine bump e1' ?_
      refine ⟨ts ++ [a], by eats, ?_, ?_⟩
      · rw [List.map_append]
        exact (aggText_snoc _ _).symm
      · rw [List.map_append]
        exact hl.snoc hz

/-! ## Options -/

theorem parseOptionNamePart_snd (fuel : Nat) : Snd (parseOptionNamePart fuel) NamePartG := by
  intro st Q k
  unfold parseOptionNamePart
  refine peek rfl fun a r st' e e' _ => ?_
  simp only
  split
  · rename_i hl
    refine bump e' ?_
    refine (parseTypeName_snd fuel _).bind fun u v st1 e1 g => ?_
    refine expect fun z r' e2 hz => ?_
    refine k (a :: u ++ [z]) _ ⟨r', .fresh, some z⟩ (by eats) ?_
    rw [← extent_ends a u z]
    exact .ext hl g hz
  · split
    · refine parseIdent_snd.bind fun u v st1 e1 g => ?_
      exact k u _ _ (by rw [e, ← e1, e']) (.ident g)
    · exact unexp'

theorem namePartG_ne {ts p} (h : NamePartG ts p) : ts ≠ [] := by
  cases h with
  | ident h => obtain ⟨a, rfl, _⟩ := h; simp
  | ext _ _ _ => simp

theorem strG_ne {ts s} (h : StrG ts s) : ts ≠ [] := by
  rintro rfl
  obtain ⟨ps, h1, h2, _⟩ := h
  simp at h2
  exact h1 h2

theorem parseOptionValue_snd [FloatFmt] (fuel : Nat) : Snd (parseOptionValue fuel) ValueG := by
  intro st Q k
  unfold parseOptionValue
  refine peekSkip rfl fun a r st' e e' => ?_
  simp only
  split
  · rename_i hm
    refine bump e' ?_
    refine peekSkip rfl fun b r2 st2 e2 e2' => ?_
    simp only at e2 ⊢
    split
    · refine parseIdent_snd.bind fun u v st3 e3 g => ?_
      refine k (a :: u) _ st3 (by rw [e, e2, ← e2', e3]; rfl) ?_
      obtain ⟨b', rfl, h1, h2⟩ := g
      rw [e2'] at e3
      simp at e3
      obtain ⟨rfl, _⟩ := e3
      exact .negIdent hm ⟨b, rfl, h1, h2⟩
    · rename_i v hv
      refine bump e2' ?_
      exact k [a, b] _ ⟨r2, .fresh, some b⟩ (by eats) (.int (.neg hm hv))
    · rename_i v hv
      refine bump e2' ?_
      exact k [a, b] _ ⟨r2, .fresh, some b⟩ (by eats) (.negFloat hm hv)
    · exact unexp'
  · refine parseIdent_snd.bind fun u v st1 e1 g => ?_
    refine k u _ st1 (by rw [e, ← e', e1]) ?_
    obtain ⟨b', rfl, h1, h2⟩ := g
    rw [e'] at e1
    simp at e1
    obtain ⟨rfl, _⟩ := e1
    exact .ident ⟨a, rfl, h1, h2⟩
  · rename_i v hv
    refine bump e' ?_
    exact k [a] _ ⟨r, .fresh, some a⟩ (by eats) (.int (.pos hv))
  · rename_i v hv
    refine bump e' ?_
    exact k [a] _ ⟨r, .fresh, some a⟩ (by eats) (.float hv)
  · refine (parseString_snd fuel).bind fun u v st1 e1 g => ?_
    exact k u _ st1 (by rw [e, ← e', e1]) (.string g)
  · rename_i hl
    refine bump e' ?_
    refine textFormat fun ts st1 e1 hb => ?_
    refine expect fun z r' e2 hz => ?_
    refine k (a :: ts ++ [z]) _ ⟨r', .fresh, some z⟩ (by eats) ?_
    rw [← extent_ends a ts z]
    refine .aggregate hl ?_ hz
    rcases hb with hb | hb
    · rw [hb] at e2; cases e2
    · exact hb
  · exact unexp'

theorem parseOptionBody_snd [FloatFmt] (fuel : Nat) : Snd (parseOptionBody fuel) OptionBodyG := by
  intro st Q k
  unfold parseOptionBody
  refine (parseOptionNamePart_snd fuel).bind fun u v st1 e g => ?_
  rw [bind]
  refine loop (fun s st1 => ∃ u, st.toks = u ++ st1.toks ∧ SepBy .dot NamePartG u s) ?_ fuel _ _ ⟨u, e, .one g⟩
  clear e g
  rintro s st1 ⟨u, hu, hg⟩
  unfold optionNameStep
  refine peekSkip rfl fun a r st2 e1 e1' => ?_
  simp only
  split
  · rename_i hd
    refine bump e1' ?_
    refine (parseOptionNamePart_snd fuel).bind fun u2 v2 st3 e2 g2 => ?_
    exact ⟨u ++ a :: u2, by eats, sepBy_snoc hg hd g2⟩
  · split
    · rename_i he
      refine bump e1' ?_
      refine (parseOptionValue_snd fuel).bind fun u2 v2 st3 e2 g2 => ?_
      exact k (u ++ a :: u2) _ _ (by eats) (.mk hg he g2)
    · exact unexp'

/-- The comments of an element that starts with token `k`. -/
theorem lead_eq {st : AS} {c : List Bytes × Option Bytes} {a r} (hc : ∀ a, st.toks.head? = some a → c = (a.detached, a.leading))
    (e : st.toks = a :: r) : c = (a.detached, a.leading) := hc a (by rw [e]; rfl)

theorem parseOption_snd [FloatFmt] (fuel : Nat) : SndL (parseOption fuel) OptionG := by
  intro st Q hl k
  unfold parseOption
  refine leading hl fun c hc => ?_
  refine expect fun a r e ha => ?_
  cases lead_eq hc e
  refine (parseOptionBody_snd fuel).bind fun u v st1 e1 g => ?_
  refine expect fun z r' e2 hz => ?_
  refine trailing ?_
  refine k (a :: u ++ [z]) _ _ (by eats) rfl ?_
  rw [← extent_ends a u z]
  exact .mk ha g hz

theorem parseOptionsList_snd [FloatFmt] (fuel : Nat) : Snd (parseOptionsList fuel) (fun ts l => OptListG ts (some l)) := by
  intro st Q k
  unfold parseOptionsList
  refine expect fun a r e ha => ?_
  refine (parseOptionBody_snd fuel).bind fun u v st1 e1 g => ?_
  rw [bind]
  refine loop (fun s st1 => ∃ u, st.toks = a :: u ++ st1.toks ∧ SepBy .comma OptionBodyG u s) ?_ fuel _ _
    ⟨u, by eats, .one g⟩
  clear e g e1
  rintro s st1 ⟨u, hu, hg⟩
  unfold optionsListStep
  refine peekSkip rfl fun b r st2 e1 e1' => ?_
  simp only
  split
  · rename_i hd
    refine bump e1' ?_
    refine (parseOptionBody_snd fuel).bind fun u2 v2 st3 e2 g2 => ?_
    exact ⟨u ++ b :: u2, by eats, sepBy_snoc hg hd g2⟩
  · split
    · rename_i he
      refine bump e1' ?_
      refine k (a :: u ++ [b]) _ ⟨r, .fresh, some b⟩ (by eats) ?_
      rw [← extent_ends a u b]
      exact .some ha hg he
    · exact unexp'

theorem parseOptOptions_snd [FloatFmt] (fuel : Nat) (term : Token) : Snd (parseOptOptions fuel term) OptListG := by
  intro st Q k
  unfold parseOptOptions
  refine peekSkip rfl fun a r st' e e' => ?_
  simp only
  split
  · refine (parseOptionsList_snd fuel).bind fun u v st1 e1 g => ?_
    exact k u _ _ (by rw [e, ← e', e1]) g
  · split
    · exact k [] _ _ (by rw [e, e']; rfl) .none
    · exact unexp'

/-! ## Ranges -/

/-- A range that is a single number is followed by a comma or a semicolon. -/
def RangeEnd (v : ReservedRange) (st : AS) : Prop :=
  v.stop = .none → ∀ a, st.toks.head? = some a → a.tok ≠ .leftBracket

theorem parseReservedRange_full {β : Type} {st : AS} {Q : β → AS → Prop} {f : ReservedRange → Prog β}
    (k : ∀ u v st', st.toks = u ++ st'.toks → RangeG u v → RangeEnd v st' → wp (f v) Q st') :
    wp (parseReservedRange >>= f) Q st := by
  rw [bind]
  unfold parseReservedRange
  refine parseInt_snd.bind fun u v st1 e g => ?_
  refine peekSkip rfl fun a r st' e1 e1' => ?_
  simp only
  split
  · rename_i ht
    refine bump e1' ?_
    refine peekSkip rfl fun b r2 st2 e2 e2' => ?_
    simp only at e2 ⊢
    split
    · rename_i hm
      refine bump e2' ?_
      exact k (u ++ [a, b]) _ ⟨r2, .fresh, some b⟩ (by eats) (.max g ht hm) nofun
    · have : wp (parseInt >>= fun i => pure (⟨v, .int i⟩ : ReservedRange)) (fun a st' => wp (f a) Q st') st2 := by
        refine parseInt_snd.bind fun u2 v2 st3 e3 g2 => ?_
        exact k (u ++ a :: u2) _ _ (by rw [e, e1, e2, ← e2', e3]; simp) (.to g ht g2) nofun
      split
      · exact this
      · exact this
      · exact unexp'
  · split
    · rename_i h
      refine k u _ _ (by rw [e, e1, ← e1']) (.single g) ?_
      intro _ x hx
      rw [e1'] at hx
      cases hx
      rcases h with h | h <;> rw [h] <;> simp
    · exact unexp'

/-- A list of ranges, and what may follow it. -/
theorem parseReservedRanges_full {β : Type} {st : AS} {Q : β → AS → Prop} {f : List ReservedRange → Prog β} (fuel : Nat)
    (terms : List Expected)
    (k : ∀ u v st', st.toks = u ++ st'.toks → SepBy .comma RangeG u v → (∀ x, v.getLast? = some x → RangeEnd x st') →
      wp (f v) Q st') :
    wp (parseReservedRanges fuel terms >>= f) Q st := by
  rw [bind]
  unfold parseReservedRanges
  refine parseReservedRange_full fun u v st1 e g he => ?_
  refine loop (fun s st1 => ∃ u, st.toks = u ++ st1.toks ∧ SepBy .comma RangeG u s ∧
    (∀ x, s.getLast? = some x → RangeEnd x st1)) ?_ fuel _ _ ⟨u, e, .one g, by simpa using he⟩
  clear e g he
  rintro s st1 ⟨u, hu, hg, he⟩
  unfold reservedRangesStep
  refine peekSkip rfl fun b r st2 e1 e1' => ?_
  simp only
  split
  · rename_i hd
    refine bump e1' ?_
    refine parseReservedRange_full fun u2 v2 st3 e2 g2 he2 => ?_
    exact ⟨u ++ b :: u2, by eats, sepBy_snoc hg hd g2, by simpa using he2⟩
  · split
    · refine k u _ _ (by rw [hu, e1, e1']) hg ?_
      intro x hx h0 y hy
      rw [e1', ← e1] at hy
      exact he x hx h0 y hy
    · exact unexp'

theorem parseExtensions_snd [FloatFmt] (fuel : Nat) : SndL (parseExtensions fuel) ExtensionsG := by
  intro st Q hl k
  unfold parseExtensions
  refine leading hl fun c hc => ?_
  refine expect fun a r e ha => ?_
  cases lead_eq hc e
  refine parseReservedRanges_full fuel _ fun u v st1 e1 g he => ?_
  refine (parseOptOptions_snd fuel _).bind fun u2 os st2 e2 g2 => ?_
  refine expect fun z r' e3 hz => ?_
  refine trailing ?_
  refine k (a :: u ++ u2 ++ [z]) _ _ (by eats) rfl ?_
  have := extent_ends a (u ++ u2) z
  simp only [List.cons_append, List.append_assoc] at this
  rw [← this]
  have := ExtensionsG.mk ha g g2 ?_ hz
  · simpa [comments_cons] using this
  · intro ho x hx h0
    cases g2 with
    | none => cases ho
    | @some l ts rr os hl' _ _ =>
      exact he x hx h0 l (by rw [e2]; rfl) hl'

theorem parseIdentString_snd (fuel : Nat) : Snd (parseIdentString fuel) IdentStrG := by
  intro st Q k
  unfold parseIdentString
  refine (parseUtf8String_snd fuel).bind fun u v st1 e g => ?_
  obtain ⟨v, sp⟩ := v
  simp only
  split
  · rename_i hv
    obtain ⟨b, r, h1, h2, h3⟩ := isValidIdent_iff.1 hv
    exact k u _ _ e ⟨g, b, r, h1, h2, h3⟩
  · trivial

theorem parseReservedNames_snd {β : Type} {st : AS} {Q : β → AS → Prop} {f : List Ident × Span → Prog β} (fuel : Nat)
    (k : ∀ u v z r, st.toks = u ++ z :: r → SepBy .comma IdentStrG u v → z.tok = .semicolon →
      wp (f (v, z.span)) Q ⟨r, .fresh, some z⟩) :
    wp (parseReservedNames fuel >>= f) Q st := by
  rw [bind]
  unfold parseReservedNames
  refine (parseIdentString_snd fuel).bind fun u v st1 e g => ?_
  refine loop (fun s st1 => ∃ u, st.toks = u ++ st1.toks ∧ SepBy .comma IdentStrG u s) ?_ fuel _ _ ⟨u, e, .one g⟩
  clear e g
  rintro s st1 ⟨u, hu, hg⟩
  unfold reservedNamesStep
  refine peekSkip rfl fun b r st2 e1 e1' => ?_
  simp only
  split
  · rename_i hd
    refine bump e1' ?_
    refine (parseIdentString_snd fuel).bind fun u2 v2 st3 e2 g2 => ?_
    exact ⟨u ++ b :: u2, by eats, sepBy_snoc hg hd g2⟩
  · split
    · rename_i hz
      exact bump e1' (k u s b r (by rw [hu, e1]) hg hz)
    · exact unexp'

theorem parseReserved_snd (fuel : Nat) : SndL (parseReserved fuel) ReservedG := by
  intro st Q hl k
  unfold parseReserved
  refine leading hl fun c hc => ?_
  refine expect fun a r e ha => ?_
  cases lead_eq hc e
  refine peekSkip rfl fun b r1 st1 e1 e1' => ?_
  simp only at e1 ⊢
  have ranges : wp (parseReservedRanges fuel [.token .semicolon] >>= fun ranges => expectEq .semicolon >>= fun stop =>
      Prog.trailing (a.detached, a.leading) >>= fun comments =>
        pure ((⟨.ranges ranges, comments, joinSpan a.span stop⟩ : Reserved))) Q st1 := by
    refine parseReservedRanges_full fuel _ fun u v st2 e2 g he => ?_
    refine expect fun z r' e3 hz => ?_
    refine trailing ?_
    refine k (a :: u ++ [z]) _ ⟨r', .seen true false, some z⟩ ?_ rfl ?_
    · simp only [noLead_toks] at e
      rw [e, e1, ← e1', e2, e3]
      simp
    · rw [← extent_ends a u z]
      exact .ranges ha g hz
  split
  · exact ranges
  · exact ranges
  · refine parseReservedNames_snd fuel fun u v z r' e2 g hz => ?_
    refine trailing ?_
    refine k (a :: u ++ [z]) _ ⟨r', .seen true false, some z⟩ ?_ rfl ?_
    · simp only [noLead_toks] at e
      rw [e, e1, ← e1', e2]
      simp
    · rw [← extent_ends a u z]
      exact .names ha g hz
  · exact unexp'

end Verif.Pos
