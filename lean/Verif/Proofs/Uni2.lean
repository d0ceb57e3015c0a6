import Verif.Proofs.Uni1
/-!
A source has only one tree: options, ranges, reserved names.
-/
namespace Verif.Pos
open Verif.Parse Verif.Spec Verif.Ast Verif.Places
open Verif.Grammar (balanced aggText)

/-! ## Aggregates -/

theorem textLoop_det [FloatFmt] {Q : Bytes → AS → Prop} {z : ATok} {rest : List ATok} (hz : z.tok = .rightBrace)
    (fuel : Nat) : ∀ (ts : List ATok) (d : Nat) (text : Bytes) (st : AS), balanced d (ts.map (·.tok)) = true →
    st.toks = ts ++ z :: rest →
    (∀ st', st'.toks = z :: rest →
      Q ((ts.map (·.tok)).foldl (fun text t => (if text = [] then text else text ++ [32]) ++ t.display) text) st') →
    wp (loopM textFormatStep fuel (text, d)) Q st := by
  induction fuel with
  | zero => intros; trivial
  | succ n ih =>
    intro ts d text st hb e hQ
    cases ts with
    | nil =>
      have : d = 0 := by simpa [balanced] using hb
      subst this
      show wp (textFormatStep _ >>= _) Q st
      rw [bind]
      unfold textFormatStep
      refine peekD e fun st' e' _ => ?_
      simp only
      rw [if_pos ⟨hz, trivial⟩]
      exact hQ _ e'
    | cons a ts =>
      simp only [List.map_cons] at hb hQ
      have h0 : ¬ (a.tok = .rightBrace ∧ d = 0) := by
        rintro ⟨h1, rfl⟩; simp [balanced, h1] at hb
      have hb' : balanced (if a.tok = .leftBrace then d + 1 else if a.tok = .rightBrace then d - 1 else d) (ts.map (·.tok)) = true := by
        generalize a.tok = t at hb h0 ⊢
        cases t <;> first | exact hb | (cases d <;> first | exact hb | simp at h0)
      show wp (textFormatStep _ >>= _) Q st
      rw [bind]
      unfold textFormatStep
      refine peekD e fun st' e' _ => ?_
      simp only
      rw [if_neg h0]
      refine bump e' ?_
      exact ih ts _ _ _ hb' rfl hQ

theorem textFormat_det [FloatFmt] {β : Type} {Q : β → AS → Prop} {f : Bytes → Prog β} {st : AS} {fuel : Nat} {ts : List ATok}
    {z : ATok} {rest : List ATok} (hz : z.tok = .rightBrace) (hb : balanced 0 (ts.map (·.tok)) = true) (e : st.toks = ts ++ z :: rest)
    (k : ∀ st', st'.toks = z :: rest → wp (f (aggText (ts.map (·.tok)))) Q st') :
    wp (parseTextFormat fuel >>= f) Q st := by
  unfold parseTextFormat
  rw [bind, bind]
  show wp (loopM textFormatStep fuel ([], 0) >>= _) _ _
  rw [bind]
  exact textLoop_det hz fuel ts 0 [] st hb e fun st' e' => k st' e'

/-! ## Options -/

theorem parseOptionNamePart_det (fuel : Nat) : Det (parseOptionNamePart fuel) NamePartG Free := by
  intro st Q u v rest g e _ hQ
  unfold parseOptionNamePart
  cases g with
  | @ident ts i h =>
    obtain ⟨a, rfl, h1, h2⟩ := h
    refine peekD e fun st' e' _ => ?_
    simp only
    rw [if_neg (by rw [h1]; simp)]
    simp only [h1]
    refine parseIdent_det.bind ⟨a, rfl, h1, h2⟩ e' trivial fun st2 e2 => ?_
    exact hQ _ e2
  | @ext l ts r t hl h hr =>
    refine peekD e fun st' e' _ => ?_
    simp only
    rw [if_pos hl]
    refine bump e' ?_
    refine (parseTypeName_det fuel _).bind (rest := r :: rest) h (by simp) ?_ fun st2 e2 => ?_
    · intro a ha; cases ha; rw [hr]; simp
    refine expectD e2 ?_
    rw [extent_ends] at hQ
    exact hQ _ rfl

theorem strG_head {ts s} (h : StrG ts s) : ∃ a r v, ts = a :: r ∧ a.tok = .string v := by
  obtain ⟨ps, h1, h2, _⟩ := h
  cases ps with
  | nil => exact absurd rfl h1
  | cons p ps =>
    cases ts with
    | nil => cases h2
    | cons a r => simp at h2; exact ⟨a, r, p, rfl, h2.1⟩

theorem parseOptionValue_det [FloatFmt] (fuel : Nat) : Det (parseOptionValue fuel) ValueG NoString := by
  intro st Q u v rest g e hF hQ
  unfold parseOptionValue
  cases g with
  | @ident ts i h =>
    obtain ⟨a, rfl, h1, h2⟩ := h
    refine skipD e fun st' e' => ?_
    simp only [h1]
    refine parseIdent_det.bind ⟨a, rfl, h1, h2⟩ e' trivial fun st2 e2 => ?_
    exact hQ _ e2
  | @negIdent m ts i hm h =>
    obtain ⟨a, rfl, h1, h2⟩ := h
    refine skipD e fun st' e' => ?_
    simp only [hm]
    refine bump e' ?_
    refine skipD rfl fun st2 e2 => ?_
    simp only [h1]
    refine parseIdent_det.bind ⟨a, rfl, h1, h2⟩ e2 trivial fun st2 e2 => ?_
    exact hQ _ e2
  | @int ts i h =>
    cases h with
    | @pos a v h =>
      refine skipD e fun st' e' => ?_
      simp only [h]
      exact bump e' (hQ _ rfl)
    | @neg m a v hm h =>
      refine skipD e fun st' e' => ?_
      simp only [hm]
      refine bump e' ?_
      refine skipD rfl fun st2 e2 => ?_
      simp only [h]
      exact bump e2 (hQ _ rfl)
  | @float a t h =>
    refine skipD e fun st' e' => ?_
    simp only [h]
    exact bump e' (hQ _ rfl)
  | @negFloat m a t hm h =>
    refine skipD e fun st' e' => ?_
    simp only [hm]
    refine bump e' ?_
    refine skipD rfl fun st2 e2 => ?_
    simp only [h]
    exact bump e2 (hQ _ rfl)
  | @string ts s h =>
    obtain ⟨a, r, w, rfl, ha⟩ := strG_head h
    refine skipD e fun st' e' => ?_
    simp only [ha]
    refine (parseString_det fuel).bind h e' hF fun st2 e2 => ?_
    exact hQ _ e2
  | @aggregate l ts r hl hb hr =>
    refine skipD e fun st' e' => ?_
    simp only [hl]
    refine bump e' ?_
    refine textFormat_det (rest := rest) hr hb (by simp) fun st2 e2 => ?_
    refine expectD e2 ?_
    rw [extent_ends] at hQ
    exact hQ _ rfl

theorem parseOptionBody_det [FloatFmt] (fuel : Nat) : Det (parseOptionBody fuel) OptionBodyG NoString := by
  intro st Q u v rest g e hF hQ
  unfold parseOptionBody
  obtain ⟨h1, he, h2⟩ := g
  rename_i ns name eq vs value
  obtain ⟨t, a, us, as, rfl, rfl, h3, h4⟩ := sepBy_tail h1
  refine (parseOptionNamePart_det fuel).bind h3 (rest := us ++ eq :: (vs ++ rest)) (by rw [e]; simp) trivial fun st1 e1 => ?_
  rw [bind]
  refine sepD (F := Free) fuel (fun _ _ _ => trivial) trivial ?_ h4 e1 fun st2 e2 => ?_
  · intro c t a r s st R hc hi e _ hR
    unfold optionNameStep
    refine skipD e fun st2 e2 => ?_
    simp only
    rw [if_pos hc]
    refine bump e2 ?_
    exact (parseOptionNamePart_det fuel).bind hi rfl trivial fun st' e' => hR _ e'
  · unfold optionNameStep
    refine skipD e2 fun st3 e3 => ?_
    simp only
    rw [if_neg (by rw [he]; simp), if_pos he]
    refine bump e3 ?_
    refine (parseOptionValue_det fuel).bind h2 rfl hF fun st4 e4 => ?_
    exact hQ _ e4

theorem not_tok {c : Token → Prop} {a : ATok} {r : List ATok} {t : Token} (h : a.tok = t) (hc : ¬ c t) : Not c (a :: r) := by
  intro b hb
  cases hb
  rw [h]; exact hc

theorem parseOption_det [FloatFmt] (fuel : Nat) : DetL (parseOption fuel) OptionG := by
  intro st Q u v rest hl g e hQ
  unfold parseOption
  obtain ⟨hk, h, hz⟩ := g
  rename_i k ts z body
  refine leadingD hl e fun st1 e1 => ?_
  refine expectD e1 ?_
  refine (parseOptionBody_det fuel).bind (rest := z :: rest) h (by simp) (not_tok hz (by simp)) fun st2 e2 => ?_
  refine expectD e2 ?_
  refine trailing ?_
  rw [extent_ends] at hQ
  exact hQ _ rfl rfl

theorem parseOptionsList_det [FloatFmt] (fuel : Nat) : Det (parseOptionsList fuel) (fun ts l => OptListG ts (some l)) Free := by
  intro st Q u v rest g e _ hQ
  unfold parseOptionsList
  obtain ⟨os, sp⟩ := v
  generalize hv : some (OptionList.mk os sp) = v at g
  cases g with
  | none => cases hv
  | @some l ts r os' hl h hr =>
    cases hv
    obtain ⟨t, a, us, as, rfl, rfl, h3, h4⟩ := sepBy_tail h
    have hF : ∀ (c : ATok) r, c.tok = .comma → NoString (c :: r) := fun c r h => not_tok h (by simp)
    refine expectD e ?_
    have hR : NoString (r :: rest) := not_tok hr (by simp)
    refine (parseOptionBody_det fuel).bind h3 (rest := us ++ r :: rest) (by simp) (h4.follow hF hR) fun st1 e1 => ?_
    rw [bind]
    refine sepD (F := NoString) fuel hF hR ?_ h4 e1 fun st2 e2 => ?_
    · intro c t a r s st R hc hi e hF hR
      unfold optionsListStep
      refine skipD e fun st2 e2 => ?_
      simp only
      rw [if_pos hc]
      refine bump e2 ?_
      exact (parseOptionBody_det fuel).bind hi rfl hF fun st' e' => hR _ e'
    · unfold optionsListStep
      refine skipD e2 fun st3 e3 => ?_
      simp only
      rw [if_neg (by rw [hr]; simp), if_pos hr]
      refine bump e3 ?_
      rw [extent_ends] at hQ
      exact hQ _ rfl

/-- Not followed by options. -/
abbrev NoBracket : List ATok → Prop := Not (· = .leftBracket)

theorem parseOptOptions_det [FloatFmt] (fuel : Nat) (term : Token) : Det (parseOptOptions fuel term) OptListG NoBracket := by
  intro st Q u v rest g e hF hQ
  unfold parseOptOptions
  have g0 := g
  cases g with
  | none =>
    refine peekSkip rfl fun b r st2 e2 e2' => ?_
    simp only
    rw [if_neg (hF b (by rw [show rest = st.toks from e.symm, e2]; rfl))]
    split
    · exact hQ _ (by rw [e2', ← e2, e]; rfl)
    · exact unexp'
  | @some l ts r os hl h hr =>
    refine skipD e fun st' e' => ?_
    simp only
    rw [if_pos hl]
    refine (parseOptionsList_det fuel).bind g0 e' trivial fun st2 e2 => ?_
    exact hQ _ e2

/-! ## Ranges -/

/-- Not followed by `to`. -/
abbrev NoTo : List ATok → Prop := Not (· = kw b!"to")

theorem intG_head {ts i} (h : IntG ts i) : ∃ a r, ts = a :: r ∧ (a.tok = .minus ∨ ∃ v, a.tok = .int v) := by
  cases h with
  | pos h => exact ⟨_, _, rfl, .inr ⟨_, h⟩⟩
  | neg h _ => exact ⟨_, _, rfl, .inl h⟩

theorem parseReservedRange_det : Det parseReservedRange RangeG NoTo := by
  intro st Q u v rest g e hF hQ
  unfold parseReservedRange
  cases g with
  | @single ts i h =>
    refine parseInt_det.bind h e trivial fun st1 e1 => ?_
    refine peekSkip rfl fun b r st2 e2 e2' => ?_
    simp only
    rw [if_neg (hF b (by rw [← e1, e2]; rfl))]
    split
    · exact hQ _ (by rw [e2', ← e2, e1])
    · exact unexp'
  | @to ts i k us j h hk h2 =>
    refine parseInt_det.bind h (rest := k :: (us ++ rest)) (by rw [e]; simp) trivial fun st1 e1 => ?_
    refine skipD e1 fun st2 e2 => ?_
    simp only
    rw [if_pos hk]
    refine bump e2 ?_
    obtain ⟨a, r, rfl, ha⟩ := intG_head h2
    refine skipD (a := a) (r := r ++ rest) rfl fun st3 e3 => ?_
    have : wp (parseInt >>= fun x => pure (⟨i, .int x⟩ : ReservedRange)) Q st3 :=
      parseInt_det.bind h2 e3 trivial fun st4 e4 => hQ _ e4
    simp only
    rcases ha with ha | ⟨w, ha⟩
    · rw [if_neg (by rw [ha]; simp)]
      simp only [ha]
      exact this
    · rw [if_neg (by rw [ha]; simp)]
      simp only [ha]
      exact this
  | @max ts i k m h hk hm =>
    refine parseInt_det.bind h (rest := k :: m :: rest) (by rw [e]; simp) trivial fun st1 e1 => ?_
    refine skipD e1 fun st2 e2 => ?_
    simp only
    rw [if_pos hk]
    refine bump e2 ?_
    refine skipD rfl fun st3 e3 => ?_
    simp only
    rw [if_pos hm]
    exact bump e3 (hQ _ rfl)

theorem parseReservedRanges_det (fuel : Nat) (terms : List Expected) :
    Det (parseReservedRanges fuel terms) (SepBy .comma RangeG) (Not fun t => t = kw b!"to" ∨ t = .comma) := by
  intro st Q u v rest g e hF hQ
  obtain ⟨t, a, us, as, rfl, rfl, h3, h4⟩ := sepBy_tail g
  have hS : ∀ (c : ATok) r, c.tok = .comma → NoTo (c :: r) := fun c r h => not_tok h (by simp)
  have hR : NoTo rest := fun b hb h => hF b hb (.inl h)
  unfold parseReservedRanges
  refine parseReservedRange_det.bind h3 (rest := us ++ rest) (by rw [e]; simp) (h4.follow hS hR) fun st1 e1 => ?_
  refine sepD (F := NoTo) fuel hS hR ?_ h4 e1 fun st2 e2 => ?_
  · intro c t a r s st R hc hi e hF hR
    unfold reservedRangesStep
    refine skipD e fun st2 e2 => ?_
    simp only
    rw [if_pos hc]
    refine bump e2 ?_
    exact parseReservedRange_det.bind hi rfl hF fun st' e' => hR _ e'
  · unfold reservedRangesStep
    refine peekSkip rfl fun b r st3 e3 e3' => ?_
    simp only
    rw [if_neg (fun h => hF b (by rw [← e2, e3]; rfl) (.inr h))]
    split
    · exact hQ _ (by rw [e3', ← e3, e2])
    · exact unexp'

theorem optListG_follow [FloatFmt] {us os} {z : ATok} {rest} (h : OptListG us os) (hz : z.tok = .semicolon) :
    Not (fun t => t = kw b!"to" ∨ t = .comma) (us ++ z :: rest) := by
  cases h with
  | none => exact not_tok hz (by simp)
  | some hl _ _ => exact not_tok hl (by simp)

theorem parseExtensions_det [FloatFmt] (fuel : Nat) : DetL (parseExtensions fuel) ExtensionsG := by
  intro st Q u v rest hl g e hQ
  unfold parseExtensions
  obtain ⟨hk, h, h2, _, hz⟩ := g
  rename_i k ts rs us os z _
  refine leadingD hl e fun st1 e1 => ?_
  refine expectD e1 ?_
  refine (parseReservedRanges_det fuel _).bind (rest := us ++ z :: rest) h (by simp) (optListG_follow h2 hz) fun st2 e2 => ?_
  refine (parseOptOptions_det fuel _).bind (rest := z :: rest) h2 e2 (not_tok hz (by simp)) fun st3 e3 => ?_
  refine expectD e3 ?_
  refine trailing ?_
  rw [show extent (k :: ts ++ us ++ [z]) = joinSpan k.span z.span from extent_eq rfl (by rw [List.getLast?_append]; rfl)] at hQ
  exact hQ _ rfl rfl

theorem parseIdentString_det (fuel : Nat) : Det (parseIdentString fuel) IdentStrG NoString := by
  intro st Q u v rest g e hF hQ
  unfold parseIdentString
  refine (parseUtf8String_det fuel).bind (v := (v.value, v.span)) g.1 e hF fun st1 e1 => ?_
  simp only
  rw [if_pos (isValidIdent_iff.2 g.2)]
  exact hQ _ e1

theorem parseReservedNames_det {β : Type} {st : AS} {Q : β → AS → Prop} {f : List Ident × Span → Prog β} (fuel : Nat)
    {u v z rest} (g : SepBy .comma IdentStrG u v) (hz : z.tok = .semicolon) (e : st.toks = u ++ z :: rest)
    (k : wp (f (v, z.span)) Q ⟨rest, .fresh, some z⟩) : wp (parseReservedNames fuel >>= f) Q st := by
  rw [bind]
  unfold parseReservedNames
  obtain ⟨t, a, us, as, rfl, rfl, h3, h4⟩ := sepBy_tail g
  have hS : ∀ (c : ATok) r, c.tok = .comma → NoString (c :: r) := fun c r h => not_tok h (by simp)
  have hR : NoString (z :: rest) := not_tok hz (by simp)
  refine (parseIdentString_det fuel).bind h3 (rest := us ++ z :: rest) (by rw [e]; simp) (h4.follow hS hR) fun st1 e1 => ?_
  refine sepD (F := NoString) fuel hS hR ?_ h4 e1 fun st2 e2 => ?_
  · intro c t a r s st R hc hi e hF hR
    unfold reservedNamesStep
    refine skipD e fun st2 e2 => ?_
    simp only
    rw [if_pos hc]
    refine bump e2 ?_
    exact (parseIdentString_det fuel).bind hi rfl hF fun st' e' => hR _ e'
  · unfold reservedNamesStep
    refine skipD e2 fun st3 e3 => ?_
    simp only
    rw [if_neg (by rw [hz]; simp), if_pos hz]
    exact bump e3 k

theorem rangeG_head {ts r} (h : RangeG ts r) : ∃ a r, ts = a :: r ∧ (a.tok = .minus ∨ ∃ v, a.tok = .int v) := by
  cases h with
  | single h => exact intG_head h
  | to h _ _ => obtain ⟨a, r, rfl, ha⟩ := intG_head h; exact ⟨a, _, rfl, ha⟩
  | max h _ _ => obtain ⟨a, r, rfl, ha⟩ := intG_head h; exact ⟨a, _, rfl, ha⟩

theorem parseReserved_det (fuel : Nat) : DetL (parseReserved fuel) ReservedG := by
  intro st Q u v rest hl g e hQ
  unfold parseReserved
  cases g with
  | @ranges k ts z rs hk h hz =>
    refine leadingD hl e fun st1 e1 => ?_
    refine expectD e1 ?_
    have key : ∀ st2 : AS, st2.toks = ts ++ z :: rest → wp (parseReservedRanges fuel [.token .semicolon] >>= fun ranges =>
      expectEq .semicolon >>= fun stop => Prog.trailing (k.detached, k.leading) >>= fun comments =>
        pure ((⟨.ranges ranges, comments, joinSpan k.span stop⟩ : Reserved))) Q st2 := by
      intro st2 e2
      refine (parseReservedRanges_det fuel _).bind (rest := z :: rest) h e2 (not_tok hz (by simp)) fun st2 e2 => ?_
      refine expectD e2 ?_
      refine trailing ?_
      rw [extent_ends] at hQ
      exact hQ _ rfl rfl
    obtain ⟨t, a, us, as, rfl, rfl, h3, h4⟩ := sepBy_tail h
    obtain ⟨b, r, rfl, hb⟩ := rangeG_head h3
    refine skipD (a := b) (r := r ++ us ++ z :: rest) (by simp) fun st2 e2 => ?_
    have := key st2 (by rw [e2]; simp)
    simp only
    rcases hb with hb | ⟨w, hb⟩ <;> simp only [hb] <;> exact this
  | @names k ts z ns hk h hz =>
    refine leadingD hl e fun st1 e1 => ?_
    refine expectD e1 ?_
    have h0 := h
    obtain ⟨t, a, us, as, rfl, rfl, h3, h4⟩ := sepBy_tail h
    obtain ⟨b, r, w, rfl, hb⟩ := strG_head h3.1.1
    refine skipD (a := b) (r := r ++ us ++ z :: rest) (by simp) fun st2 e2 => ?_
    simp only [hb]
    refine parseReservedNames_det (rest := rest) fuel h0 hz (by rw [e2]; simp) ?_
    refine trailing ?_
    rw [extent_ends] at hQ
    exact hQ _ rfl rfl

end Verif.Pos
