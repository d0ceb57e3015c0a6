import Verif.Proofs.Uni3
/-!
A source has only one tree: enums, oneofs, extend blocks, messages.
-/
namespace Verif.Pos
open Verif.Parse Verif.Spec Verif.Ast Verif.Places
open Verif.Grammar (bodyKeywords)

/-- One round of the loop over the elements of a block. -/
structure StepDet {σ : Type} (step : σ → Prog (Step σ (σ × Span))) (elem : List ATok → σ → σ → Prop) : Prop where
  elem : ∀ {t s s' r st} {K : Step σ (σ × Span) → AS → Prop}, elem t s s' → st.toks = t ++ r → st.lead = true →
    (∀ st', st'.toks = r → st'.lead = true → K (.next s') st') → wp (step s) K st
  fin : ∀ {s z r st} {K : Step σ (σ × Span) → AS → Prop}, z.tok = .rightBrace → st.toks = z :: r →
    K (.done (s, z.span)) ⟨r, .fresh, some z⟩ → wp (step s) K st

theorem StepDet.loop {σ : Type} {step : σ → Prog (Step σ (σ × Span))} {elem : List ATok → σ → σ → Prop}
    (h : StepDet step elem) (fuel : Nat) (s0 : σ) : BlockDet (loopM step fuel s0) (fun ts s => Many elem ts s0 s) := by
  intro st Q ts v z r hl g e hz hQ
  refine Pos.loop (fun s st1 => ∃ u, Many elem u s v ∧ st1.toks = u ++ z :: r ∧ st1.lead = true) ?_ fuel _ _ ⟨ts, g, e, hl⟩
  rintro s st1 ⟨u, hm, e1, hl1⟩
  cases hm with
  | nil => exact h.fin hz e1 hQ
  | cons h1 h2 => exact h.elem h1 (by rw [e1, List.append_assoc]) hl1 fun st' e' hl' => ⟨_, h2, e', hl'⟩

/-- An element that has been looked at. -/
theorem DetL.elem {α β : Type} {p : Prog α} {G} {f : α → Prog β} {Q : β → AS → Prop} {st st' : AS} (h : DetL p G) {u v rest}
    (g : G u v) (hl : st.lead = true) (e : st.toks = u ++ rest) (hs : st'.toks = st.toks) (hl' : st'.lead = st.lead)
    (k : ∀ st2, st2.toks = rest → st2.lead = true → wp (f v) Q st2) : wp (p >>= f) Q st' :=
  h.bind (hl'.trans hl) g (hs.trans e) k

section
variable [FloatFmt] {ts : List ATok}

theorem optionG_head {x} (h : OptionG ts x) : ∃ a r, ts = a :: r ∧ a.tok = kw b!"option" := by cases h; exact ⟨_, _, rfl, by assumption⟩
omit [FloatFmt] in
theorem reservedG_head {x} (h : ReservedG ts x) : ∃ a r, ts = a :: r ∧ a.tok = kw b!"reserved" := by
  cases h <;> exact ⟨_, _, rfl, by assumption⟩
theorem extensionsG_head {x} (h : ExtensionsG ts x) : ∃ a r, ts = a :: r ∧ a.tok = kw b!"extensions" := by cases h; exact ⟨_, _, rfl, by assumption⟩
theorem enumG_head {x} (h : EnumG ts x) : ∃ a r, ts = a :: r ∧ a.tok = kw b!"enum" := by cases h; exact ⟨_, _, rfl, by assumption⟩
theorem oneofG_head {B x} (h : OneofG B ts x) : ∃ a r, ts = a :: r ∧ a.tok = kw b!"oneof" := by cases h; exact ⟨_, _, rfl, by assumption⟩
theorem extendG_head {B x} (h : ExtendG B ts x) : ∃ a r, ts = a :: r ∧ a.tok = kw b!"extend" := by cases h; exact ⟨_, _, rfl, by assumption⟩
omit [FloatFmt] in
theorem messageG_head {B x} (h : MessageG B ts x) : ∃ a r, ts = a :: r ∧ a.tok = kw b!"message" := by cases h; exact ⟨_, _, rfl, by assumption⟩
theorem enumValueG_head {x} (h : EnumValueG ts x) : ∃ a r v, ts = a :: r ∧ a.tok = .ident v := by
  obtain ⟨hi, _, _, _, _⟩ := h
  obtain ⟨a, rfl, v, ha⟩ := identG_head hi
  exact ⟨_, _, _, rfl, ha⟩

omit [FloatFmt] in
theorem tyG_head {t sp} (h : TyG ts t sp) : ∃ a r, ts = a :: r ∧ Token.startsType a.tok = true := by
  cases h with
  | scalar _ h => exact ⟨_, _, rfl, by rw [h]; rfl⟩
  | named h _ => exact typeNameG_head h

theorem fieldG_head {B x} (h : FieldG B ts x) : ∃ a r, ts = a :: r ∧ Token.startsType a.tok = true := by
  cases h with
  | normal gl gt _ _ _ _ _ _ _ =>
    cases gl with
    | none => obtain ⟨a, r, rfl, ha⟩ := tyG_head gt; exact ⟨a, _, rfl, ha⟩
    | optional h => exact ⟨_, _, rfl, by rw [h]; rfl⟩
    | required h => exact ⟨_, _, rfl, by rw [h]; rfl⟩
    | repeated h => exact ⟨_, _, rfl, by rw [h]; rfl⟩
  | map gl hm _ _ _ _ _ _ _ _ _ _ =>
    cases gl with
    | none => exact ⟨_, _, rfl, by rw [hm]; rfl⟩
    | optional h => exact ⟨_, _, rfl, by rw [h]; rfl⟩
    | required h => exact ⟨_, _, rfl, by rw [h]; rfl⟩
    | repeated h => exact ⟨_, _, rfl, by rw [h]; rfl⟩
  | group gl hm _ _ _ _ _ _ _ _ =>
    cases gl with
    | none => exact ⟨_, _, rfl, by rw [hm]; rfl⟩
    | optional h => exact ⟨_, _, rfl, by rw [h]; rfl⟩
    | required h => exact ⟨_, _, rfl, by rw [h]; rfl⟩
    | repeated h => exact ⟨_, _, rfl, by rw [h]; rfl⟩

theorem parseEnumValue_det (fuel : Nat) : DetL (parseEnumValue fuel) EnumValueG := by
  intro st Q u v rest hl g e hQ
  unfold parseEnumValue
  obtain ⟨gi, he, gn, go, hz⟩ := g
  rename_i is name eq ns number us os z
  obtain ⟨a, rfl, h1, h2⟩ := gi
  refine leadingD hl e fun st1 e1 => ?_
  refine parseIdent_det.bind (rest := eq :: ns ++ us ++ z :: rest) ⟨a, rfl, h1, h2⟩ (by rw [e1]; simp) trivial fun st2 e2 => ?_
  refine fieldEnd_det gn go (by rw [hz]; simp) e2 ?_
  refine trailing ?_
  rw [comments_of (a := a) rfl, extent_eq (a := a) (z := z) rfl] at hQ
  · rw [h2]; exact hQ _ rfl rfl
  · rw [List.getLast?_append]; rfl

theorem enumStep_det (fuel : Nat) : StepDet (enumStep fuel) EnumElem where
  elem := by
    intro t s s' r st K h e hl hK
    unfold enumStep
    cases h with
    | option g =>
      obtain ⟨a, us, rfl, ha⟩ := optionG_head g
      refine peekD e fun st' e' hl' => ?_
      simp only
      rw [if_pos ha]
      exact (parseOption_det fuel).elem g hl e (e'.trans e.symm) hl' hK
    | reserved g =>
      obtain ⟨a, us, rfl, ha⟩ := reservedG_head g
      refine peekD e fun st' e' hl' => ?_
      simp only
      rw [if_neg (by rw [ha]; decide), if_pos ha]
      exact (parseReserved_det fuel).elem g hl e (e'.trans e.symm) hl' hK
    | value g hno =>
      obtain ⟨a, us, v, rfl, ha⟩ := enumValueG_head g
      refine peekD e fun st' e' hl' => ?_
      simp only
      rw [if_neg (noKw_tok hno (by simp)), if_neg (noKw_tok hno (by simp))]
      simp only [ha]
      exact (parseEnumValue_det fuel).elem g hl e (e'.trans e.symm) hl' hK
    | empty ha =>
      refine peekD e fun st' e' hl' => ?_
      simp only
      rw [if_neg (by rw [ha]; simp), if_neg (by rw [ha]; simp)]
      simp only [ha]
      exact bump e' (hK _ rfl rfl)
  fin := by
    intro s z r st K hz e hK
    unfold enumStep
    refine peekD e fun st' e' hl' => ?_
    simp only
    rw [if_neg (by rw [hz]; simp), if_neg (by rw [hz]; simp)]
    simp only [hz]
    exact bump e' hK

theorem parseEnum_det (fuel : Nat) : DetL (parseEnum fuel) EnumG := by
  intro st Q u v rest hl g e hQ
  unfold parseEnum
  obtain ⟨hk, gi, ho, gm, hz⟩ := g
  rename_i k is name o ts os vs rs z
  refine leadingD hl e fun st1 e1 => ?_
  refine expectD e1 ?_
  refine parseIdent_det.bind (rest := o :: (ts ++ z :: rest)) gi (by simp) trivial fun st2 e2 => ?_
  refine expectD e2 ?_
  refine trailing ?_
  refine ((enumStep_det fuel).loop fuel ([], [], [])).bind rfl gm rfl hz ?_
  rw [extent_eq (a := k) (z := z) rfl (by rw [List.getLast?_append]; rfl)] at hQ
  exact hQ _ rfl rfl

variable {body : Prog (MessageBody × Span)} {B : List ATok → MessageBody → Prop}

theorem oneofStep_det (hb : BlockDet body B) (fuel : Nat) : StepDet (oneofStep body fuel) (OneofElem B) where
  elem := by
    intro t s s' r st K h e hl hK
    unfold oneofStep
    cases h with
    | option g =>
      obtain ⟨a, us, rfl, ha⟩ := optionG_head g
      refine peekD e fun st' e' hl' => ?_
      simp only
      rw [if_pos ha]
      exact (parseOption_det fuel).elem g hl e (e'.trans e.symm) hl' hK
    | field g hno =>
      obtain ⟨a, us, rfl, ha⟩ := fieldG_head g
      refine peekD e fun st' e' hl' => ?_
      simp only
      rw [if_neg (noKw_tok hno (by simp))]
      have := fun f => (parseField_det fuel hb).elem (f := f) (Q := K) g hl e (e'.trans e.symm) hl'
      rcases startsType_cases ha with h | ⟨v, h⟩ <;> simp only [h] <;> exact this _ hK
    | empty ha =>
      refine peekD e fun st' e' hl' => ?_
      simp only
      rw [if_neg (by rw [ha]; simp)]
      simp only [ha]
      exact bump e' (hK _ rfl rfl)
  fin := by
    intro s z r st K hz e hK
    unfold oneofStep
    refine peekD e fun st' e' hl' => ?_
    simp only
    rw [if_neg (by rw [hz]; simp)]
    simp only [hz]
    exact bump e' hK

theorem parseOneof_det (hb : BlockDet body B) (fuel : Nat) : DetL (parseOneof body fuel) (OneofG B) := by
  intro st Q u v rest hl g e hQ
  unfold parseOneof
  obtain ⟨hk, gi, ho, gm, hz⟩ := g
  rename_i k is name o ts os fs z
  refine leadingD hl e fun st1 e1 => ?_
  refine expectD e1 ?_
  refine parseIdent_det.bind (rest := o :: (ts ++ z :: rest)) gi (by simp) trivial fun st2 e2 => ?_
  refine expectD e2 ?_
  refine trailing ?_
  refine ((oneofStep_det hb fuel).loop fuel ([], [])).bind rfl gm rfl hz ?_
  rw [extent_eq (a := k) (z := z) rfl (by rw [List.getLast?_append]; rfl)] at hQ
  exact hQ _ rfl rfl

theorem extendStep_det (hb : BlockDet body B) (fuel : Nat) : StepDet (extendStep body fuel) (ExtendElem B) where
  elem := by
    intro t s s' r st K h e hl hK
    unfold extendStep
    cases h with
    | field g =>
      obtain ⟨a, us, rfl, ha⟩ := fieldG_head g
      refine peekD e fun st' e' hl' => ?_
      simp only
      have := fun f => (parseField_det fuel hb).elem (f := f) (Q := K) g hl e (e'.trans e.symm) hl'
      rcases startsType_cases ha with h | ⟨v, h⟩ <;> simp only [h] <;> exact this _ hK
    | empty ha =>
      refine peekD e fun st' e' hl' => ?_
      simp only [ha]
      exact bump e' (hK _ rfl rfl)
  fin := by
    intro s z r st K hz e hK
    unfold extendStep
    refine peekD e fun st' e' hl' => ?_
    simp only [hz]
    exact bump e' hK

theorem parseExtend_det (hb : BlockDet body B) (fuel : Nat) : DetL (parseExtend body fuel) (ExtendG B) := by
  intro st Q u v rest hl g e hQ
  unfold parseExtend
  obtain ⟨hk, gi, ho, gm, hz⟩ := g
  rename_i k is name o ts fs z
  refine leadingD hl e fun st1 e1 => ?_
  refine expectD e1 ?_
  refine (parseTypeName_det fuel _).bind (rest := o :: (ts ++ z :: rest)) gi (by simp) (not_tok ho (by simp)) fun st2 e2 => ?_
  refine expectD e2 ?_
  refine trailing ?_
  refine ((extendStep_det hb fuel).loop fuel []).bind rfl gm rfl hz ?_
  rw [extent_eq (a := k) (z := z) rfl (by rw [List.getLast?_append]; rfl)] at hQ
  exact hQ _ rfl rfl

omit [FloatFmt] in
theorem parseMessage_det (hb : BlockDet body B) : DetL (parseMessage body) (MessageG B) := by
  intro st Q u v rest hl g e hQ
  unfold parseMessage
  obtain ⟨hk, gi, ho, gm, hz⟩ := g
  rename_i k is name o ts b z
  refine leadingD hl e fun st1 e1 => ?_
  refine expectD e1 ?_
  refine parseIdent_det.bind (rest := o :: (ts ++ z :: rest)) gi (by simp) trivial fun st2 e2 => ?_
  refine expectD e2 ?_
  refine trailing ?_
  refine hb.bind rfl gm rfl hz ?_
  rw [extent_eq (a := k) (z := z) rfl (by rw [List.getLast?_append]; rfl)] at hQ
  exact hQ _ rfl rfl

theorem bodyStep_det (hb : BlockDet body B) (fuel : Nat) : StepDet (bodyStep body fuel) (BodyElem B) where
  elem := by
    intro t s s' r st K h e hl hK
    unfold bodyStep
    cases h with
    | oneof g =>
      obtain ⟨a, us, rfl, ha⟩ := oneofG_head g
      refine peekD e fun st' e' hl' => ?_
      simp only
      rw [if_pos ha]
      exact (parseOneof_det hb fuel).elem g hl e (e'.trans e.symm) hl' hK
    | enum g =>
      obtain ⟨a, us, rfl, ha⟩ := enumG_head g
      refine peekD e fun st' e' hl' => ?_
      simp only
      rw [if_neg (by rw [ha]; decide), if_pos ha]
      exact (parseEnum_det fuel).elem g hl e (e'.trans e.symm) hl' hK
    | message g =>
      obtain ⟨a, us, rfl, ha⟩ := messageG_head g
      refine peekD e fun st' e' hl' => ?_
      simp only
      rw [if_neg (by rw [ha]; decide), if_neg (by rw [ha]; decide), if_pos ha]
      exact (parseMessage_det hb).elem g hl e (e'.trans e.symm) hl' hK
    | extend g =>
      obtain ⟨a, us, rfl, ha⟩ := extendG_head g
      refine peekD e fun st' e' hl' => ?_
      simp only
      rw [if_neg (by rw [ha]; decide), if_neg (by rw [ha]; decide), if_neg (by rw [ha]; decide), if_pos ha]
      exact (parseExtend_det hb fuel).elem g hl e (e'.trans e.symm) hl' hK
    | option g =>
      obtain ⟨a, us, rfl, ha⟩ := optionG_head g
      refine peekD e fun st' e' hl' => ?_
      simp only
      rw [if_neg (by rw [ha]; decide), if_neg (by rw [ha]; decide), if_neg (by rw [ha]; decide), if_neg (by rw [ha]; decide),
        if_pos ha]
      exact (parseOption_det fuel).elem g hl e (e'.trans e.symm) hl' hK
    | reserved g =>
      obtain ⟨a, us, rfl, ha⟩ := reservedG_head g
      refine peekD e fun st' e' hl' => ?_
      simp only
      rw [if_neg (by rw [ha]; decide), if_neg (by rw [ha]; decide), if_neg (by rw [ha]; decide), if_neg (by rw [ha]; decide),
        if_neg (by rw [ha]; decide), if_pos ha]
      exact (parseReserved_det fuel).elem g hl e (e'.trans e.symm) hl' hK
    | extensions g =>
      obtain ⟨a, us, rfl, ha⟩ := extensionsG_head g
      refine peekD e fun st' e' hl' => ?_
      simp only
      rw [if_neg (by rw [ha]; decide), if_neg (by rw [ha]; decide), if_neg (by rw [ha]; decide), if_neg (by rw [ha]; decide),
        if_neg (by rw [ha]; decide), if_neg (by rw [ha]; decide), if_pos ha]
      exact (parseExtensions_det fuel).elem g hl e (e'.trans e.symm) hl' hK
    | field g hno =>
      obtain ⟨a, us, rfl, ha⟩ := fieldG_head g
      refine peekD e fun st' e' hl' => ?_
      simp only
      rw [if_neg (noKw_tok hno (by decide)), if_neg (noKw_tok hno (by decide)), if_neg (noKw_tok hno (by decide)),
        if_neg (noKw_tok hno (by decide)), if_neg (noKw_tok hno (by decide)), if_neg (noKw_tok hno (by decide)),
        if_neg (noKw_tok hno (by decide))]
      have := fun f => (parseField_det fuel hb).elem (f := f) (Q := K) g hl e (e'.trans e.symm) hl'
      rcases startsType_cases ha with h | ⟨v, h⟩ <;> simp only [h] <;> exact this _ hK
    | empty ha =>
      refine peekD e fun st' e' hl' => ?_
      simp only [ha, reduceCtorEq, if_false]
      exact bump e' (hK _ rfl rfl)
  fin := by
    intro s z r st K hz e hK
    unfold bodyStep
    refine peekD e fun st' e' hl' => ?_
    simp only [hz, reduceCtorEq, if_false]
    exact bump e' hK

theorem parseMessageBody_det (fuel : Nat) : ∀ depth d, BlockDet (parseMessageBody fuel depth) (BodyG d)
  | 0, _ => fun _ _ _ _ _ _ _ _ _ _ _ => trivial
  | _ + 1, 0 => fun _ _ _ _ _ _ _ h => h.elim
  | depth + 1, d + 1 => (bodyStep_det (parseMessageBody_det fuel depth d) fuel).loop fuel _

theorem parseAnyBody_det (fuel depth : Nat) : BlockDet (parseMessageBody fuel depth) AnyBodyG := by
  intro st Q ts v z r hl ⟨d, g⟩ e hz hQ
  exact parseMessageBody_det fuel depth d st Q ts v z r hl g e hz hQ

end
end Verif.Pos
