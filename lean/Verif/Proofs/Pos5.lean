import Verif.Proofs.Pos4
/-!
Places and comments: enums, oneofs, extend blocks, messages.
-/
namespace Verif.Pos
open Verif.Parse Verif.Spec Verif.Ast Verif.Places
open Verif.Grammar (bodyKeywords)

/-- One round of the loop over the elements of a block. -/
def StepSnd {σ : Type} (step : σ → Prog (Step σ (σ × Span))) (elem : List ATok → σ → σ → Prop) : Prop :=
  ∀ (s : σ) (st : AS) (K : Step σ (σ × Span) → AS → Prop), st.lead = true →
    (∀ u s' st', st.toks = u ++ st'.toks → st'.lead = true → elem u s s' → K (.next s') st') →
    (∀ z r, st.toks = z :: r → z.tok = .rightBrace → K (.done (s, z.span)) ⟨r, .fresh, some z⟩) → wp (step s) K st

theorem StepSnd.loop {σ : Type} {step : σ → Prog (Step σ (σ × Span))} {elem : List ATok → σ → σ → Prop}
    (h : StepSnd step elem) (fuel : Nat) (s0 : σ) : BlockSnd (loopM step fuel s0) (fun ts s => Many elem ts s0 s) := by
  intro st Q hl k
  refine Pos.loop (fun s st1 => ∃ u, st.toks = u ++ st1.toks ∧ st1.lead = true ∧ Many elem u s0 s) ?_ fuel _ _
    ⟨[], rfl, hl, .nil⟩
  rintro s st1 ⟨u, hu, hl1, hg⟩
  refine h s st1 _ hl1 (fun v s' st' e hl' g => ?_) (fun z r e hz => ?_)
  · exact ⟨u ++ v, by rw [hu, e]; simp, hl', many_snoc hg g⟩
  · exact k u s z r (by rw [hu, e]) hg hz

theorem parseEnumValue_snd [FloatFmt] (fuel : Nat) : SndL (parseEnumValue fuel) EnumValueG := by
  intro st Q hl k
  unfold parseEnumValue
  refine leading hl fun c hc => ?_
  refine parseIdent_snd.bind fun u1 name st1 e1 g1 => ?_
  refine expect fun a r e4 ha => ?_
  refine parseInt_snd.bind fun u5 num st5 e5 g5 => ?_
  refine (parseOptOptions_snd fuel _).bind fun u6 os st6 e6 g6 => ?_
  refine expect fun z r' e7 hz => ?_
  refine trailing ?_
  refine k (u1 ++ a :: u5 ++ u6 ++ [z]) _ ⟨r', .seen true false, some z⟩ (by eats) rfl ?_
  have g1' := g1
  obtain ⟨b, rfl, h1, h2⟩ := g1'
  cases hc b (by rw [show st.toks = _ from e1]; rfl)
  rw [h2, show joinSpan b.span z.span = extent ([b] ++ a :: u5 ++ u6 ++ [z]) from
    (extent_eq rfl (by rw [List.getLast?_append]; rfl)).symm]
  exact .mk g1 ha g5 g6 hz

/-- An element that has been looked at. -/
theorem SndL.elem {α β : Type} {p : Prog α} {G} {f : α → Prog β} {Q : β → AS → Prop} {st st' : AS} (h : SndL p G)
    (hl : st.lead = true) (hs : st'.toks = st.toks) (hl' : st'.lead = st.lead)
    (k : ∀ u v st2, st.toks = u ++ st2.toks → st2.lead = true → G u v → wp (f v) Q st2) : wp (p >>= f) Q st' :=
  h.bind (hl'.trans hl) fun u v st2 e l g => k u v st2 (hs.symm.trans e) l g

theorem identG_ne {ts i} (h : IdentG ts i) : ts ≠ [] := by obtain ⟨a, rfl, _⟩ := h; simp

theorem enumValueG_ne [FloatFmt] {ts i} (h : EnumValueG ts i) : ts ≠ [] := by cases h; simp

theorem enumStep_snd [FloatFmt] (fuel : Nat) : StepSnd (enumStep fuel) EnumElem := by
  intro s st K hl hn hd
  unfold enumStep
  refine peek rfl fun a r st' e e' hl' => ?_
  have hs : st'.toks = st.toks := e'.trans e.symm
  simp only
  split
  · refine (parseOption_snd fuel).elem hl hs hl' fun u v st2 e2 l g => ?_
    exact hn u _ st2 e2 l (.option g)
  · split
    · refine (parseReserved_snd fuel).elem hl hs hl' fun u v st2 e2 l g => ?_
      exact hn u _ st2 e2 l (.reserved g)
    · rename_i h1 h2
      split
      · rename_i h
        refine bump e' ?_
        exact hn [a] _ ⟨r, .fresh, some a⟩ e rfl (.empty h)
      · refine (parseEnumValue_snd fuel).elem hl hs hl' fun u v st2 e2 l g => ?_
        refine hn u _ st2 e2 l (.value g ?_)
        refine noKw_of (head_append e2 (enumValueG_ne g) (by rw [e]; rfl)) ?_
        intro m hm
        simp only [List.mem_cons, List.not_mem_nil, or_false] at hm
        rcases hm with rfl | rfl
        · exact h1
        · exact h2
      · rename_i h
        exact bump e' (hd a r e h)
      · exact unexp'

theorem parseEnum_snd [FloatFmt] (fuel : Nat) : SndL (parseEnum fuel) EnumG := by
  intro st Q hl k
  unfold parseEnum
  refine leading hl fun c hc => ?_
  refine expect fun a r e ha => ?_
  cases lead_eq hc e
  refine parseIdent_snd.bind fun u1 name st1 e1 g1 => ?_
  refine expect fun o ro eo ho => ?_
  refine trailing ?_
  refine ((enumStep_snd fuel).loop fuel ([], [], [])).bind rfl fun ts s z r' e2 g2 hz => ?_
  obtain ⟨os, vs, rs⟩ := s
  refine k (a :: u1 ++ o :: ts ++ [z]) _ ⟨r', .fresh, some z⟩ (by eats) rfl ?_
  rw [show joinSpan a.span z.span = extent (a :: u1 ++ o :: ts ++ [z]) from
    (extent_eq rfl (by rw [List.getLast?_append]; rfl)).symm]
  exact .mk ha g1 ho g2 hz

section body
variable [FloatFmt] {body : List ATok → MessageBody → Prop} {p : Prog (MessageBody × Span)}

theorem fieldG_ne {ts i} (h : FieldG body ts i) : ts ≠ [] := by cases h <;> simp

theorem oneofStep_snd (hbody : BlockSnd p body) (fuel : Nat) : StepSnd (oneofStep p fuel) (OneofElem body) := by
  intro s st K hl hn hd
  unfold oneofStep
  refine peek rfl fun a r st' e e' hl' => ?_
  have hs : st'.toks = st.toks := e'.trans e.symm
  simp only
  split
  · refine (parseOption_snd fuel).elem hl hs hl' fun u v st2 e2 l g => ?_
    exact hn u _ st2 e2 l (.option g)
  · rename_i h1
    have fld : wp (parseField p fuel >>= fun f => pure (Step.next (s.1, s.2 ++ [f]))) K st' := by
      refine (parseField_snd fuel hbody).elem hl hs hl' fun u v st2 e2 l g => ?_
      refine hn u _ st2 e2 l (.field g ?_)
      refine noKw_of (head_append e2 (fieldG_ne g) (by rw [e]; rfl)) ?_
      intro m hm
      simp only [List.mem_cons, List.not_mem_nil, or_false] at hm
      subst hm
      exact h1
    split
    · rename_i h
      refine bump e' ?_
      exact hn [a] _ ⟨r, .fresh, some a⟩ e rfl (.empty h)
    · rename_i h
      exact bump e' (hd a r e h)
    · exact fld
    · exact fld
    · exact unexp'

theorem parseOneof_snd (hbody : BlockSnd p body) (fuel : Nat) : SndL (parseOneof p fuel) (OneofG body) := by
  intro st Q hl k
  unfold parseOneof
  refine leading hl fun c hc => ?_
  refine expect fun a r e ha => ?_
  cases lead_eq hc e
  refine parseIdent_snd.bind fun u1 name st1 e1 g1 => ?_
  refine expect fun o ro eo ho => ?_
  refine trailing ?_
  refine ((oneofStep_snd hbody fuel).loop fuel ([], [])).bind rfl fun ts s z r' e2 g2 hz => ?_
  obtain ⟨os, fs⟩ := s
  refine k (a :: u1 ++ o :: ts ++ [z]) _ ⟨r', .fresh, some z⟩ (by eats) rfl ?_
  rw [show joinSpan a.span z.span = extent (a :: u1 ++ o :: ts ++ [z]) from
    (extent_eq rfl (by rw [List.getLast?_append]; rfl)).symm]
  exact .mk ha g1 ho g2 hz

theorem extendStep_snd (hbody : BlockSnd p body) (fuel : Nat) : StepSnd (extendStep p fuel) (ExtendElem body) := by
  intro s st K hl hn hd
  unfold extendStep
  refine peek rfl fun a r st' e e' hl' => ?_
  have hs : st'.toks = st.toks := e'.trans e.symm
  simp only
  have fld : wp (parseField p fuel >>= fun f => pure (Step.next (s ++ [f]))) K st' := by
    refine (parseField_snd fuel hbody).elem hl hs hl' fun u v st2 e2 l g => ?_
    exact hn u _ st2 e2 l (.field g)
  split
  · rename_i h
    refine bump e' ?_
    exact hn [a] _ ⟨r, .fresh, some a⟩ e rfl (.empty h)
  · rename_i h
    exact bump e' (hd a r e h)
  · exact fld
  · exact fld
  · exact unexp'

theorem parseExtend_snd (hbody : BlockSnd p body) (fuel : Nat) : SndL (parseExtend p fuel) (ExtendG body) := by
  intro st Q hl k
  unfold parseExtend
  refine leading hl fun c hc => ?_
  refine expect fun a r e ha => ?_
  cases lead_eq hc e
  refine (parseTypeName_snd fuel _).bind fun u1 name st1 e1 g1 => ?_
  refine expect fun o ro eo ho => ?_
  refine trailing ?_
  refine ((extendStep_snd hbody fuel).loop fuel []).bind rfl fun ts s z r' e2 g2 hz => ?_
  refine k (a :: u1 ++ o :: ts ++ [z]) _ ⟨r', .fresh, some z⟩ (by eats) rfl ?_
  rw [show joinSpan a.span z.span = extent (a :: u1 ++ o :: ts ++ [z]) from
    (extent_eq rfl (by rw [List.getLast?_append]; rfl)).symm]
  exact .mk ha g1 ho g2 hz

omit [FloatFmt] in
theorem parseMessage_snd (hbody : BlockSnd p body) : SndL (parseMessage p) (MessageG body) := by
  intro st Q hl k
  unfold parseMessage
  refine leading hl fun c hc => ?_
  refine expect fun a r e ha => ?_
  cases lead_eq hc e
  refine parseIdent_snd.bind fun u1 name st1 e1 g1 => ?_
  refine expect fun o ro eo ho => ?_
  refine trailing ?_
  refine hbody.bind rfl fun ts s z r' e2 g2 hz => ?_
  refine k (a :: u1 ++ o :: ts ++ [z]) _ ⟨r', .fresh, some z⟩ (by eats) rfl ?_
  rw [show joinSpan a.span z.span = extent (a :: u1 ++ o :: ts ++ [z]) from
    (extent_eq rfl (by rw [List.getLast?_append]; rfl)).symm]
  exact .mk ha g1 ho g2 hz

theorem bodyStep_snd (hbody : BlockSnd p body) (fuel : Nat) : StepSnd (bodyStep p fuel) (BodyElem body) := by
  intro s st K hl hn hd
  unfold bodyStep
  refine peek rfl fun a r st' e e' hl' => ?_
  have hs : st'.toks = st.toks := e'.trans e.symm
  simp only
  split
  · refine (parseOneof_snd hbody fuel).elem hl hs hl' fun u v st2 e2 l g => ?_
    exact hn u _ st2 e2 l (.oneof g)
  split
  · refine (parseEnum_snd fuel).elem hl hs hl' fun u v st2 e2 l g => ?_
    exact hn u _ st2 e2 l (.enum g)
  split
  · refine (parseMessage_snd hbody).elem hl hs hl' fun u v st2 e2 l g => ?_
    exact hn u _ st2 e2 l (.message g)
  split
  · refine (parseExtend_snd hbody fuel).elem hl hs hl' fun u v st2 e2 l g => ?_
    exact hn u _ st2 e2 l (.extend g)
  split
  · refine (parseOption_snd fuel).elem hl hs hl' fun u v st2 e2 l g => ?_
    exact hn u _ st2 e2 l (.option g)
  split
  · refine (parseReserved_snd fuel).elem hl hs hl' fun u v st2 e2 l g => ?_
    exact hn u _ st2 e2 l (.reserved g)
  split
  · refine (parseExtensions_snd fuel).elem hl hs hl' fun u v st2 e2 l g => ?_
    exact hn u _ st2 e2 l (.extensions g)
  rename_i h1 h2 h3 h4 h5 h6 h7
  have fld : wp (parseField p fuel >>= fun f => pure (Step.next { s with items := s.items ++ [.field f] })) K st' := by
    refine (parseField_snd fuel hbody).elem hl hs hl' fun u v st2 e2 l g => ?_
    refine hn u _ st2 e2 l (.field g ?_)
    refine noKw_of (head_append e2 (fieldG_ne g) (by rw [e]; rfl)) ?_
    intro m hm
    simp only [bodyKeywords, List.mem_cons, List.not_mem_nil, or_false] at hm
    rcases hm with rfl | rfl | rfl | rfl | rfl | rfl | rfl <;> assumption
  split
  · exact fld
  · exact fld
  · rename_i h
    refine bump e' ?_
    exact hn [a] _ ⟨r, .fresh, some a⟩ e rfl (.empty h)
  · rename_i h
    exact bump e' (hd a r e h)
  · exact unexp'

end body

theorem parseMessageBody_snd [FloatFmt] (fuel : Nat) : ∀ d : Nat, BlockSnd (parseMessageBody fuel d) (BodyG d)
  | 0 => fun _ _ _ _ => trivial
  | d + 1 => (bodyStep_snd (parseMessageBody_snd fuel d) fuel).loop fuel _

end Verif.Pos
