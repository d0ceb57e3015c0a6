import Verif.Proofs.Snd4
/-! Soundness of the grammar methods: enums, oneofs, extend blocks, messages. -/
namespace Verif.Ast

theorem Opt.In.lt {a b : Nat} {o : Opt} (h : o.In a b) : a < b := SpIn.lt h.2
theorem Reserved.In.lt {a b : Nat} {o : Reserved} (h : o.In a b) : a < b := SpIn.lt h.2
theorem Extensions.In.lt {a b : Nat} {o : Extensions} (h : o.In a b) : a < b := SpIn.lt h.2.2
theorem EnumValue.In.lt {a b : Nat} {o : EnumValue} (h : o.In a b) : a < b := SpIn.lt h.2.2.2
theorem Enum.In.lt {a b : Nat} {o : Enum} (h : o.In a b) : a < b := SpIn.lt h.2.2.2.2
theorem Method.In.lt {a b : Nat} {o : Method} (h : o.In a b) : a < b := SpIn.lt h.2.2.2.2.2.2
theorem Service.In.lt {a b : Nat} {o : Service} (h : o.In a b) : a < b := SpIn.lt h.2.2.2
theorem Field.In.lt {a b : Nat} {o : Field} (h : o.In a b) : a < b := by
  cases o; simp only [Field.In] at h; exact SpIn.lt h.2.2.2.2.2
theorem Message.In.lt {a b : Nat} {o : Message} (h : o.In a b) : a < b := by
  cases o; simp only [Message.In] at h; exact SpIn.lt h.2.2
theorem Extend.In.lt {a b : Nat} {o : Extend} (h : o.In a b) : a < b := by
  cases o; simp only [Extend.In] at h; exact SpIn.lt h.2.2
theorem Oneof.In.lt {a b : Nat} {o : Oneof} (h : o.In a b) : a < b := by
  cases o; simp only [Oneof.In] at h; exact SpIn.lt h.2.2.2

end Verif.Ast

namespace Verif.Parse
open Lex Verif.Ast Verif.Grammar

variable {L n fuel : Nat}

theorem ne_of_in {used : List STok} {α : Type} {v : α} {I : Nat → Nat → α → Prop} (hI : ∀ a, ¬ I a a v)
    (i : ∀ a b, UC a used b → I a b v) : used ≠ [] := by
  rintro rfl; exact hI 0 (i 0 0 (Nat.le_refl 0))

/-! ## Enums -/

theorem parseEnumValue_snd [FloatFmt] (hf : n < fuel) :
    Snd L n (parseEnumValue fuel) EnumValueG EnumValue.In := by
  intro st Q E hn hp hQ hE
  unfold parseEnumValue
  refine (At.start hn hp hE).leading fun lead st1 A => ?_
  refine A.call parseIdent_snd fun used2 name st3 _ A i2 => ?_
  refine A.expect fun spq st4 _ A => ?_
  refine A.call parseInt_snd fun used3 number st5 _ A i3 => ?_
  refine A.call (parseOptOptions_snd hf _) fun used4 os st6 _ A i4 => ?_
  refine A.expect fun stop st7 _ A => ?_
  refine A.trailing fun c st8 A => ?_
  refine hQ _ _ _ A.eats (fun hb => ?_) (fun a b h => ?_)
  · obtain ⟨⟨⟨_, h1⟩, h2⟩, h3⟩ := A.good hb
    simpa using EnumValueG.mk (c := c) (sp := joinSpan name.span stop) h1 h2 h3
  · obtain ⟨c4, h, h5⟩ := UC_append.1 h
    obtain ⟨c3, h, h4⟩ := UC_append.1 h
    obtain ⟨c2, h, h3⟩ := UC_append.1 h
    obtain ⟨c1, h, h2⟩ := UC_append.1 h
    have g2 := h2.le; have g3 := h3.le; have g4 := h4.le; have g5 := h5.le; have g1 := h.le
    exact ⟨(i2 _ _ h).mono (by omega) (by omega), (i3 _ _ h3).mono (by omega) (by omega),
      (i4 _ _ h4).mono (by omega) (by omega), SpIn.join' (i2 _ _ h) (UC_one.1 h5) (by omega)⟩

/-- The elements of an enum lie in `[a, b]`. -/
def EnumJ (a b : Nat) (s : List Opt × List EnumValue × List Reserved) : Prop :=
  a ≤ b ∧ (∀ x ∈ s.1, x.In a b) ∧ (∀ x ∈ s.2.1, x.In a b) ∧ (∀ x ∈ s.2.2, x.In a b)

theorem all_mono {α : Type} {P : Nat → Nat → α → Prop}
    (hP : ∀ {a a' b b' x}, P a b x → a' ≤ a → b ≤ b' → P a' b' x) {a b c : Nat} {l : List α}
    (h : ∀ y ∈ l, P a b y) (hbc : b ≤ c) : ∀ y ∈ l, P a c y :=
  fun y hy => hP (h y hy) (Nat.le_refl _) hbc

theorem EnumJ.mono {a b c : Nat} {s} (h : EnumJ a b s) (hbc : b ≤ c) : EnumJ a c s :=
  ⟨Nat.le_trans h.1 hbc, all_mono (P := Opt.In) Opt.In.mono h.2.1 hbc,
    all_mono (P := EnumValue.In) EnumValue.In.mono h.2.2.1 hbc,
    all_mono (P := Reserved.In) Reserved.In.mono h.2.2.2 hbc⟩

theorem enumStep_snd [FloatFmt] (hf : n < fuel) (s : List Opt × List EnumValue × List Reserved) :
    Snd L n (enumStep fuel s)
      (stepG EnumElem (fun ts s v => ts = [.rightBrace] ∧ v.1 = s) s)
      (stepI EnumJ (fun a b v => ∃ c, EnumJ a c v.1 ∧ SpIn c b v.2) s) := by
  intro st Q E hn hp hQ hE
  unfold enumStep
  refine (At.start hn hp hE).peek rfl fun t sp r ht A hun => ?_
  simp only
  obtain ⟨os, vs, rs⟩ := s
  split
  · refine A.call (parseOption_snd hf) fun used v st2 e A i => ?_
    refine hQ _ _ _ A.eats (fun hb => .option (A.good hb).2) (fun a b h => ?_)
    have hv := i a b h
    refine ⟨hv.lt, fun a0 hj => ?_⟩
    have h2 := hj.mono (Nat.le_of_lt hv.lt)
    exact ⟨h2.1, all_snoc (P := Opt.In) Opt.In.mono hj.2.1 hv hj.1 (Nat.le_of_lt hv.lt), h2.2.2⟩
  · split
    · refine A.call (parseReserved_snd hf) fun used v st2 e A i => ?_
      refine hQ _ _ _ A.eats (fun hb => .reserved (A.good hb).2) (fun a b h => ?_)
      have hv := i a b h
      refine ⟨hv.lt, fun a0 hj => ?_⟩
      have h2 := hj.mono (Nat.le_of_lt hv.lt)
      exact ⟨h2.1, h2.2.1, h2.2.2.1, all_snoc (P := Reserved.In) Reserved.In.mono hj.2.2.2 hv hj.1 (Nat.le_of_lt hv.lt)⟩
    · rename_i h1 h2
      have hval : wp L (parseEnumValue fuel >>= fun v => pure (.next (os, vs ++ [v], rs))) Q E
          ⟨some (t, sp) :: r, true, st.bad⟩ := by
        refine A.call (parseEnumValue_snd hf) fun used v st2 e A i => ?_
        refine hQ _ _ _ A.eats (fun hb => .value (A.good hb).2 ?_) (fun a b h => ?_)
        · obtain ⟨xs, hx⟩ := e.head rfl (ne_of_in (fun a h => Nat.lt_irrefl _ (EnumValue.In.lt h)) i)
          exact noKw_of_head hx (by simp [h1, h2])
        · have hv := i a b h
          refine ⟨hv.lt, fun a0 hj => ?_⟩
          have h2 := hj.mono (Nat.le_of_lt hv.lt)
          exact ⟨h2.1, h2.2.1, all_snoc (P := EnumValue.In) EnumValue.In.mono hj.2.2.1 hv hj.1 (Nat.le_of_lt hv.lt), h2.2.2.2⟩
      cases t <;> try first | exact hun | exact hval
      · refine A.bump fun A => ?_
        exact hQ _ _ _ A.eats (fun hb => ⟨rfl, rfl⟩) (fun a b h a0 hj => ⟨a, hj, UC_one.1 h⟩)
      · refine A.bump fun A => ?_
        exact hQ _ _ _ A.eats (fun hb => .empty) (fun a b h => ⟨UC.lt h, fun a0 hj => hj.mono h.le⟩)

theorem parseEnum_sndK [FloatFmt] (hf : n < fuel) : SndK L n (kw b!"enum") (parseEnum fuel) EnumG Enum.In := by
  intro st Q E hn hp hQ hE
  unfold parseEnum
  refine At.startK hn hp hE fun c sp st2 A => ?_
  refine A.call parseIdent_snd fun used name st3 _ A i => ?_
  refine A.expect fun sp2 st4 _ A => ?_
  refine A.trailing fun c2 st5 A => ?_
  refine A.call (loop_snd hf ?_ (enumStep_snd hf)) fun used3 v st6 _ A i3 => ?_
  · intro a b hab
    exact ⟨hab, nofun, nofun, nofun⟩
  obtain ⟨⟨os, vs, rs⟩, stop⟩ := v
  refine hQ _ _ _ A.eats (fun hb => ?_) (fun a b h => ?_)
  · obtain ⟨⟨_, h1⟩, t1, t2, s, h2, h3, h4, h5⟩ := A.good hb
    simp only at h5
    subst h4 h5
    simpa [h2] using EnumG.mk (c := c2) (sp := joinSpan sp stop) h1 h3
  · obtain ⟨c3, h, h4⟩ := UC_append.1 h
    obtain ⟨c2, h, h3⟩ := UC_append.1 h
    obtain ⟨c1, h1, h2⟩ := UC_cons.1 h
    obtain ⟨d, hj, hs⟩ := i3 _ _ h4
    have g0 := SpIn.le h1; have g1 := h2.le; have g2 := h3.le; have g3 := hj.1; have g4 := SpIn.le hs
    refine ⟨(i _ _ h2).mono (by omega) (by omega), fun x hx => (hj.2.1 x hx).mono (by omega) (by omega),
      fun x hx => (hj.2.2.1 x hx).mono (by omega) (by omega), fun x hx => (hj.2.2.2 x hx).mono (by omega) (by omega),
      SpIn.join' h1 hs (by omega)⟩

/-! ## Oneofs -/

theorem fieldsIn_iff {a b : Nat} {l : List Field} : fieldsIn a b l ↔ ∀ x ∈ l, x.In a b := by
  induction l with
  | nil => simp [fieldsIn]
  | cons x xs ih => simp [fieldsIn, ih]

theorem itemsIn_iff {a b : Nat} {l : List MessageItem} : itemsIn a b l ↔ ∀ x ∈ l, x.In a b := by
  induction l with
  | nil => simp [itemsIn]
  | cons x xs ih => simp [itemsIn, ih]

theorem Field.In.wide {a b a' b' : Nat} {i : Field} (h : i.In a b) (ha : a' ≤ a) (hb : b ≤ b') : i.In a' b' :=
  Field.In.mono ha hb i h
theorem MessageItem.In.wide {a b a' b' : Nat} {i : MessageItem} (h : i.In a b) (ha : a' ≤ a) (hb : b ≤ b') :
    i.In a' b' := MessageItem.In.mono ha hb i h

/-- The elements of a oneof lie in `[a, b]`. -/
def OneofJ (a b : Nat) (s : List Opt × List Field) : Prop :=
  a ≤ b ∧ (∀ x ∈ s.1, x.In a b) ∧ (∀ x ∈ s.2, x.In a b)

theorem OneofJ.mono {a b c : Nat} {s} (h : OneofJ a b s) (hbc : b ≤ c) : OneofJ a c s :=
  ⟨Nat.le_trans h.1 hbc, all_mono (P := Opt.In) Opt.In.mono h.2.1 hbc,
    all_mono (P := Field.In) Field.In.wide h.2.2 hbc⟩

section bodies
variable [FloatFmt] {body : List Token → MessageBody → Prop} {p : Prog (MessageBody × Span)}

theorem oneofStep_snd (hf : n < fuel) (hbody : BodySnd L (n - 1) p body) (s : List Opt × List Field) :
    Snd L n (oneofStep p fuel s)
      (stepG (OneofElem body) (fun ts s v => ts = [.rightBrace] ∧ v.1 = s) s)
      (stepI OneofJ (fun a b v => ∃ c, OneofJ a c v.1 ∧ SpIn c b v.2) s) := by
  intro st Q E hn hp hQ hE
  unfold oneofStep
  refine (At.start hn hp hE).peek rfl fun t sp r ht A hun => ?_
  simp only
  obtain ⟨os, fs⟩ := s
  split
  · refine A.call (parseOption_snd hf) fun used v st2 e A i => ?_
    refine hQ _ _ _ A.eats (fun hb => .option (A.good hb).2) (fun a b h => ?_)
    have hv := i a b h
    refine ⟨hv.lt, fun a0 hj => ?_⟩
    have h2 := hj.mono (Nat.le_of_lt hv.lt)
    exact ⟨h2.1, all_snoc (P := Opt.In) Opt.In.mono hj.2.1 hv hj.1 (Nat.le_of_lt hv.lt), h2.2.2⟩
  · rename_i h1
    have hval : wp L (parseField p fuel >>= fun v => pure (.next (os, fs ++ [v]))) Q E
        ⟨some (t, sp) :: r, true, st.bad⟩ := by
      refine A.call (parseField_snd hf hbody) fun used v st2 e A i => ?_
      refine hQ _ _ _ A.eats (fun hb => .field (A.good hb).2 ?_) (fun a b h => ?_)
      · obtain ⟨xs, hx⟩ := e.head rfl (ne_of_in (fun a h => Nat.lt_irrefl _ (Field.In.lt h)) i)
        exact noKw_of_head hx (by simp [h1])
      · have hv := i a b h
        refine ⟨Field.In.lt hv, fun a0 hj => ?_⟩
        have h2 := hj.mono (Nat.le_of_lt (Field.In.lt hv))
        exact ⟨h2.1, h2.2.1, all_snoc (P := Field.In) Field.In.wide hj.2.2 hv hj.1 (Nat.le_of_lt (Field.In.lt hv))⟩
    cases t <;> try first | exact hun | exact hval
    · refine A.bump fun A => ?_
      exact hQ _ _ _ A.eats (fun hb => ⟨rfl, rfl⟩) (fun a b h a0 hj => ⟨a, hj, UC_one.1 h⟩)
    · refine A.bump fun A => ?_
      exact hQ _ _ _ A.eats (fun hb => .empty) (fun a b h => ⟨UC.lt h, fun a0 hj => hj.mono h.le⟩)

theorem parseOneof_snd (hf : n < fuel) (hbody : BodySnd L (n - 1) p body) :
    Snd L n (parseOneof p fuel) (OneofG body) Oneof.In := by
  intro st Q E hn hp hQ hE
  unfold parseOneof
  refine (At.start hn hp hE).leading fun c st1 A => ?_
  refine A.expect fun sp st2 _ A => ?_
  refine A.call parseIdent_snd fun used name st3 _ A i => ?_
  refine A.expect fun sp2 st4 _ A => ?_
  refine A.trailing fun c2 st5 A => ?_
  refine A.call (loop_snd hf ?_ (oneofStep_snd hf hbody)) fun used3 v st6 _ A i3 => ?_
  · intro a b hab
    exact ⟨hab, nofun, nofun⟩
  obtain ⟨⟨os, fs⟩, stop⟩ := v
  refine hQ _ _ _ A.eats (fun hb => ?_) (fun a b h => ?_)
  · obtain ⟨⟨_, h1⟩, t1, t2, s, h2, h3, h4, h5⟩ := A.good hb
    simp only at h5
    subst h4 h5
    simpa [h2] using OneofG.mk (c := c2) (sp := joinSpan sp stop) h1 h3
  · obtain ⟨c3, h, h4⟩ := UC_append.1 h
    obtain ⟨c2, h, h3⟩ := UC_append.1 h
    obtain ⟨c1, h1, h2⟩ := UC_cons.1 h
    obtain ⟨d, hj, hs⟩ := i3 _ _ h4
    have g0 := SpIn.le h1; have g1 := h2.le; have g2 := h3.le; have g3 := hj.1; have g4 := SpIn.le hs
    simp only [Oneof.In]
    refine ⟨(i _ _ h2).mono (by omega) (by omega), fun x hx => (hj.2.1 x hx).mono (by omega) (by omega),
      fieldsIn_iff.2 fun x hx => Field.In.wide (hj.2.2 x hx) (by omega) (by omega),
      SpIn.join' h1 hs (by omega)⟩

/-! ## Extend blocks -/

/-- The elements of an extend block lie in `[a, b]`. -/
def ExtendJ (a b : Nat) (s : List Field) : Prop := a ≤ b ∧ (∀ x ∈ s, x.In a b)

theorem ExtendJ.mono {a b c : Nat} {s} (h : ExtendJ a b s) (hbc : b ≤ c) : ExtendJ a c s :=
  ⟨Nat.le_trans h.1 hbc, all_mono (P := Field.In) Field.In.wide h.2 hbc⟩

theorem extendStep_snd (hf : n < fuel) (hbody : BodySnd L (n - 1) p body) (s : List Field) :
    Snd L n (extendStep p fuel s)
      (stepG (ExtendElem body) (fun ts s v => ts = [.rightBrace] ∧ v.1 = s) s)
      (stepI ExtendJ (fun a b v => ∃ c, ExtendJ a c v.1 ∧ SpIn c b v.2) s) := by
  intro st Q E hn hp hQ hE
  unfold extendStep
  refine (At.start hn hp hE).peek rfl fun t sp r ht A hun => ?_
  simp only
  have hval : wp L (parseField p fuel >>= fun v => pure (.next (s ++ [v]))) Q E
      ⟨some (t, sp) :: r, true, st.bad⟩ := by
    refine A.call (parseField_snd hf hbody) fun used v st2 e A i => ?_
    refine hQ _ _ _ A.eats (fun hb => .field (A.good hb).2) (fun a b h => ?_)
    have hv := i a b h
    refine ⟨Field.In.lt hv, fun a0 hj => ?_⟩
    have h2 := hj.mono (Nat.le_of_lt (Field.In.lt hv))
    exact ⟨h2.1, all_snoc (P := Field.In) Field.In.wide hj.2 hv hj.1 (Nat.le_of_lt (Field.In.lt hv))⟩
  cases t <;> try first | exact hun | exact hval
  · refine A.bump fun A => ?_
    exact hQ _ _ _ A.eats (fun hb => ⟨rfl, rfl⟩) (fun a b h a0 hj => ⟨a, hj, UC_one.1 h⟩)
  · refine A.bump fun A => ?_
    exact hQ _ _ _ A.eats (fun hb => .empty) (fun a b h => ⟨UC.lt h, fun a0 hj => hj.mono h.le⟩)

theorem parseExtend_sndK (hf : n < fuel) (hbody : BodySnd L (n - 1) p body) :
    SndK L n (kw b!"extend") (parseExtend p fuel) (ExtendG body) Extend.In := by
  intro st Q E hn hp hQ hE
  unfold parseExtend
  refine At.startK hn hp hE fun c sp st2 A => ?_
  refine A.call (parseTypeName_snd hf _) fun used name st3 _ A i => ?_
  refine A.expect fun sp2 st4 _ A => ?_
  refine A.trailing fun c2 st5 A => ?_
  refine A.call (loop_snd hf ?_ (extendStep_snd hf hbody)) fun used3 v st6 _ A i3 => ?_
  · intro a b hab
    exact ⟨hab, nofun⟩
  obtain ⟨fs, stop⟩ := v
  refine hQ _ _ _ A.eats (fun hb => ?_) (fun a b h => ?_)
  · obtain ⟨⟨_, h1⟩, t1, t2, s, h2, h3, h4, h5⟩ := A.good hb
    simp only at h5
    subst h4 h5
    simpa [h2] using ExtendG.mk (c := c2) (sp := joinSpan sp stop) h1 h3
  · obtain ⟨c3, h, h4⟩ := UC_append.1 h
    obtain ⟨c2, h, h3⟩ := UC_append.1 h
    obtain ⟨c1, h1, h2⟩ := UC_cons.1 h
    obtain ⟨d, hj, hs⟩ := i3 _ _ h4
    have g0 := SpIn.le h1; have g1 := h2.le; have g2 := h3.le; have g3 := hj.1; have g4 := SpIn.le hs
    simp only [Extend.In]
    refine ⟨(i _ _ h2).mono (by omega) (by omega),
      fieldsIn_iff.2 fun x hx => Field.In.wide (hj.2 x hx) (by omega) (by omega), SpIn.join' h1 hs (by omega)⟩

/-! ## Messages -/

theorem parseMessage_sndK (hbody : BodySnd L (n - 1) p body) :
    SndK L n (kw b!"message") (parseMessage p) (MessageG body) Message.In := by
  intro st Q E hn hp hQ hE
  unfold parseMessage
  refine At.startK hn hp hE fun c sp st2 A => ?_
  refine A.call parseIdent_snd fun used name st3 _ A i => ?_
  refine A.expect fun sp2 st4 _ A => ?_
  refine A.trailing fun c2 st5 A => ?_
  refine A.callLt hn (by simp) hbody fun used3 v st6 _ A i3 => ?_
  obtain ⟨bd, stop⟩ := v
  refine hQ _ _ _ A.eats (fun hb => ?_) (fun a b h => ?_)
  · obtain ⟨⟨_, h1⟩, t1, h2, h3⟩ := A.good hb
    simpa [h2] using MessageG.mk (c := c2) (sp := joinSpan sp stop) h1 h3
  · obtain ⟨c3, h, h4⟩ := UC_append.1 h
    obtain ⟨c2, h, h3⟩ := UC_append.1 h
    obtain ⟨c1, h1, h2⟩ := UC_cons.1 h
    obtain ⟨d, hj, g3, hs⟩ := i3 _ _ h4
    have g0 := SpIn.le h1; have g1 := h2.le; have g2 := h3.le; have g4 := SpIn.le hs
    simp only [Message.In]
    exact ⟨(i _ _ h2).mono (by omega) (by omega), MessageBody.In.mono (by omega) (by omega) _ hj,
      SpIn.join' h1 hs (by omega)⟩

theorem bodyStep_snd (hf : n < fuel) (hbody : BodySnd L (n - 1) p body) (s : MessageBody) :
    Snd L n (bodyStep p fuel s)
      (stepG (BodyElem body) (fun ts s v => ts = [.rightBrace] ∧ v.1 = s) s)
      (stepI (fun a b s => s.In a b ∧ a ≤ b) (fun a b v => ∃ c, v.1.In a c ∧ a ≤ c ∧ SpIn c b v.2) s) := by
  intro st Q E hn hp hQ hE
  unfold bodyStep
  refine (At.start hn hp hE).peek rfl fun t sp r ht A hun => ?_
  simp only
  have item : ∀ {a b : Nat} {x : MessageItem}, x.In a b → a < b →
      a < b ∧ ∀ a0, s.In a0 a ∧ a0 ≤ a → ({ s with items := s.items ++ [x] } : MessageBody).In a0 b ∧ a0 ≤ b := by
    intro a b x hx hlt
    refine ⟨hlt, fun a0 hj => ⟨?_, by omega⟩⟩
    have hm := MessageBody.In.mono (Nat.le_refl a0) (Nat.le_of_lt hlt) s hj.1
    cases s
    simp only [MessageBody.In, itemsIn_append, itemsIn] at hm ⊢
    exact ⟨⟨hm.1, MessageItem.In.wide hx hj.2 (Nat.le_refl _), trivial⟩, hm.2⟩
  split
  · refine A.call (parseOneof_snd hf hbody) fun used v st2 e A i => ?_
    refine hQ _ _ _ A.eats (fun hb => .oneof (A.good hb).2) (fun a b h => ?_)
    have hv := i a b h
    exact item (x := .oneof v) (by simpa only [MessageItem.In] using hv) (Oneof.In.lt hv)
  split
  · refine A.call (parseEnum_sndK hf).snd fun used v st2 e A i => ?_
    refine hQ _ _ _ A.eats (fun hb => .enum (A.good hb).2) (fun a b h => ?_)
    have hv := i a b h
    exact item (x := .enum v) (by simpa only [MessageItem.In] using hv) (Enum.In.lt hv)
  split
  · refine A.call (parseMessage_sndK hbody).snd fun used v st2 e A i => ?_
    refine hQ _ _ _ A.eats (fun hb => .message (A.good hb).2) (fun a b h => ?_)
    have hv := i a b h
    exact item (x := .message v) (by simpa only [MessageItem.In] using hv) (Message.In.lt hv)
  split
  · refine A.call (parseExtend_sndK hf hbody).snd fun used v st2 e A i => ?_
    refine hQ _ _ _ A.eats (fun hb => .extend (A.good hb).2) (fun a b h => ?_)
    have hv := i a b h
    exact item (x := .extend v) (by simpa only [MessageItem.In] using hv) (Extend.In.lt hv)
  split
  · refine A.call (parseOption_snd hf) fun used v st2 e A i => ?_
    refine hQ _ _ _ A.eats (fun hb => .option (A.good hb).2) (fun a b h => ?_)
    have hv := i a b h
    refine ⟨hv.lt, fun a0 hj => ⟨?_, Nat.le_trans hj.2 h.le⟩⟩
    have hm := MessageBody.In.mono (Nat.le_refl a0) h.le s hj.1
    have hj1 := hj.1
    cases s
    simp only [MessageBody.In] at hm hj1 ⊢
    exact ⟨hm.1, hm.2.1, all_snoc (P := Opt.In) Opt.In.mono hj1.2.2.1 hv hj.2 h.le, hm.2.2.2⟩
  split
  · refine A.call (parseReserved_snd hf) fun used v st2 e A i => ?_
    refine hQ _ _ _ A.eats (fun hb => .reserved (A.good hb).2) (fun a b h => ?_)
    have hv := i a b h
    refine ⟨hv.lt, fun a0 hj => ⟨?_, Nat.le_trans hj.2 h.le⟩⟩
    have hm := MessageBody.In.mono (Nat.le_refl a0) h.le s hj.1
    have hj1 := hj.1
    cases s
    simp only [MessageBody.In] at hm hj1 ⊢
    exact ⟨hm.1, hm.2.1, hm.2.2.1, all_snoc (P := Reserved.In) Reserved.In.mono hj1.2.2.2 hv hj.2 h.le⟩
  split
  · refine A.call (parseExtensions_snd hf) fun used v st2 e A i => ?_
    refine hQ _ _ _ A.eats (fun hb => .extensions (A.good hb).2) (fun a b h => ?_)
    have hv := i a b h
    refine ⟨hv.lt, fun a0 hj => ⟨?_, Nat.le_trans hj.2 h.le⟩⟩
    have hm := MessageBody.In.mono (Nat.le_refl a0) h.le s hj.1
    have hj1 := hj.1
    cases s
    simp only [MessageBody.In] at hm hj1 ⊢
    exact ⟨hm.1, all_snoc (P := Extensions.In) Extensions.In.mono hj1.2.1 hv hj.2 h.le, hm.2.2⟩
  rename_i k1 k2 k3 k4 k5 k6 k7
  have hval : wp L (parseField p fuel >>= fun v => pure (.next { s with items := s.items ++ [.field v] })) Q E
      ⟨some (t, sp) :: r, true, st.bad⟩ := by
    refine A.call (parseField_snd hf hbody) fun used v st2 e A i => ?_
    refine hQ _ _ _ A.eats (fun hb => .field (A.good hb).2 ?_) (fun a b h => ?_)
    · obtain ⟨xs, hx⟩ := e.head rfl (ne_of_in (fun a h => Nat.lt_irrefl _ (Field.In.lt h)) i)
      exact noKw_of_head hx (by simp [bodyKeywords, k1, k2, k3, k4, k5, k6, k7])
    · have hv := i a b h
      exact item (x := .field v) (by simpa only [MessageItem.In] using hv) (Field.In.lt hv)
  cases t <;> try first | exact hun | exact hval
  · refine A.bump fun A => ?_
    exact hQ _ _ _ A.eats (fun hb => ⟨rfl, rfl⟩) (fun a b h a0 hj => ⟨a, hj.1, hj.2, UC_one.1 h⟩)
  · refine A.bump fun A => ?_
    exact hQ _ _ _ A.eats (fun hb => .empty) (fun a b h => ⟨UC.lt h, fun a0 hj =>
      ⟨MessageBody.In.mono (Nat.le_refl _) h.le _ hj.1, Nat.le_trans hj.2 h.le⟩⟩)

end bodies

theorem BodySnd.mono {n' : Nat} {p : Prog (MessageBody × Span)} {body} (h : BodySnd L n p body) (hn : n' ≤ n) :
    BodySnd L n' p body := Snd.mono h hn

theorem parseMessageBody_snd [FloatFmt] (d : Nat) : ∀ {n : Nat}, n < fuel → n < d →
    BodySnd L n (parseMessageBody fuel d) (BodyG d) := by
  induction d with
  | zero => intro n _ h; omega
  | succ d ih =>
    intro n hf hd st Q E hn hp hQ hE
    unfold parseMessageBody
    have hstep : ∀ s, Snd L n (bodyStep (parseMessageBody fuel d) fuel s) _ _ := fun s => by
      by_cases h0 : n = 0
      · subst h0
        intro st Q E hn hp hQ hE
        unfold bodyStep
        refine (At.start hn hp hE).peek rfl fun t sp r ht A hun => ?_
        rw [ht] at hn
        simp at hn
      · exact bodyStep_snd hf (ih (by omega) (by omega)) s
    refine (At.start hn hp hE).loopT hf hstep (fun a b h => ?_) fun used v st2 A i => ?_
    · simp only [MessageBody.In, itemsIn]
      exact ⟨⟨trivial, nofun, nofun, nofun⟩, h⟩
    · refine hQ _ _ _ A.eats (fun hb => ?_) i
      obtain ⟨_, t1, t2, s, h1, h2, rfl, rfl⟩ := A.good hb
      exact ⟨t1, h1, h2⟩

end Verif.Parse
