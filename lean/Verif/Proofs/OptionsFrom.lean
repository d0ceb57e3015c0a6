import Verif.Spec.Options
import Verif.Props.Descriptor3
/-!
Every option of a descriptor is derived by the grammar from consecutive tokens of the source.
-/
namespace Verif.Gen
open Verif.Ast Verif.Spec Verif.Grammar

section
variable [FloatFmt]

/-- An option and the token after it. -/
def OptionEndG (t : List Token) (o : OptionBody) : Prop :=
  ∃ t' c, t = t' ++ [c] ∧ OptionBodyG t' o ∧ (c = .semicolon ∨ c = .comma ∨ c = .rightBracket)

theorem optionG_body {ts : List Token} {o : Opt} (h : From ts OptionG o) : From ts OptionEndG o.body := by
  obtain ⟨t, ht, h⟩ := h
  cases h with
  | @mk us _ _ _ h => exact ⟨us ++ [.semicolon], List.IsInfix.trans ⟨[kw b!"option"], [], by simp⟩ ht, us, _, rfl, h, .inl rfl⟩

theorem listed_eq (l : Option OptionList) : listed l = listed' l := by cases l <;> rfl

omit [FloatFmt] in
theorem sepBy_end {α : Type} {sep e : Token} {item : List Token → α → Prop} {ts as} (h : SepBy sep item ts as) :
    ∀ a ∈ as, ∃ t c, t ++ [c] <:+: ts ++ [e] ∧ item t a ∧ (c = sep ∨ c = e) := by
  induction h with
  | one h => intro a ha; cases List.mem_singleton.1 ha; exact ⟨_, _, List.infix_refl _, h, .inr rfl⟩
  | @cons t x ts as h _ ih =>
    intro a ha
    rcases List.mem_cons.1 ha with rfl | ha
    · exact ⟨t, sep, ⟨[], ts ++ [e], by simp⟩, h, .inl rfl⟩
    · obtain ⟨t', c, h1, h2, h3⟩ := ih a ha
      exact ⟨t', c, h1.trans ⟨t ++ [sep], [], by simp⟩, h2, h3⟩

theorem optList_from {ts : List Token} {l : Option OptionList} (h : From ts OptListG l) : ∀ o ∈ listed l, From ts OptionEndG o := by
  obtain ⟨t, ht, h⟩ := h
  intro o ho
  cases h with
  | none => cases ho
  | @some us os _ h =>
    obtain ⟨t', c, h1, h2, h3⟩ := sepBy_end (e := .rightBracket) h o ho
    exact ⟨t' ++ [c], (h1.trans ⟨[.leftBracket], [], by simp⟩).trans ht, t', c, rfl, h2, .inr h3⟩

theorem enumG_from {ts : List Token} {e : Enum} (h : EnumG ts e) : (∀ x ∈ e.options, From ts OptionG x) ∧
    (∀ x ∈ e.values, From ts EnumValueG x) ∧ ∀ x ∈ e.reserved, From ts ReservedG x := by
  cases h with
  | @mk is name us os vs rs c sp h0 hm =>
    have := many_inv hm (fun p : List Opt × List EnumValue × List Reserved =>
      (∀ x ∈ p.1, From us OptionG x) ∧ (∀ x ∈ p.2.1, From us EnumValueG x) ∧ ∀ x ∈ p.2.2, From us ReservedG x)
      ⟨nofun, nofun, nofun⟩ (by
      intro t a b ht he ha
      cases he with
      | option h1 => exact ⟨snoc_mem ha.1 ⟨t, ht, h1⟩, ha.2⟩
      | reserved h1 => exact ⟨ha.1, ha.2.1, snoc_mem ha.2.2 ⟨t, ht, h1⟩⟩
      | value h1 _ => exact ⟨ha.1, snoc_mem ha.2.1 ⟨t, ht, h1⟩, ha.2.2⟩
      | empty => exact ha)
    have hs : us <:+: kw b!"enum" :: is ++ .leftBrace :: us ++ [.rightBrace] := by infx
    exact ⟨fun x hx => (this.1 x hx).mono hs, fun x hx => (this.2.1 x hx).mono hs, fun x hx => (this.2.2 x hx).mono hs⟩

theorem enumValueG_options {ts : List Token} {v : EnumValue} (h : EnumValueG ts v) : From ts OptListG v.options := by
  cases h with
  | mk _ _ h => exact ⟨_, by infx, h⟩

theorem methodG_options {ts : List Token} {x : Method} (h : MethodG ts x) : ∀ o ∈ x.options, From ts OptionG o := by
  cases h with
  | @mk is name ins i cs outs o ss es os c sp h1 h2 h3 h4 =>
    have hs : es <:+: kw b!"rpc" :: is ++ .leftParen :: ins ++ [.rightParen, kw b!"returns", .leftParen] ++ outs ++
        .rightParen :: es := by infx
    cases h4 with
    | semi => nofun
    | @body us _ hm =>
      have := many_inv hm (fun p : List Opt => ∀ x ∈ p, From us OptionG x) nofun (by
        intro t a b ht he ha
        cases he with
        | option h1 => exact snoc_mem ha ⟨t, ht, h1⟩
        | empty => exact ha)
      exact fun x hx => (this x hx).mono (List.IsInfix.trans (by infx) hs)

theorem serviceG_from {ts : List Token} {e : Service} (h : ServiceG ts e) : (∀ x ∈ e.options, From ts OptionG x) ∧
    ∀ x ∈ e.methods, From ts MethodG x := by
  cases h with
  | @mk is name us os ms c sp h0 hm =>
    have := many_inv hm (fun p : List Opt × List Method =>
      (∀ x ∈ p.1, From us OptionG x) ∧ (∀ x ∈ p.2, From us MethodG x)) ⟨nofun, nofun⟩ (by
      intro t a b ht he ha
      cases he with
      | option h1 => exact ⟨snoc_mem ha.1 ⟨t, ht, h1⟩, ha.2⟩
      | method h1 => exact ⟨ha.1, snoc_mem ha.2 ⟨t, ht, h1⟩⟩
      | empty => exact ha)
    have hs : us <:+: kw b!"service" :: is ++ .leftBrace :: us ++ [.rightBrace] := by infx
    exact ⟨fun x hx => (this.1 x hx).mono hs, fun x hx => (this.2 x hx).mono hs⟩

theorem extensionsG_options {ts : List Token} {x : Extensions} (h : ExtensionsG ts x) : From ts OptListG x.options := by
  cases h with
  | mk _ h _ => exact ⟨_, by infx, h⟩

theorem Made.enumIn {name f fd} (h : Made name f fd) {d} (hd : EnumIn fd d) : ∃ p e, EnumAt f fd p e d := by
  have hp := h.paired
  cases hd with
  | top hd =>
    obtain ⟨i, hi⟩ := List.mem_iff_getElem?.1 hd
    have hl : i < (Spec.fileEnums f).length := hp.enums ▸ (List.getElem?_eq_some_iff.1 hi).1
    exact ⟨_, _, .top (List.getElem?_eq_getElem hl) hi⟩
  | @nested m _ hm hd =>
    obtain ⟨p, s, hm⟩ := h.msgIn hm
    cases hb : s.body with
    | none => rw [(hp.entry p s m hm hb).2.2.2.1] at hd; cases hd
    | some b =>
      obtain ⟨i, hi⟩ := List.mem_iff_getElem?.1 hd
      have hl : i < (bodyEnums b).length := (hp.body p s m b hm hb).2.2.2 ▸ (List.getElem?_eq_some_iff.1 hi).1
      exact ⟨_, _, .nested hm hb (List.getElem?_eq_getElem hl) hi⟩

theorem Made.serviceIn {name f fd} (h : Made name f fd) {d} (hd : d ∈ fd.service) : ∃ p e, ServiceAt f fd p e d := by
  have hp := h.paired
  obtain ⟨i, hi⟩ := List.mem_iff_getElem?.1 hd
  have hl : i < (Spec.fileServices f).length := hp.services ▸ (List.getElem?_eq_some_iff.1 hi).1
  exact ⟨_, _, .mk (List.getElem?_eq_getElem hl) hi⟩

omit [FloatFmt] in
theorem carried_mem {os : List OptionBody} {us : Option (List UninterpretedOption)} (h : CarriedOver os us) {l u}
    (hl : us = some l) (hu : u ∈ l) : ∃ o ∈ os, representable o ∧ u = optionOf o := by
  have := h.2
  rw [hl] at this
  split at this
  · cases this
  · cases this
    obtain ⟨o, ho, rfl⟩ := List.mem_map.1 hu
    exact ⟨o, ho, h.1 o ho, rfl⟩

omit [FloatFmt] in
theorem getElem?_of_length {α β : Type} {as : List α} {bs : List β} (h : as.length = bs.length) {a : α} (ha : a ∈ as) :
    ∃ (i : Nat) (b : β), as[i]? = some a ∧ bs[i]? = some b := by
  obtain ⟨i, hi⟩ := List.mem_iff_getElem?.1 ha
  have hl : i < bs.length := h ▸ (List.getElem?_eq_some_iff.1 hi).1
  exact ⟨i, _, hi, List.getElem?_eq_getElem hl⟩

/-- Every option of the descriptor comes from an option derived from consecutive tokens. -/
theorem optionIn_from {name f fd} (hm : Made name f fd) {src : Bytes} (htr : TreeOf src f)
    {ts} (hg : FileG ts f) {u : UninterpretedOption} (hu : OptionIn fd u) :
    ∃ o, From ts OptionEndG o ∧ representable o ∧ u = optionOf o := by
  have hff := fileG_from hg
  have fin : ∀ {os : List Opt} {us l}, CarriedOver (os.map (·.body)) us → us = some l → u ∈ l →
      (∀ o ∈ os, From ts OptionG o) → ∃ o, From ts OptionEndG o ∧ representable o ∧ u = optionOf o := by
    intro os us l hc hl hu hf
    obtain ⟨o, ho, h1, h2⟩ := carried_mem hc hl hu
    obtain ⟨x, hx, rfl⟩ := List.mem_map.1 ho
    exact ⟨_, optionG_body (hf x hx), h1, h2⟩
  have fin' : ∀ {os : Option OptionList} {us l}, CarriedOver (listed os) us → us = some l → u ∈ l →
      From ts OptListG os → ∃ o, From ts OptionEndG o ∧ representable o ∧ u = optionOf o := by
    intro os us l hc hl hu hf
    obtain ⟨o, ho, h1, h2⟩ := carried_mem hc hl hu
    exact ⟨_, optList_from hf o ho, h1, h2⟩
  cases hu with
  | file h1 h2 => exact fin (file_options hm) h1 h2 hff.options
  | @message d o h1 h2 h3 =>
    obtain ⟨p, s, hat⟩ := hm.msgIn h1
    cases hb : s.body with
    | some b =>
      refine fin (message_options hm p s d b hat hb).1 (by rw [h2]; rfl) h3 ?_
      exact (srcFrom_body (msgAt_from hg hat) hb).options
    | none =>
      cases s <;> cases hb
      rw [(hm.msgAt hat).1] at h2
      cases h2; cases h3
  | @oneof d o us h1 h2 h3 h4 =>
    obtain ⟨p, s, hat⟩ := hm.msgIn h1
    cases hb : s.body with
    | none => rw [(hm.paired.entry p s d hat hb).2.2.2.2.1] at h2; cases h2
    | some b =>
      obtain ⟨i, hi⟩ := List.mem_iff_getElem?.1 h2
      refine fin ((message_options hm p s d b hat hb).2.2.1 i o hi) h3 h4 ?_
      cases hbo : (bodyOneofs b)[i]? with
      | none => nofun
      | some y =>
        obtain ⟨it, hit, hy⟩ := List.mem_filterMap.1 (List.mem_of_getElem? hbo)
        have hd := (srcFrom_body (msgAt_from hg hat) hb).items it hit
        cases it with
        | oneof z =>
          cases hy
          obtain ⟨t, ht, d', h⟩ := hd
          exact fun x hx => ((oneofG_from h).2.2 x hx).mono ht
        | _ => cases hy
  | @extensionRange d r us h1 h2 h3 h4 =>
    obtain ⟨p, s, hat⟩ := hm.msgIn h1
    cases hb : s.body with
    | none => rw [(hm.paired.entry p s d hat hb).2.2.2.2.2.1] at h2; cases h2
    | some b =>
      have hlen : d.extensionRange.length = (extensionRanges b.extensions).length := by
        rw [(hm.msgAt hat).1, (srcDesc_body (s := f.syntax') hb).2.2.2.2.2.1]
        have heq : extensionRanges b.extensions = (allExtRanges b.extensions).map fun y => (y.2, y.1) := by
          simp [extensionRanges, allExtRanges, List.map_flatMap, Function.comp_def]
        rw [heq]; simp
      obtain ⟨i, y, hi, hy⟩ := getElem?_of_length hlen h2
      obtain ⟨z, hz, hc⟩ := (message_options hm p s d b hat hb).2.2.2 i y hy
      rw [hi] at hz
      cases hz
      refine fin' hc h3 h4 ?_
      obtain ⟨e, he, hmem⟩ := List.mem_flatMap.1 (List.mem_of_getElem? hy)
      obtain ⟨r', _, rfl⟩ := List.mem_map.1 hmem
      obtain ⟨t, ht, h⟩ := (srcFrom_body (msgAt_from hg hat) hb).extensions e he
      exact (extensionsG_options h).mono ht
  | @field x us h1 h2 h3 =>
    rcases hm.fieldIn h1 with ⟨p, pl, y, hat⟩ | ⟨p, g, k, v, e, hat, hx⟩
    · have hc := (field_options hm htr p pl y x hat).1
      obtain ⟨o, ho, ha, hb⟩ := carried_mem hc h2 h3
      refine ⟨o, ?_, ha, hb⟩
      obtain ⟨t, ht, h⟩ := (fieldAt_from hg hat).2
      exact optList_from ((aField_options h).1.mono ht) o (List.eraseP_subset (List.eraseP_subset ho))
    · rw [(hm.msgAt hat).1] at hx
      simp only [srcDesc, entryOf, mapEntry, List.mem_cons, List.not_mem_nil, or_false] at hx
      rcases hx with rfl | rfl <;> cases h2
  | @enum e us h1 h2 h3 =>
    obtain ⟨p, x, hat⟩ := hm.enumIn h1
    obtain ⟨t, ht, h⟩ := enumAt_from hg hat
    exact fin (enum_options hm p x e hat).1 h2 h3 fun o ho => ((enumG_from h).1 o ho).mono ht
  | @enumValue e v us h1 h2 h3 h4 =>
    obtain ⟨p, x, hat⟩ := hm.enumIn h1
    obtain ⟨t, ht, h⟩ := enumAt_from hg hat
    have hlen : e.value.length = x.values.length := by rw [(hm.enumAt hat).1]; simp [enumDesc]
    obtain ⟨i, y, hi, hy⟩ := getElem?_of_length hlen h2
    obtain ⟨z, hz, hc⟩ := (enum_options hm p x e hat).2 i y hy
    rw [hi] at hz
    cases hz
    refine fin' hc h3 h4 ?_
    obtain ⟨t', ht', h'⟩ := (enumG_from h).2.1 y (List.mem_of_getElem? hy)
    exact (enumValueG_options h').mono (ht'.trans ht)
  | @service e us h1 h2 h3 =>
    obtain ⟨p, x, hat⟩ := hm.serviceIn h1
    obtain ⟨t, ht, h⟩ := serviceAt_from hg hat
    exact fin (service_options hm p x e hat).1 h2 h3 fun o ho => ((serviceG_from h).1 o ho).mono ht
  | @method e v us h1 h2 h3 h4 =>
    obtain ⟨p, x, hat⟩ := hm.serviceIn h1
    obtain ⟨t, ht, h⟩ := serviceAt_from hg hat
    have hlen : e.method.length = x.methods.length := by rw [(hm.serviceAt hat).1]; simp [serviceDesc]
    obtain ⟨i, y, hi, hy⟩ := getElem?_of_length hlen h2
    obtain ⟨z, hz, hc⟩ := (service_options hm p x e hat).2 i y hy
    rw [hi] at hz
    cases hz
    refine fin hc h3 h4 fun o ho => ?_
    obtain ⟨t', ht', h'⟩ := (serviceG_from h).2 y (List.mem_of_getElem? hy)
    exact (methodG_options h' o ho).mono (ht'.trans ht)

end
end Verif.Gen
