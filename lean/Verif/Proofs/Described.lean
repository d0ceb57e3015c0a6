import Verif.Spec.Describes
import Verif.Proofs.Decimal
/-! The rules of Spec/Describes.lean determine the descriptor. -/
namespace Verif.Spec
open Verif.Ast

section
variable [FloatFmt]

theorem defaultText_unique {t : Ty} {v : OptionValue} {s s' : Bytes} (h : DefaultText t v s) (h' : DefaultText t v s') : s = s' := by
  have fl : ∀ {x : Bytes} {neg : Bool}, ((x = b!"inf" ∧ s = if neg then b!"-inf" else b!"inf") ∨ (x = b!"nan" ∧ s = b!"nan")) →
      ((x = b!"inf" ∧ s' = if neg then b!"-inf" else b!"inf") ∨ (x = b!"nan" ∧ s' = b!"nan")) → s = s' := by
    rintro x neg (⟨h1, h2⟩ | ⟨h1, h2⟩) (⟨h3, h4⟩ | ⟨h3, h4⟩)
    · rw [h2, h4]
    · rw [h1] at h3; cases h3
    · rw [h1] at h3; cases h3
    · rw [h2, h4]
  cases t <;> cases v <;> first
    | exact Eq.trans h (Eq.symm h')
    | exact absurd h id
    | exact h.2.2.trans h'.2.2.symm
    | exact h.2.trans h'.2.symm
    | exact fl h h'
    | exact canonical_unique h.2 h'.2

theorem field_unique {syn pl x oi d d'} (h : FieldDescribed syn pl x oi d) (h' : FieldDescribed syn pl x oi d') : d = d' := by
  have hj : d.jsonName = d'.jsonName := by
    cases hf : (listed x.options).find? (named b!"json_name") with
    | none => rw [h.noJsonName hf, h'.noJsonName hf]
    | some o =>
      obtain ⟨s, h1, h2⟩ := h.jsonName o hf
      obtain ⟨s', h3, h4⟩ := h'.jsonName o hf
      rw [h1] at h3; cases h3
      rw [h2, h4]
  have hd : d.defaultValue = d'.defaultValue := by
    cases hf : (listed x.options).find? (named b!"default") with
    | none => rw [h.noDefault hf, h'.noDefault hf]
    | some o =>
      obtain ⟨t, sp, s, h1, h2, h3⟩ := h.default o hf
      obtain ⟨t', sp', s', h4, h5, h6⟩ := h'.default o hf
      rw [h1] at h4; cases h4
      rw [h2, h5, defaultText_unique h3 h6]
  have e1 := h.name.trans h'.name.symm
  have e2 := h.number.trans h'.number.symm
  have e3 := h.label.trans h'.label.symm
  have e4 := h.type.trans h'.type.symm
  have e5 := h.typeName.trans h'.typeName.symm
  have e6 := h.extendee.trans h'.extendee.symm
  have e7 := h.oneofIndex.trans h'.oneofIndex.symm
  have e8 := h.proto3Optional.trans h'.proto3Optional.symm
  have e9 := h.options.trans h'.options.symm
  cases d; cases d'
  simp only at *
  subst e1 e2 e3 e4 e5 e6 e7 e8 e9 hj hd
  rfl

omit [FloatFmt] in
/-- Two lists paired with a third element by element are equal. -/
theorem paired_eq {α β : Type} {src : List α} {l l' : List β} (h1 : l.length = src.length) (h2 : l'.length = src.length)
    (h : ∀ (i : Nat) a x x', src[i]? = some a → l[i]? = some x → l'[i]? = some x' → x = x') : l = l' := by
  refine List.ext_getElem (h1.trans h2.symm) fun i hi hi' => ?_
  exact h i (src[i]'(h1 ▸ hi)) _ _ (List.getElem?_eq_getElem _) (List.getElem?_eq_getElem hi) (List.getElem?_eq_getElem hi')

theorem message_unique {name f fd fd'} (h : Describes name f fd) (h' : Describes name f fd') :
    ∀ (n : Nat) {s d d' p p'}, sizeOf d ≤ n → MsgAt f fd p s d → MsgAt f fd' p' s d' → d = d' := by
  intro n
  induction n with
  | zero => intro s d d' p p' hn; cases d; simp at hn
  | succ n ih =>
    intro s d d' p p' hn ha ha'
    have e1 := (h.messageNames _ _ _ ha).trans (h'.messageNames _ _ _ ha').symm
    cases hb : s.body with
    | none =>
      obtain ⟨a1, a2, a3, a4, a5, a6, a7, a8⟩ := h.paired.entry _ _ _ ha hb
      obtain ⟨b1, b2, b3, b4, b5, b6, b7, b8⟩ := h'.paired.entry _ _ _ ha' hb
      cases s with
      | map x k v =>
        obtain ⟨c1, c2⟩ := h.entries _ _ _ _ _ ha
        obtain ⟨c3, c4⟩ := h'.entries _ _ _ _ _ ha'
        cases d; cases d'
        simp only at *
        simp only [*]
      | _ => cases hb
    | some b =>
      obtain ⟨a1, a2, a3, a4⟩ := h.paired.body _ _ _ _ ha hb
      obtain ⟨b1, b2, b3, b4⟩ := h'.paired.body _ _ _ _ ha' hb
      have x := h.bodies _ _ _ _ ha hb
      have x' := h'.bodies _ _ _ _ ha' hb
      have enest : d.nestedType = d'.nestedType := paired_eq a1 b1 fun i s2 y y' hs hy hy' => by
        refine ih ?_ (.nested ha hb hs hy) (.nested ha' hb hs hy')
        have hm := List.sizeOf_lt_of_mem (List.mem_of_getElem? hy)
        have : sizeOf d.nestedType < sizeOf d := by cases d; simp only [DescriptorProto.mk.sizeOf_spec]; omega
        omega
      have efield : d.field = d'.field := paired_eq a2 b2 fun i s2 y y' hs hy hy' =>
        field_unique (h.fields _ _ _ _ i _ _ _ ha hb hs hy) (h'.fields _ _ _ _ i _ _ _ ha' hb hs hy')
      have eext : d.extension = d'.extension := paired_eq a3 b3 fun i s2 y y' hs hy hy' =>
        field_unique (h.extensions _ _ _ _ i _ _ _ ha hb hs hy) (h'.extensions _ _ _ _ i _ _ _ ha' hb hs hy')
      have eenum : d.enumType = d'.enumType := paired_eq a4 b4 fun i s2 y y' hs hy hy' =>
        (h.enums _ _ _ (.nested ha hb hs hy)).trans (h'.enums _ _ _ (.nested ha' hb hs hy')).symm
      have eopt := x.options.trans x'.options.symm
      have eone := x.oneofs.trans x'.oneofs.symm
      have ern := x.reservedName.trans x'.reservedName.symm
      obtain ⟨top, t1, t2, t3, t4⟩ := x.ranges
      obtain ⟨top', t1', t2', t3', t4'⟩ := x'.ranges
      have ht : top = top' := by
        by_cases hm : MessageSet b
        · rw [t1 hm, t1' hm]
        · rw [t2 hm, t2' hm]
      subst ht
      have err := t3.trans t3'.symm
      have eer := t4.trans t4'.symm
      cases d; cases d'
      simp only at *
      subst e1 enest efield eext eenum eopt eone ern err eer
      rfl

/-- The rules determine the descriptor up to its source code info. -/
theorem describes_unique {name f fd fd'} (h : Describes name f fd) (h' : Describes name f fd') :
    { fd with sourceCodeInfo := none } = { fd' with sourceCodeInfo := none } := by
  have e1 := h.name.trans h'.name.symm
  have e2 := h.package.trans h'.package.symm
  have e3 := h.syn.trans h'.syn.symm
  have e4 := h.dependency.trans h'.dependency.symm
  have e5 := h.publicDependency.trans h'.publicDependency.symm
  have e6 := h.weakDependency.trans h'.weakDependency.symm
  have e7 := h.options.trans h'.options.symm
  have e8 : fd.messageType = fd'.messageType := paired_eq h.paired.messages h'.paired.messages fun i s y y' hs hy hy' =>
    message_unique h h' _ (Nat.le_refl _) (.top hs hy) (.top hs hy')
  have e9 : fd.enumType = fd'.enumType := paired_eq h.paired.enums h'.paired.enums fun i s y y' hs hy hy' =>
    (h.enums _ _ _ (.top hs hy)).trans (h'.enums _ _ _ (.top hs hy')).symm
  have e10 : fd.service = fd'.service := paired_eq h.paired.services h'.paired.services fun i s y y' hs hy hy' =>
    (h.services _ _ _ (.mk hs hy)).trans (h'.services _ _ _ (.mk hs hy')).symm
  have e11 : fd.extension = fd'.extension := paired_eq h.paired.extensions h'.paired.extensions fun i s y y' hs hy hy' =>
    field_unique (h.fileExtensions i _ _ _ hs hy) (h'.fileExtensions i _ _ _ hs hy')
  cases fd; cases fd'
  simp only at *
  subst e1 e2 e3 e4 e5 e6 e7 e8 e9 e10 e11
  rfl

end
end Verif.Spec
