import Verif.Props.Descriptor2
import Verif.Spec.Describes
/-!
What a descriptor returned by `parse` contains: maps, groups, labels, options and names (C39, C40, C41, C45, C52).
-/
namespace Verif
open Verif.Spec Verif.Ast Verif.Gen

section
variable [FloatFmt] [LocSort]

/-! ### C39 and C40 -/

theorem mem_get {α : Type} {l : List α} {x : α} (h : x ∈ l) : ∃ i : Nat, l[i]? = some x := List.mem_iff_getElem?.1 h

theorem fieldMsgs_mem {b : MessageBody} {x : Place × Field} (hx : x ∈ bodyFields b ∨ x ∈ bodyExts b) :
    ∀ s ∈ fieldMsgs x.2, s ∈ bodyMsgs b := by
  intro s hs
  unfold bodyMsgs
  rcases hx with hx | hx
  · have key : ∀ (xs : List MessageItem) (k : Nat), x ∈ fieldsFrom k xs → s ∈ xs.flatMap itemMsgs := by
      intro xs
      induction xs with
      | nil => intro k h; cases h
      | cons y ys ih =>
        intro k h
        rw [List.flatMap_cons, List.mem_append]
        cases y with
        | field g =>
          rcases List.mem_cons.1 h with rfl | h
          · exact .inl hs
          · exact .inr (ih k h)
        | oneof o =>
          simp only [fieldsFrom, List.mem_append, List.mem_map] at h
          rcases h with ⟨g, hg, rfl⟩ | h
          · exact .inl (List.mem_flatMap.2 ⟨g, hg, hs⟩)
          · exact .inr (ih (k + 1) h)
        | enum _ => exact .inr (ih k h)
        | message _ => exact .inr (ih k h)
        | extend _ => exact .inr (ih k h)
    exact key _ 0 hx
  · obtain ⟨i, hi, hx⟩ := List.mem_flatMap.1 hx
    refine List.mem_flatMap.2 ⟨i, hi, ?_⟩
    cases i with
    | extend e =>
      obtain ⟨g, hg, rfl⟩ := List.mem_map.1 hx
      exact List.mem_flatMap.2 ⟨g, hg, hs⟩
    | _ => cases hx

/-- The message that a field brings with it stands in the same message (or file) as the field. -/
theorem field_message {name f fd} (hm : Made name f fd) {q pl x d} (hf : FieldAt f fd q pl x d) :
    ∀ s ∈ fieldMsgs x, ∃ p t i j e, q = p ++ [t, i] ∧ MsgAt f fd (messagePath p j) s e := by
  intro s hs
  have hbody : ∀ {p s' d b}, MsgAt f fd p s' d → s'.body = some b → s ∈ bodyMsgs b →
      ∃ j e, MsgAt f fd (messagePath p j) s e := by
    intro p s' d b hat hb hmem
    obtain ⟨j, hj⟩ := mem_get hmem
    have hl : j < d.nestedType.length :=
      (hm.paired.body p s' d b hat hb).1 ▸ (List.getElem?_eq_some_iff.1 hj).1
    have hne : p ≠ [] := by cases hat <;> simp
    refine ⟨j, d.nestedType[j], ?_⟩
    rw [messagePath, if_neg hne]
    exact .nested hat hb hj (List.getElem?_eq_getElem hl)
  cases hf with
  | field hat hb h1 h2 =>
    obtain ⟨j, e, h⟩ := hbody hat hb (fieldMsgs_mem (.inl (List.mem_of_getElem? h1)) s hs)
    exact ⟨_, _, _, j, e, rfl, h⟩
  | ext hat hb h1 h2 =>
    obtain ⟨j, e, h⟩ := hbody hat hb (fieldMsgs_mem (.inr (List.mem_of_getElem? h1)) s hs)
    exact ⟨_, _, _, j, e, rfl, h⟩
  | @fileExt i _ _ _ h1 h2 =>
    have hmem : s ∈ fileMsgs f := by
      obtain ⟨i, hi, hx⟩ := List.mem_flatMap.1 (List.mem_of_getElem? h1)
      refine List.mem_flatMap.2 ⟨i, hi, ?_⟩
      cases i with
      | extend e =>
        obtain ⟨g, hg, hx⟩ := List.mem_map.1 hx
        injection hx with _ hx; subst hx
        exact List.mem_flatMap.2 ⟨g, hg, hs⟩
      | _ => cases hx
    obtain ⟨j, hj⟩ := mem_get hmem
    have hl : j < fd.messageType.length := hm.paired.messages ▸ (List.getElem?_eq_some_iff.1 hj).1
    refine ⟨[], 7, i, j, fd.messageType[j], rfl, ?_⟩
    exact .top hj (List.getElem?_eq_getElem hl)

omit [FloatFmt] [LocSort] in
theorem tyNameOf_eq (t : Ty) : tyNameOf t = typeNameOf t := by
  cases t with
  | named t => simp only [tyNameOf, typeNameOf, typeText_eq]
  | _ => rfl

omit [FloatFmt] [LocSort] in
theorem protoTy_eq (t : Ty) : t.protoTy = typeNumber t := by cases t <;> rfl

/-- C39: a map field has no label, stands directly in a message and has a key of an integer type, bool or string; its
descriptor is a repeated message field of the type PascalCaseNameEntry without default. The same message contains an
entry message of that name with `map_entry` set and exactly the fields `key = 1` and `value = 2`. -/
theorem C39_maps {name src : Bytes} {fd} (h : parse name src = some (.ok fd)) :
    ForTree src fun f => Paired f fd ∧ ∀ q pl x d s1 k s2 v s3, FieldAt f fd q pl x d →
      x.kind = .map s1 k s2 v s3 →
      pl = .message ∧ x.label = none ∧ k ∈ keyTypes ∧ d.name = some x.name.value ∧ d.label = some .repeated ∧
      d.type = some .message ∧ d.typeName = some (pascalCase x.name.value ++ b!"Entry") ∧ d.defaultValue = none ∧
      ∃ p t i j e, q = p ++ [t, i] ∧ MsgAt f fd (messagePath p j) (.map x k v) e ∧
        e.name = some (pascalCase x.name.value ++ b!"Entry") ∧ e.options = some { mapEntry := some true } ∧
        e.field = entryFields k v := by
  refine forTree h fun f ht hm => ⟨hm.paired, fun q pl x d s1 k s2 v s3 hf hk => ?_⟩
  have he := (field_errs hm hf).2.2.1
  obtain ⟨p1, p2, p3, p4, p5, _⟩ := field_parts hm hf
  rw [hk] at he p1 p2 p3 p4 p5
  simp only [kindErrs, List.append_eq_nil_iff] at he
  have hkey : k ∈ keyTypes := by
    have := he.2
    cases k <;> simp [validKey] at this <;> decide
  have hplace : pl = .message ∧ x.label = none := by
    have := he.1
    cases pl with
    | message =>
      refine ⟨rfl, ?_⟩
      cases hl : x.label with
      | none => rfl
      | some l => rw [hl] at this; simp [mapScopeErrs, Place.scope] at this
    | oneof _ => simp [mapScopeErrs, Place.scope] at this
    | extend _ => simp [mapScopeErrs, Place.scope] at this
  obtain ⟨p, t, i, j, e, h1, h2⟩ := field_message hm hf (.map x k v) (by simp [fieldMsgs, hk])
  refine ⟨hplace.1, hplace.2, hkey, by simpa [kindName] using p1, by simpa [kindLabel] using p2, p3,
    by simpa [kindTypeName, entryName, toPascalCase_eq] using p4, by simpa [kindDefault] using p5,
    p, t, i, j, e, h1, h2, ?_⟩
  have := (hm.msgAt h2).1
  rw [this]
  refine ⟨by simp [srcDesc, entryOf, mapEntry, entryName, toPascalCase_eq], rfl, ?_⟩
  simp only [srcDesc, entryOf, mapEntry, entryFields, protoTy_eq, tyNameOf_eq]

/-- C40: groups appear only in proto2; the field has the lower-cased name, the type `group` and the written name as its
type name, and the same message (or the file, for an extension at file level) contains a message of the written name
made from the body of the group. -/
theorem C40_groups {name src : Bytes} {fd} (h : parse name src = some (.ok fd)) :
    ForTree src fun f => Paired f fd ∧ ∀ q pl x d sp b, FieldAt f fd q pl x d → x.kind = .group sp b →
      f.syntax' = .proto2 ∧ d.name = some (x.name.value.map toLower) ∧ d.type = some .group ∧
      d.typeName = some x.name.value ∧ d.defaultValue = none ∧
      ∃ p t i j e, q = p ++ [t, i] ∧ MsgAt f fd (messagePath p j) (.group x b) e ∧ e.name = some x.name.value := by
  refine forTree h fun f ht hm => ⟨hm.paired, fun q pl x d sp b hf hk => ?_⟩
  have he := (field_errs hm hf).2.2.1
  obtain ⟨p1, p2, p3, p4, p5, _⟩ := field_parts hm hf
  rw [hk] at he p1 p2 p3 p4 p5
  simp only [kindErrs, groupErrs, List.append_eq_nil_iff] at he
  obtain ⟨p, t, i, j, e, h1, h2⟩ := field_message hm hf (.group x b) (by simp [fieldMsgs, hk])
  refine ⟨?_, p1, p3, p4, by simpa [kindDefault] using p5, p, t, i, j, e, h1, h2, ?_⟩
  · have := he.1.1.2
    cases hs : f.syntax' with
    | proto2 => rfl
    | proto3 => rw [hs] at this; simp at this
  · rw [(hm.msgAt h2).1]; rfl

/-! ### C41 -/

theorem label_ok {s scope} {label : Option (FieldLabel × Span)} {sp} (h : labelErrs s scope label sp = []) :
    labelDesc s scope label = some ((label.map (·.1)).getD .optional) ∧
    (scope ≠ .oneof → s = .proto2 → label ≠ none) ∧
    (label.map (·.1) = some .required → s = .proto2 ∧ scope = .message) ∧
    (scope = .oneof → label = none) := by
  rcases label with _ | ⟨l, lsp⟩
  · cases scope <;> cases s <;> simp [labelErrs, labelDesc] at h ⊢
  · cases scope <;> cases s <;> cases l <;> simp [labelErrs, labelDesc] at h ⊢

/-- C41: the rules for labels. A field outside of oneofs that is not a map has a written label in proto2; `required` is
only written in messages of proto2 files; fields of oneofs and maps have no written label. The label of the descriptor
is `repeated` for maps, otherwise the written one, or `optional` if none is written. -/
theorem C41_labels {name src : Bytes} {fd} (h : parse name src = some (.ok fd)) :
    ForTree src fun f => Paired f fd ∧ ∀ q pl x d, FieldAt f fd q pl x d →
      d.label = some (if isMapField x then .repeated else (x.label.map (·.1)).getD .optional) ∧
      (isMapField x = false → (∀ k, pl ≠ .oneof k) → f.syntax' = .proto2 → x.label ≠ none) ∧
      (x.label.map (·.1) = some .required → f.syntax' = .proto2 ∧ pl = .message) ∧
      ((∃ k, pl = .oneof k) → x.label = none) ∧ (isMapField x = true → x.label = none) := by
  refine forTree h fun f ht hm => ⟨hm.paired, fun q pl x d hf => ?_⟩
  have he := (field_errs hm hf).2.2.1
  have hd := (field_parts hm hf).2.1
  have normal : labelErrs f.syntax' pl.scope x.label x.span = [] → isMapField x = false →
      d.label = labelDesc f.syntax' pl.scope x.label →
      d.label = some (if isMapField x then .repeated else (x.label.map (·.1)).getD .optional) ∧
      (isMapField x = false → (∀ k, pl ≠ .oneof k) → f.syntax' = .proto2 → x.label ≠ none) ∧
      (x.label.map (·.1) = some .required → f.syntax' = .proto2 ∧ pl = .message) ∧
      ((∃ k, pl = .oneof k) → x.label = none) ∧ (isMapField x = true → x.label = none) := by
    intro he hmap hd
    obtain ⟨l1, l2, l3, l4⟩ := label_ok he
    refine ⟨by rw [hd, hmap, l1]; rfl, fun _ ho hs => l2 ?_ hs, fun hr => ⟨(l3 hr).1, ?_⟩, ?_, ?_⟩
    · cases pl with
      | oneof k => exact absurd rfl (ho k)
      | _ => simp [Place.scope]
    · have := (l3 hr).2
      cases pl with
      | message => rfl
      | _ => simp [Place.scope] at this
    · rintro ⟨k, rfl⟩; exact l4 rfl
    · intro h; rw [hmap] at h; cases h
  cases hk : x.kind with
  | normal t sp =>
    rw [hk] at he hd
    simp only [kindErrs, List.append_eq_nil_iff] at he
    exact normal he.1 (by simp [isMapField, hk]) hd
  | group sp b =>
    rw [hk] at he hd
    simp only [kindErrs, groupErrs, List.append_eq_nil_iff] at he
    exact normal he.1.1.1 (by simp [isMapField, hk]) hd
  | map s1 k s2 v s3 =>
    rw [hk] at he hd
    simp only [kindErrs, List.append_eq_nil_iff] at he
    have hmap : isMapField x = true := by simp [isMapField, hk]
    have hl : x.label = none := by
      cases hl : x.label with
      | none => rfl
      | some l =>
        have := he.1
        rw [hl] at this
        cases pl <;> simp [mapScopeErrs, Place.scope] at this
    refine ⟨by rw [hd, hmap]; rfl, fun h => (by rw [hmap] at h; cases h), fun h => ?_, fun _ => hl, fun _ => hl⟩
    rw [hl] at h; cases h

/-! ### C45 -/

theorem optsErrs_mem {os : List Opt} (h : optsErrs os = []) : ∀ o ∈ os, optionErrs o.body = [] := by
  simpa [optsErrs] using h

theorem file_options {name f fd} (hm : Made name f fd) :
    CarriedOver (f.options.map (·.body)) fd.options := by
  have : fd.options = (fileDesc name f).options := by rw [← hm.desc]
  rw [this]
  have he := hm.noErrs
  simp only [fileErrs, List.append_eq_nil_iff] at he
  exact carried_opts (optsErrs_mem he.2)

/-- C45 (files): the options of the file. -/
theorem C45_file {name src : Bytes} {fd} (h : parse name src = some (.ok fd)) :
    ForTree src fun f => Paired f fd ∧ CarriedOver (f.options.map (·.body)) fd.options := by
  exact forTree h fun f ht hm => ⟨hm.paired, file_options hm⟩

theorem message_options {name f fd} (hm : Made name f fd) :
    ∀ p s d b, MsgAt f fd p s d → s.body = some b →
      CarriedOver (b.options.map (·.body)) (d.options.map (·.uninterpretedOption)) ∧
      (∀ m, d.options = some m → m.mapEntry = none) ∧
      (∀ (i : Nat) y, d.oneofDecl[i]? = some y → CarriedOver (((bodyOneofs b)[i]?.elim [] (·.options)).map (·.body)) y.options) ∧
      (∀ (i : Nat) r, (extensionRanges b.extensions)[i]? = some r →
        ∃ y, d.extensionRange[i]? = some y ∧ CarriedOver (listed r.2) y.options) := by
  intro p s d b hat hb
  have he := bodyErrs_parts (hm.body_errs hat hb)
  have hd := srcDesc_body (s := f.syntax') hb
  rw [(hm.msgAt hat).1]
  refine ⟨?_, ?_, ?_, ?_⟩
  · rw [hd.2.2.2.2.2.2.2.2, Option.map_map]
    have : (MessageOptions.uninterpretedOption ∘ fun us => ({ uninterpretedOption := us } : MessageOptions)) = id := rfl
    rw [this, Option.map_id]
    exact carried_opts he.2.2.2
  · intro m hmo
    rw [hd.2.2.2.2.2.2.2.2] at hmo
    cases hn : nonEmpty (optsDesc b.options) with
    | none => rw [hn] at hmo; cases hmo
    | some us => rw [hn] at hmo; cases hmo; rfl
  · intro i y hy
    rw [hd.2.2.2.2.1, itemsOneofs_eq] at hy
    by_cases hi : i < (bodyOneofs b).length
    · rw [List.getElem?_append_left (by simpa using hi), List.getElem?_map, List.getElem?_eq_getElem hi] at hy
      cases hy
      rw [List.getElem?_eq_getElem hi]
      simp only [Option.elim_some]
      have hmem := List.getElem_mem hi
      obtain ⟨it, hit, hio⟩ := List.mem_filterMap.1 hmem
      have hie := he.1 it hit
      cases it with
      | oneof o' =>
        simp only [Option.some.injEq] at hio
        rw [← hio]
        rcases o' with ⟨n, os, fs, c, sp⟩
        simp only [Gen.itemErrs, oneofErrs, List.append_eq_nil_iff] at hie
        exact carried_opts (optsErrs_mem hie.1.1)
      | _ => cases hio
    · rw [List.getElem?_append_right (by simpa using hi), itemsSynth_eq _ 0, List.getElem?_map] at hy
      rw [List.getElem?_eq_none (by omega)]
      obtain ⟨z, _, hz⟩ := Option.map_eq_some_iff.1 hy
      subst hz
      exact ⟨nofun, rfl⟩
  · intro i r hr
    have heq : extensionRanges b.extensions = (allExtRanges b.extensions).map fun y => (y.2, y.1) := by
      simp [extensionRanges, allExtRanges, List.map_flatMap, Function.comp_def]
    rw [heq, List.getElem?_map] at hr
    obtain ⟨z, hz, rfl⟩ := Option.map_eq_some_iff.1 hr
    refine ⟨extRangeDesc (isMessageSet b.options) z.1 z.2, by rw [hd.2.2.2.2.2.1, List.getElem?_map, hz]; rfl, ?_⟩
    have hmem := List.mem_of_getElem? hz
    have hze := he.2.2.1 z hmem
    simp only [extRangeErrs, List.append_eq_nil_iff] at hze
    simp only [allExtRanges, List.mem_flatMap, List.mem_map] at hmem
    obtain ⟨e, hee, r', _, rfl⟩ := hmem
    exact carried_optList hze.1

/-- C45 (messages and groups): the options of the message, of its oneofs and of its extension ranges (every range of an
`extensions` statement carries the options of the statement); synthetic oneofs have no options. -/
theorem C45_messages {name src : Bytes} {fd} (h : parse name src = some (.ok fd)) :
    ForTree src fun f => Paired f fd ∧ ∀ p s d b, MsgAt f fd p s d → s.body = some b →
      CarriedOver (b.options.map (·.body)) (d.options.map (·.uninterpretedOption)) ∧
      (∀ m, d.options = some m → m.mapEntry = none) ∧
      (∀ (i : Nat) y, d.oneofDecl[i]? = some y → CarriedOver (((bodyOneofs b)[i]?.elim [] (·.options)).map (·.body)) y.options) ∧
      (∀ (i : Nat) r, (extensionRanges b.extensions)[i]? = some r →
        ∃ y, d.extensionRange[i]? = some y ∧ CarriedOver (listed r.2) y.options) := by
  exact forTree h fun f ht hm => ⟨hm.paired, message_options hm⟩

theorem enum_options {name f fd} (hm : Made name f fd) :
    ∀ p e d, EnumAt f fd p e d →
      CarriedOver (e.options.map (·.body)) d.options ∧
      ∀ (i : Nat) v, e.values[i]? = some v → ∃ y, d.value[i]? = some y ∧ CarriedOver (listed v.options) y.options := by
  intro p e d hat
  obtain ⟨hd, he⟩ := hm.enumAt hat
  subst hd
  simp only [Gen.enumErrs, enumValueErrs, List.append_eq_nil_iff, List.flatMap_eq_nil_iff] at he
  refine ⟨carried_opts (optsErrs_mem he.2), fun i v hv => ?_⟩
  refine ⟨enumValueDesc v, by simp [enumDesc, hv], ?_⟩
  have hmem := List.mem_of_getElem? hv
  exact carried_optList (he.1.1 v hmem).2

/-- C45 (enums): the options of the enum and of its values. -/
theorem C45_enums {name src : Bytes} {fd} (h : parse name src = some (.ok fd)) :
    ForTree src fun f => Paired f fd ∧ ∀ p e d, EnumAt f fd p e d →
      CarriedOver (e.options.map (·.body)) d.options ∧
      ∀ (i : Nat) v, e.values[i]? = some v → ∃ y, d.value[i]? = some y ∧ CarriedOver (listed v.options) y.options := by
  exact forTree h fun f ht hm => ⟨hm.paired, enum_options hm⟩

theorem service_options {name f fd} (hm : Made name f fd) :
    ∀ p s d, ServiceAt f fd p s d →
      CarriedOver (s.options.map (·.body)) d.options ∧
      ∀ (i : Nat) x, s.methods[i]? = some x → ∃ y, d.method[i]? = some y ∧
        CarriedOver (x.options.map (·.body)) y.options := by
  intro p s d hat
  obtain ⟨hd, he⟩ := hm.serviceAt hat
  subst hd
  simp only [serviceErrs, List.append_eq_nil_iff, List.flatMap_eq_nil_iff] at he
  refine ⟨carried_opts (optsErrs_mem he.2), fun i x hx => ?_⟩
  refine ⟨methodDesc x, by simp [serviceDesc, hx], ?_⟩
  have hmem := List.mem_of_getElem? hx
  exact carried_opts (optsErrs_mem (he.1 x hmem))

/-- C45 (services): the options of the service and of its methods. -/
theorem C45_services {name src : Bytes} {fd} (h : parse name src = some (.ok fd)) :
    ForTree src fun f => Paired f fd ∧ ∀ p s d, ServiceAt f fd p s d →
      CarriedOver (s.options.map (·.body)) d.options ∧
      ∀ (i : Nat) x, s.methods[i]? = some x → ∃ y, d.method[i]? = some y ∧
        CarriedOver (x.options.map (·.body)) y.options := by
  exact forTree h fun f ht hm => ⟨hm.paired, service_options hm⟩

theorem named_ne {o : OptionBody} {a b : Bytes} (hab : a ≠ b) (h : named a o = true) : named b o = false := by
  unfold named at h ⊢
  split at h
  · simp only [beq_iff_eq] at h
    simp [*]
  · cases h

theorem find_eraseP {a b : Bytes} (hab : a ≠ b) : ∀ l : List OptionBody,
    (l.eraseP (named a)).find? (named b) = l.find? (named b)
  | [] => rfl
  | o :: l => by
    by_cases ha : named a o = true
    · rw [List.eraseP_cons_of_pos ha, List.find?_cons, named_ne hab ha]
    · rw [List.eraseP_cons_of_neg ha, List.find?_cons, List.find?_cons, find_eraseP hab l]

theorem scalar_default {t : Ty} (hn : ∀ n, t ≠ .named n) {v : OptionValue} (h : scalarErrs t v = [])
    (hlt : ∀ i, v = .int i → i.value < 2 ^ 64) : ∃ s, scalarDefault t v = some s ∧ DefaultText t v s := by
  by_cases hi : (integerBounds t).isSome
  · obtain ⟨i, rfl, h1, s, h2, h3⟩ := integer_default hi h hlt
    refine ⟨s, h2, ?_⟩
    cases t with
    | double | float | bool | string | bytes => cases hi
    | named n => exact absurd rfl (hn n)
    | _ => exact ⟨h1, h3⟩
  · cases t with
    | double | float =>
      simp only [scalarErrs] at h
      cases hv : v.asF64 with
      | none => rw [hv] at h; simp at h
      | some x =>
        refine ⟨_, by simp only [scalarDefault, hv]; rfl, ?_⟩
        cases v with
        | ident neg i sp =>
          simp only [OptionValue.asF64] at hv
          split at hv
          · rename_i hi
            cases hv
            exact .inr ⟨hi, by simp only [FloatFmt.plain_nan]; rfl⟩
          · split at hv
            · rename_i hi
              cases hv
              exact .inl ⟨hi, by simp only [FloatFmt.plain_inf]; cases neg <;> rfl⟩
            · cases hv
        | int i => cases hv; rfl
        | float x => cases hv; rfl
        | string => cases hv
        | aggregate => cases hv
    | bool =>
      simp only [scalarErrs] at h
      cases v with
      | ident neg i sp =>
        simp only [OptionValue.asBool] at h ⊢
        cases neg with
        | true => simp at h
        | false =>
          by_cases h1 : i.value = b!"false"
          · exact ⟨b!"false", by simp [scalarDefault, OptionValue.asBool, h1], rfl, .inr h1, h1.symm⟩
          · by_cases h2 : i.value = b!"true"
            · exact ⟨b!"true", by simp [scalarDefault, OptionValue.asBool, h2], rfl, .inl h2, h2.symm⟩
            · simp [h1, h2] at h
      | _ => simp [OptionValue.asBool] at h
    | string =>
      simp only [scalarErrs] at h
      cases v with
      | string x =>
        simp only [stringErrs] at h
        by_cases hu : utf8Valid x.value = true
        · exact ⟨x.value, by simp [scalarDefault, stringDefault, hu], hu, rfl⟩
        · simp [hu] at h
      | _ => simp [stringErrs] at h
    | bytes =>
      simp only [scalarErrs] at h
      cases v with
      | string x => exact ⟨x.display, rfl, rfl⟩
      | _ => simp [bytesDefault] at h
    | named n => exact absurd rfl (hn n)
    | _ => simp [integerBounds] at hi

theorem field_options {name f fd} (hm : Made name f fd) {src : Bytes} (ht : TreeOf src f) :
    ∀ q pl x d, FieldAt f fd q pl x d →
      CarriedOver (((listed x.options).eraseP (named b!"default")).eraseP (named b!"json_name")) d.options ∧
      ((listed x.options).find? (named b!"json_name") = none → d.jsonName = none) ∧
      (∀ o, (listed x.options).find? (named b!"json_name") = some o →
        ∃ s, o.value = .string s ∧ utf8Valid s.value = true ∧ d.jsonName = some s.value) ∧
      ((listed x.options).find? (named b!"default") = none → d.defaultValue = none) ∧
      (∀ o, (listed x.options).find? (named b!"default") = some o → f.syntax' = .proto2 ∧
        x.label.map (·.1) ≠ some .repeated ∧
        ∃ t sp s, x.kind = .normal t sp ∧ d.defaultValue = some s ∧ DefaultText t o.value s) := by
  intro q pl x d hf
  obtain ⟨_, e2, e3, e4⟩ := field_errs hm hf
  obtain ⟨_, _, _, _, p5, p6, p7, _, _⟩ := field_parts hm hf
  simp only [tailErrs, List.append_eq_nil_iff] at e4
  have hj : jsonOf x.options = (listed x.options).find? (named b!"json_name") := by
    rw [jsonOf, pick_eq, opts1, drop1_eq, find_eraseP (by decide)]
  have hdf : dfltOf x.options = (listed x.options).find? (named b!"default") := by rw [dfltOf, pick_eq]
  refine ⟨?_, ?_, ?_, ?_, ?_⟩
  · rw [p6]
    have := carried_optList e4.2
    simpa only [opts2, opts1, drop1_eq] using this
  · intro hn; rw [p7, hj, hn]; rfl
  · intro o ho
    rw [hj, ho] at e4 p7
    simp only [jsonErrs] at e4
    simp only [Option.bind_some] at p7
    rw [p7]
    cases hv : o.value with
    | string s =>
      rw [hv] at e4
      simp only [stringErrs] at e4
      by_cases hu : utf8Valid s.value = true
      · exact ⟨s, rfl, hu, by simp [stringDefault, hu]⟩
      · simp [hu] at e4
    | _ => rw [hv] at e4; simp [stringErrs] at e4
  · intro hn
    rw [p5, hdf, hn]
    unfold kindDefault
    cases x.kind <;> simp
  · intro o ho
    rw [hdf, ho] at e2 e3 p5
    simp only [defaultCheckErrs] at e2
    cases hk : x.kind with
    | map => rw [hk] at e2; simp [isMap] at e2
    | group sp b => rw [hk] at e3; simp [kindErrs, groupErrs, groupDfltErrs] at e3
    | normal t sp =>
      rw [hk] at e2 e3 p5
      simp only [isMap] at e2
      have hlab : x.label.map (·.1) ≠ some .repeated := by
        intro hr; rw [hr] at e2; simp at e2
      have hsyn : f.syntax' = .proto2 := by
        cases hs : f.syntax' with
        | proto2 => rfl
        | proto3 => rw [hs] at e2; simp [hlab] at e2
      refine ⟨hsyn, hlab, ?_⟩
      simp only [kindErrs, scalarDfltErrs, List.append_eq_nil_iff] at e3
      by_cases hn : ∃ n, t = .named n
      · obtain ⟨n, rfl⟩ := hn
        refine ⟨_, _, o.value.toTokenString, rfl, p5, ?_⟩
        cases hv : o.value with
        | ident neg i sp => cases neg <;> rfl
        | _ => rfl
      · have hn' : ∀ n, t ≠ .named n := fun n h => hn ⟨n, h⟩
        obtain ⟨s, h1, h2⟩ := scalar_default hn' e3.2 fun i hi =>
          default_int_lt ht hf (List.mem_of_find?_eq_some ho) hi
        refine ⟨t, sp, s, rfl, ?_, h2⟩
        rw [p5, ← h1]
        cases t with
        | named n => exact absurd rfl (hn' n)
        | _ => rfl

/-- C45 (fields and extensions): the first option `default` becomes `default_value`, the first `json_name` becomes
`json_name` (a UTF-8 string), all others are carried over. Defaults occur only on fields of proto2 files that are neither
repeated nor maps or groups. -/
theorem C45_fields {name src : Bytes} {fd} (h : parse name src = some (.ok fd)) :
    ForTree src fun f => Paired f fd ∧ ∀ q pl x d, FieldAt f fd q pl x d →
      CarriedOver (((listed x.options).eraseP (named b!"default")).eraseP (named b!"json_name")) d.options ∧
      ((listed x.options).find? (named b!"json_name") = none → d.jsonName = none) ∧
      (∀ o, (listed x.options).find? (named b!"json_name") = some o →
        ∃ s, o.value = .string s ∧ utf8Valid s.value = true ∧ d.jsonName = some s.value) ∧
      ((listed x.options).find? (named b!"default") = none → d.defaultValue = none) ∧
      (∀ o, (listed x.options).find? (named b!"default") = some o → f.syntax' = .proto2 ∧
        x.label.map (·.1) ≠ some .repeated ∧
        ∃ t sp s, x.kind = .normal t sp ∧ d.defaultValue = some s ∧ DefaultText t o.value s) := by
  exact forTree h fun f ht hm => ⟨hm.paired, field_options hm ht⟩

end
end Verif
