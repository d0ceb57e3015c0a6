import Verif.Proofs.Cpl7
import Verif.Proofs.Source
/-!
The descriptor and the presence of errors do not depend on the positions and comments kept in the tree.
-/
namespace Verif.Gen
open Ast

theorem er_list {α : Type} [Erase α] (l : List α) : er l = l.map er := rfl
theorem er_some {α : Type} [Erase α] (a : α) : er (some a) = some (er a) := rfl
theorem ite_nil {α : Type} {c : Prop} [Decidable c] {a : α} : (if c then [a] else []) = [] ↔ ¬ c := by
  split <;> simp [*]
theorem er_none {α : Type} [Erase α] : er (none : Option α) = none := rfl

theorem dotJoin_er : ∀ ps : List Ident, dotJoin (er ps) = dotJoin ps
  | [] => rfl
  | [_] => rfl
  | p :: q :: ps => by
    have := dotJoin_er (q :: ps)
    simp only [er_list, List.map_cons] at this ⊢
    simp only [dotJoin, this]
    rfl

theorem fullIdent_er (f : FullIdent) : (er f).display = f.display := by
  obtain ⟨ps⟩ := f
  cases ps with
  | nil => rfl
  | cons p ps => exact congrArg some (dotJoin_er (p :: ps))

theorem tname_er (t : Ast.TypeName) : tname (er t) = tname t := by
  have h2 : (er t).leadingDot.isSome = t.leadingDot.isSome := by
    show (Option.map _ t.leadingDot).isSome = _
    simp
  have h3 : dotJoin (er t).name.parts = dotJoin t.name.parts := dotJoin_er t.name.parts
  unfold tname
  rw [h2, h3]

theorem namePart_er (p : OptionNamePart) : namePartDesc (er p) = namePartDesc p := by
  cases p with
  | ident i => rfl
  | extension t s => show NamePart.mk (tname (er t)) true = _; rw [tname_er]; rfl

theorem nameParts_er (ps : List OptionNamePart) : (er ps).map namePartDesc = ps.map namePartDesc := by
  simp [er_list, Function.comp_def, namePart_er]

theorem asI64_er (i : Int') : (er i).asI64 = i.asI64 := rfl
theorem asI32_er (i : Int') : (er i).asI32 = i.asI32 := rfl

theorem option_er (o : OptionBody) : optionDesc (er o) = optionDesc o := by
  obtain ⟨name, v⟩ := o
  have h : (er (OptionBody.mk name v)) = ⟨er name, er v⟩ := rfl
  rw [h]
  unfold optionDesc
  cases v with
  | ident n i s => cases n <;> simp [er, ← nameParts_er name] <;> rfl
  | int i => rw [← nameParts_er name]; rfl
  | float i => rw [← nameParts_er name]; rfl
  | string i => rw [← nameParts_er name]; rfl
  | aggregate i s => rw [← nameParts_er name]; rfl

theorem optionErrs_er (o : OptionBody) : optionErrs (er o) = [] ↔ optionErrs o = [] := by
  obtain ⟨name, v⟩ := o
  cases v with
  | ident n i s => cases n <;> simp [optionErrs, er]
  | int i =>
    have : (er (OptionBody.mk name (.int i))) = ⟨er name, .int (er i)⟩ := rfl
    rw [this]
    exact ite_nil.trans (ite_nil (c := i.negative ∧ i.asI64 = none) (a := ParseErrorKind.integerValueOutOfRange b!"a 64-bit integer" i (-9223372036854775808) 18446744073709551615 i.span)).symm
  | float i => exact Iff.rfl
  | string i => exact Iff.rfl
  | aggregate i s => exact Iff.rfl

theorem opts_er (os : List Opt) : optsDesc (er os) = optsDesc os := by
  unfold optsDesc
  rw [er_list, List.map_map]
  exact List.map_congr_left fun o _ => option_er o.body

theorem flatMap_er {α β : Type} [Erase α] (F : α → List β) (os : List α) (h : ∀ o ∈ os, (F (er o) = [] ↔ F o = [])) :
    (er os).flatMap F = [] ↔ os.flatMap F = [] := by
  rw [er_list]
  simp only [List.flatMap_eq_nil_iff, List.mem_map, forall_exists_index, and_imp, forall_apply_eq_imp_iff₂]
  exact forall_congr' fun o => forall_congr' fun ho => h o ho

theorem optsErrs_er (os : List Opt) : optsErrs (er os) = [] ↔ optsErrs os = [] :=
  flatMap_er _ os fun o _ => optionErrs_er o.body

theorem optList_er (l : Option OptionList) : optListDesc (er l) = optListDesc l := by
  cases l with
  | none => rfl
  | some l =>
    show nonEmpty ((er l.options).map optionDesc) = nonEmpty _
    simp [er_list, Function.comp_def, option_er]

theorem optListErrs_er (l : Option OptionList) : optListErrs (er l) = [] ↔ optListErrs l = [] := by
  cases l with
  | none => exact Iff.rfl
  | some l => exact flatMap_er _ l.options fun o _ => optionErrs_er o

theorem messageNumber_er (i : Int') : messageNumber (er i) = messageNumber i := rfl

theorem messageNumberErrs_er (i : Int') : messageNumberErrs (er i) = [] ↔ messageNumberErrs i = [] := by
  unfold messageNumberErrs; rw [messageNumber_er, ite_nil, ite_nil]

theorem enumNumberErrs_er (i : Int') : enumNumberErrs (er i) = [] ↔ enumNumberErrs i = [] := by
  unfold enumNumberErrs; rw [asI32_er, ite_nil, ite_nil]

theorem range_er (ms : Bool) (r : ReservedRange) : rangeDesc ms (er r) = rangeDesc ms r := by
  obtain ⟨a, b⟩ := r
  cases b <;> rfl

theorem extRange_er (ms : Bool) (os : Option OptionList) (r : ReservedRange) :
    extRangeDesc ms (er os) (er r) = extRangeDesc ms os r := by
  unfold extRangeDesc
  rw [optList_er]
  obtain ⟨a, b⟩ := r
  cases b <;> rfl

theorem enumRange_er (r : ReservedRange) : enumRangeDesc (er r) = enumRangeDesc r := by
  obtain ⟨a, b⟩ := r
  cases b <;> rfl

theorem rangeErrs_er (r : ReservedRange) : rangeErrs (er r) = [] ↔ rangeErrs r = [] := by
  obtain ⟨a, b⟩ := r
  have h := messageNumberErrs_er a
  cases b with
  | none => simpa [rangeErrs, er] using h
  | int i =>
    show messageNumberErrs (er a) ++ messageNumberErrs (er i) = [] ↔ messageNumberErrs a ++ messageNumberErrs i = []
    simp [h, messageNumberErrs_er]
  | max s => simpa [rangeErrs, er] using h

theorem extRangeErrs_er (os : Option OptionList) (r : ReservedRange) :
    extRangeErrs (er os) (er r) = [] ↔ extRangeErrs os r = [] := by
  simp [extRangeErrs, optListErrs_er, rangeErrs_er]

theorem enumRangeErrs_er (r : ReservedRange) : enumRangeErrs (er r) = [] ↔ enumRangeErrs r = [] := by
  obtain ⟨a, b⟩ := r
  have h := enumNumberErrs_er a
  cases b with
  | none => simpa [enumRangeErrs, er] using h
  | int i =>
    show enumNumberErrs (er a) ++ enumNumberErrs (er i) = [] ↔ enumNumberErrs a ++ enumNumberErrs i = []
    simp [h, enumNumberErrs_er]
  | max s => simpa [enumRangeErrs, er] using h

theorem flatMap_er' {α β : Type} [Erase α] [Erase β] (F : α → List β) (h : ∀ o, F (er o) = er (F o)) (os : List α) :
    (er os).flatMap F = er (os.flatMap F) := by
  simp only [er_list]
  simp [List.flatMap_map, List.map_flatMap, h, er_list]

theorem resRanges_er (r : Reserved) : resRanges (er r) = er (resRanges r) := by
  obtain ⟨k, c, s⟩ := r
  cases k <;> rfl
theorem resNames_er (r : Reserved) : resNames (er r) = er (resNames r) := by
  obtain ⟨k, c, s⟩ := r
  cases k <;> rfl
theorem allRanges_er (rs : List Reserved) : allRanges (er rs) = er (allRanges rs) := flatMap_er' _ resRanges_er rs
theorem allNames_er (rs : List Reserved) : allNames (er rs) = er (allNames rs) := flatMap_er' _ resNames_er rs
theorem allExtRanges_er (es : List Extensions) : allExtRanges (er es) = er (allExtRanges es) :=
  flatMap_er' _ (fun e => by
    show (er e.ranges).map (fun r => (er e.options, r)) = _
    simp only [er_list, List.map_map]
    rfl) es

theorem map_er {α β : Type} [Erase α] (F : α → β) (h : ∀ o, F (er o) = F o) (os : List α) : (er os).map F = os.map F := by
  rw [er_list, List.map_map]
  exact List.map_congr_left fun o _ => h o

theorem identValue_er (ns : List Ident) : (er ns).map (·.value) = ns.map (·.value) := map_er _ (fun _ => rfl) ns

theorem enumValue_er (v : EnumValue) : enumValueDesc (er v) = enumValueDesc v := by
  show EnumValueDescriptorProto.mk (some v.name.value) (er v.number).asI32 (optListDesc (er v.options)) = _
  rw [optList_er]; rfl

theorem enumValueErrs_er (v : EnumValue) : enumValueErrs (er v) = [] ↔ enumValueErrs v = [] := by
  show enumNumberErrs (er v.number) ++ optListErrs (er v.options) = [] ↔ enumNumberErrs v.number ++ optListErrs v.options = []
  simp [enumNumberErrs_er, optListErrs_er]

theorem enum_er (e : Enum) : enumDesc (er e) = enumDesc e := by
  show EnumDescriptorProto.mk (some e.name.value) ((er e.values).map enumValueDesc) (nonEmpty (optsDesc (er e.options)))
    ((allRanges (er e.reserved)).map enumRangeDesc) ((allNames (er e.reserved)).map (·.value)) = _
  rw [map_er _ enumValue_er, opts_er, allRanges_er, allNames_er, map_er _ enumRange_er, identValue_er]
  rfl

theorem enumErrs_er (e : Enum) : enumErrs (er e) = [] ↔ enumErrs e = [] := by
  show (er e.values).flatMap enumValueErrs ++ (allRanges (er e.reserved)).flatMap enumRangeErrs ++ optsErrs (er e.options) = [] ↔
    e.values.flatMap enumValueErrs ++ (allRanges e.reserved).flatMap enumRangeErrs ++ optsErrs e.options = []
  rw [List.append_eq_nil_iff, List.append_eq_nil_iff, List.append_eq_nil_iff, List.append_eq_nil_iff, allRanges_er,
    optsErrs_er, flatMap_er _ _ fun o _ => enumValueErrs_er o, flatMap_er _ _ fun o _ => enumRangeErrs_er o]

theorem method_er (x : Method) : methodDesc (er x) = methodDesc x := by
  show MethodDescriptorProto.mk (some x.name.value) (some (tname (er x.inputTy))) (some (tname (er x.outputTy)))
    (nonEmpty (optsDesc (er x.options))) (if (Option.map er x.clientStreaming).isSome then some true else none)
    (if (Option.map er x.serverStreaming).isSome then some true else none) = _
  rw [opts_er, tname_er, tname_er, Option.isSome_map, Option.isSome_map]
  rfl

theorem service_er (x : Service) : serviceDesc (er x) = serviceDesc x := by
  show ServiceDescriptorProto.mk (some x.name.value) ((er x.methods).map methodDesc) (nonEmpty (optsDesc (er x.options))) = _
  rw [opts_er, map_er _ method_er]
  rfl

theorem serviceErrs_er (x : Service) : serviceErrs (er x) = [] ↔ serviceErrs x = [] := by
  show (er x.methods).flatMap (fun x => optsErrs x.options) ++ optsErrs (er x.options) = [] ↔
    x.methods.flatMap (fun x => optsErrs x.options) ++ optsErrs x.options = []
  rw [List.append_eq_nil_iff, List.append_eq_nil_iff, optsErrs_er, flatMap_er _ _ fun o _ => optsErrs_er o.options]

/-! ### Fields -/

theorem labelDesc_er (s scope) (l : Option (FieldLabel × Span)) : labelDesc s scope (er l) = labelDesc s scope l := by
  rcases l with _ | ⟨a, b⟩
  · rfl
  · cases scope <;> cases a <;> rfl

theorem labelErrs_er (s scope) (l : Option (FieldLabel × Span)) (sp sp') : labelErrs s scope (er l) sp = [] ↔ labelErrs s scope l sp' = [] := by
  rcases l with _ | ⟨a, b⟩
  · cases scope <;> simp [labelErrs, er]
  · cases scope <;> cases a <;> simp [labelErrs, er]

theorem isP3_er (s) (l : Option (FieldLabel × Span)) : isP3 s (er l) = isP3 s l := by
  rcases l with _ | ⟨a, b⟩
  · rfl
  · cases a <;> rfl

theorem hasName_er (o : OptionBody) (n : Bytes) : (er o).hasName n = o.hasName n := by
  obtain ⟨name, v⟩ := o
  rcases name with _ | ⟨_ | _, _ | _⟩ <;> rfl

theorem takeFirst_er (n : Bytes) : ∀ os : List OptionBody, takeFirst n (er os) = er (takeFirst n os)
  | [] => rfl
  | o :: os => by
    have ih := takeFirst_er n os
    rw [er_list] at ih
    rw [er_list, List.map_cons, takeFirst, takeFirst, hasName_er, ih]
    split
    · rfl
    · cases takeFirst n os with
      | none => rfl
      | some x => rfl

theorem takeOption_er (l : Option OptionList) (n : Bytes) : takeOption (er l) n = er (takeOption l n) := by
  cases l with
  | none => rfl
  | some l =>
    have := takeFirst_er n l.options
    show (match takeFirst n (er l.options) with
      | none => (none, some (er l))
      | some (o, rest) => (some o, some ⟨rest, er l.span⟩)) = er (match takeFirst n l.options with
      | none => (none, some l)
      | some (o, rest) => (some o, some ⟨rest, l.span⟩))
    rw [this]
    cases takeFirst n l.options with
    | none => rfl
    | some x => rfl

theorem pick_er (l : Option OptionList) (n : Bytes) : pick (er l) n = er (pick l n) := by
  unfold pick; rw [takeOption_er]; rfl
theorem drop1_er (l : Option OptionList) (n : Bytes) : drop1 (er l) n = er (drop1 l n) := by
  unfold drop1; rw [takeOption_er]; rfl
theorem opts1_er (l : Option OptionList) : opts1 (er l) = er (opts1 l) := drop1_er _ _
theorem opts2_er (l : Option OptionList) : opts2 (er l) = er (opts2 l) := by unfold opts2; rw [opts1_er, drop1_er]
theorem dfltOf_er (l : Option OptionList) : dfltOf (er l) = er (dfltOf l) := pick_er _ _
theorem jsonOf_er (l : Option OptionList) : jsonOf (er l) = er (jsonOf l) := by unfold jsonOf; rw [opts1_er, pick_er]

theorem stringDefault_er (v : OptionValue) : stringDefault (er v) = stringDefault v := by cases v <;> rfl
theorem integerDefault_er (conv : Int' → Option Int) (h : ∀ i, conv (er i) = conv i) (v : OptionValue) :
    integerDefault conv (er v) = integerDefault conv v := by
  cases v with
  | int i => show (conv (er i)).map decimalInt = _; rw [h]; rfl
  | _ => rfl
theorem bytesDefault_er (v : OptionValue) : bytesDefault (er v) = bytesDefault v := by cases v <;> rfl
theorem asF64_er (v : OptionValue) : (er v).asF64 = v.asF64 := by cases v <;> rfl
theorem asBool_er (v : OptionValue) : (er v).asBool = v.asBool := by cases v <;> rfl
theorem toTokenString_er [FloatFmt] (v : OptionValue) : (er v).toTokenString = v.toTokenString := by cases v <;> rfl

theorem scalarDefault_er [FloatFmt] (ty : Ty) (v : OptionValue) : scalarDefault (er ty) (er v) = scalarDefault ty v := by
  cases ty <;> first
    | rfl
    | exact integerDefault_er _ (fun _ => rfl) v
    | exact stringDefault_er v
    | exact bytesDefault_er v
    | exact congrArg (Option.map _) (asF64_er v)
    | exact congrArg (Option.map _) (asBool_er v)

theorem stringErrs_er (v : OptionValue) : stringErrs (er v) = [] ↔ stringErrs v = [] := by
  cases v with
  | string s =>
    show (if utf8Valid s.value then [] else _) = [] ↔ (if utf8Valid s.value then [] else _) = []
    split <;> simp
  | _ => simp [stringErrs, er]

theorem integerErrs_er (c : IntSort) (h : ∀ i, c.conv (er i) = c.conv i) (v : OptionValue) :
    integerErrs c (er v) = [] ↔ integerErrs c v = [] := by
  cases v with
  | int i =>
    show (if c.conv (er i) = none then [ParseErrorKind.integerValueOutOfRange _ _ _ _ _] else []) = [] ↔
      (if c.conv i = none then [ParseErrorKind.integerValueOutOfRange _ _ _ _ _] else []) = []
    rw [h, ite_nil, ite_nil]
  | _ => simp [integerErrs, er]

theorem scalarErrs_er (ty : Ty) (v : OptionValue) : scalarErrs (er ty) (er v) = [] ↔ scalarErrs ty v = [] := by
  cases ty <;> first
    | exact Iff.rfl
    | exact integerErrs_er _ (fun _ => rfl) v
    | exact stringErrs_er v
    | (show (if (er v).asF64 = none then [ParseErrorKind.valueInvalidType _ _ _] else []) = [] ↔
        (if v.asF64 = none then [ParseErrorKind.valueInvalidType _ _ _] else []) = []
       rw [asF64_er, ite_nil, ite_nil])
    | (show (if (er v).asBool = none then [ParseErrorKind.valueInvalidType _ _ _] else []) = [] ↔
        (if v.asBool = none then [ParseErrorKind.valueInvalidType _ _ _] else []) = []
       rw [asBool_er, ite_nil, ite_nil])
    | (show (if bytesDefault (er v) = none then [ParseErrorKind.valueInvalidType _ _ _] else []) = [] ↔
        (if bytesDefault v = none then [ParseErrorKind.valueInvalidType _ _ _] else []) = []
       rw [bytesDefault_er, ite_nil, ite_nil])

theorem defaultCheckErrs_er (s) (l : Option (FieldLabel × Span)) (m : Bool) (d : Option OptionBody) :
    defaultCheckErrs s (er l) m (er d) = [] ↔ defaultCheckErrs s l m d = [] := by
  have : (er l).map (·.1) = l.map (·.1) := by rcases l with _ | ⟨a, b⟩ <;> rfl
  cases d with
  | none => exact Iff.rfl
  | some o =>
    rw [er_some]
    unfold defaultCheckErrs
    rw [this]
    simp only
    split
    · simp
    · split
      · simp
      · rw [ite_nil, ite_nil]

theorem isMap_er (k : FieldKind) : isMap (er k) = isMap k := by cases k <;> rfl
theorem kindName_er (k : FieldKind) (n) : kindName (er k) n = kindName k n := by cases k <;> rfl
theorem kindLabel_er (s scope) (l : Option (FieldLabel × Span)) (k : FieldKind) :
    kindLabel s scope (er l) (er k) = kindLabel s scope l k := by
  cases k <;> first | rfl | exact labelDesc_er s scope l
theorem protoTy_er (t : Ty) : (er t).protoTy = t.protoTy := by cases t <;> rfl
theorem tyNameOf_er (t : Ty) : tyNameOf (er t) = tyNameOf t := by
  cases t <;> first | rfl | exact congrArg some (tname_er _)
theorem kindType_er (k : FieldKind) : kindType (er k) = kindType k := by
  cases k <;> first | rfl | exact protoTy_er _
theorem kindTypeName_er (k : FieldKind) (n) : kindTypeName (er k) n = kindTypeName k n := by
  cases k with
  | normal t s => cases t <;> first | rfl | exact congrArg some (tname_er _)
  | _ => rfl
theorem kindDefault_er [FloatFmt] (k : FieldKind) (d : Option OptionBody) :
    kindDefault (er k) (er d) = kindDefault k d := by
  cases d with
  | none => cases k with
    | normal t s => cases t <;> rfl
    | _ => rfl
  | some o => cases k with
    | normal t s =>
      have hs := scalarDefault_er t o.value
      cases t <;> first | exact hs | exact congrArg some (toTokenString_er o.value)
    | _ => rfl
theorem entryOf_er (n : Bytes) (k v : Ty) : entryOf n (er k) (er v) = entryOf n k v := by
  unfold entryOf; rw [protoTy_er, protoTy_er, tyNameOf_er]
theorem validKey_er (k : Ty) : validKey (er k) = validKey k := by cases k <;> rfl

theorem mapScopeErrs_er (l : Option (FieldLabel × Span)) (sp sp' scope) :
    mapScopeErrs (er l) sp scope = [] ↔ mapScopeErrs l sp' scope = [] := by
  rcases l with _ | ⟨a, b⟩ <;> cases scope <;> simp [mapScopeErrs, er]
theorem groupDfltErrs_er (d : Option OptionBody) : groupDfltErrs (er d) = [] ↔ groupDfltErrs d = [] := by
  cases d <;> simp [groupDfltErrs, er]
theorem scalarDfltErrs_er (ty : Ty) (d : Option OptionBody) : scalarDfltErrs (er ty) (er d) = [] ↔ scalarDfltErrs ty d = [] := by
  cases d with
  | none => exact Iff.rfl
  | some o => exact scalarErrs_er ty o.value
theorem groupErrs_er (s scope) (l : Option (FieldLabel × Span)) (sp sp') (d : Option OptionBody) :
    groupErrs s scope (er l) sp (er d) = [] ↔ groupErrs s scope l sp' d = [] := by
  unfold groupErrs
  rw [List.append_eq_nil_iff, List.append_eq_nil_iff, List.append_eq_nil_iff, List.append_eq_nil_iff, labelErrs_er,
    groupDfltErrs_er, ite_nil, ite_nil]
theorem jsonErrs_er (d : Option OptionBody) : jsonErrs (er d) = [] ↔ jsonErrs d = [] := by
  cases d with
  | none => exact Iff.rfl
  | some o => exact stringErrs_er o.value
theorem tailErrs_er (l : Option OptionList) : tailErrs (er l) = [] ↔ tailErrs l = [] := by
  unfold tailErrs
  rw [List.append_eq_nil_iff, List.append_eq_nil_iff, jsonOf_er, opts2_er, jsonErrs_er, optListErrs_er]

theorem field_er [FloatFmt] (s scope oi) (f : Field) : fieldDesc s scope oi (er f) = fieldDesc s scope oi f := by
  rw [Parse.er_field]
  show mkField ⟨kindName (er f.kind) f.name.value, kindLabel s scope (er f.label) (er f.kind), kindType (er f.kind),
      kindTypeName (er f.kind) f.name.value, kindDefault (er f.kind) (dfltOf (er f.options)), []⟩
    (messageNumber (er f.number)) (if isP3 s (er f.label) then some true else none) oi (er f.options) = _
  rw [kindName_er, kindLabel_er, kindType_er, kindTypeName_er, dfltOf_er, kindDefault_er, isP3_er, messageNumber_er]
  unfold mkField fieldDesc mkField
  rw [jsonOf_er, opts2_er, optList_er]
  congr 1
  cases jsonOf f.options with
  | none => rfl
  | some o => exact stringDefault_er o.value

theorem extField_er [FloatFmt] (s) (t : Ast.TypeName) (f : Field) : extFieldDesc s (er t) (er f) = extFieldDesc s t f := by
  unfold extFieldDesc
  rw [field_er, tname_er]

theorem fields_er [FloatFmt] (s scope oi) (fs : List Field) :
    (er fs).map (fieldDesc s scope oi) = fs.map (fieldDesc s scope oi) := map_er _ (field_er s scope oi) fs

theorem extFields_er [FloatFmt] (s) (t : Ast.TypeName) (fs : List Field) :
    (er fs).map (extFieldDesc s (er t)) = fs.map (extFieldDesc s t) := by
  rw [er_list, List.map_map]
  exact List.map_congr_left fun o _ => extField_er s t o

theorem er_item_cons (x : MessageItem) (xs : List MessageItem) : er (x :: xs) = er x :: er xs := rfl
theorem er_item_field (f : Field) : er (MessageItem.field f) = .field (er f) := rfl
theorem er_item_enum (f : Enum) : er (MessageItem.enum f) = .enum (er f) := rfl
theorem er_item_message (f : Message) : er (MessageItem.message f) = .message (er f) := rfl
theorem er_item_extend (f : Extend) : er (MessageItem.extend f) = .extend (er f) := rfl
theorem er_item_oneof (f : Oneof) : er (MessageItem.oneof f) = .oneof (er f) := rfl
theorem er_field_label (f : Field) : (er f).label = er f.label := by rw [Parse.er_field]
theorem er_field_name (f : Field) : (er f).name.value = f.name.value := by rw [Parse.er_field]; rfl
theorem er_oneof_fields (f : Oneof) : (er f).fields = er f.fields := by rw [Parse.er_oneof]
theorem er_extend_fields (f : Extend) : (er f).fields = er f.fields := by rw [Parse.er_extend]
theorem er_extend_ty (f : Extend) : (er f).extendee = er f.extendee := by rw [Parse.er_extend]

theorem itemsFields_er [FloatFmt] (s) : ∀ (r y : Nat) (xs : List MessageItem), itemsFields s r y (er xs) = itemsFields s r y xs
  | _, _, [] => rfl
  | r, y, x :: xs => by
    have ih := fun r y => itemsFields_er s r y xs
    rw [er_item_cons]
    cases x with
    | field f => rw [er_item_field, itemsFields, itemsFields, er_field_label, isP3_er, field_er, field_er, ih, ih]
    | enum e => rw [er_item_enum]; simp only [itemsFields, ih]
    | message e => rw [er_item_message]; simp only [itemsFields, ih]
    | extend e => rw [er_item_extend]; simp only [itemsFields, ih]
    | oneof o => rw [er_item_oneof, itemsFields, itemsFields, er_oneof_fields, fields_er, ih]

theorem itemsExts_er [FloatFmt] (s) : ∀ (xs : List MessageItem), itemsExts s (er xs) = itemsExts s xs
  | [] => rfl
  | x :: xs => by
    have ih := itemsExts_er s xs
    rw [er_item_cons]
    cases x with
    | field f => rw [er_item_field]; simp only [itemsExts, ih]
    | enum e => rw [er_item_enum]; simp only [itemsExts, ih]
    | message e => rw [er_item_message]; simp only [itemsExts, ih]
    | extend e => rw [er_item_extend, itemsExts, itemsExts, er_extend_fields, er_extend_ty, extFields_er, ih]
    | oneof o => rw [er_item_oneof]; simp only [itemsExts, ih]

theorem itemsEnums_er : ∀ (xs : List MessageItem), itemsEnums (er xs) = itemsEnums xs
  | [] => rfl
  | x :: xs => by
    have ih := itemsEnums_er xs
    rw [er_item_cons]
    cases x with
    | field f => rw [er_item_field]; simp only [itemsEnums, ih]
    | enum e => rw [er_item_enum]; simp only [itemsEnums, ih, enum_er]
    | message e => rw [er_item_message]; simp only [itemsEnums, ih]
    | extend e => rw [er_item_extend]; simp only [itemsEnums, ih]
    | oneof o => rw [er_item_oneof]; simp only [itemsEnums, ih]

theorem oneof_er (o : Oneof) : oneofDesc (er o) = oneofDesc o := by
  rw [Parse.er_oneof]
  show OneofDescriptorProto.mk (some o.name.value) (nonEmpty (optsDesc (er o.options))) = _
  rw [opts_er]; rfl

theorem itemsOneofs_er : ∀ (xs : List MessageItem), itemsOneofs (er xs) = itemsOneofs xs
  | [] => rfl
  | x :: xs => by
    have ih := itemsOneofs_er xs
    rw [er_item_cons]
    cases x with
    | field f => rw [er_item_field]; simp only [itemsOneofs, ih]
    | enum e => rw [er_item_enum]; simp only [itemsOneofs, ih]
    | message e => rw [er_item_message]; simp only [itemsOneofs, ih]
    | extend e => rw [er_item_extend]; simp only [itemsOneofs, ih]
    | oneof o => rw [er_item_oneof]; simp only [itemsOneofs, ih, oneof_er]

theorem countOneofs_er : ∀ (xs : List MessageItem), countOneofs (er xs) = countOneofs xs
  | [] => rfl
  | x :: xs => by
    have ih := countOneofs_er xs
    rw [er_item_cons]
    cases x with
    | field f => rw [er_item_field]; simp only [countOneofs, ih]
    | enum e => rw [er_item_enum]; simp only [countOneofs, ih]
    | message e => rw [er_item_message]; simp only [countOneofs, ih]
    | extend e => rw [er_item_extend]; simp only [countOneofs, ih]
    | oneof o => rw [er_item_oneof]; simp only [countOneofs, ih]

theorem itemsSynth_er (s) : ∀ (xs : List MessageItem), itemsSynth s (er xs) = itemsSynth s xs
  | [] => rfl
  | x :: xs => by
    have ih := itemsSynth_er s xs
    rw [er_item_cons]
    cases x with
    | field f => rw [er_item_field, itemsSynth, itemsSynth, er_field_label, isP3_er, er_field_name, ih]
    | enum e => rw [er_item_enum]; simp only [itemsSynth, ih]
    | message e => rw [er_item_message]; simp only [itemsSynth, ih]
    | extend e => rw [er_item_extend]; simp only [itemsSynth, ih]
    | oneof o => rw [er_item_oneof]; simp only [itemsSynth, ih]

theorem isMessageSet_er (opts : List Opt) : isMessageSet (er opts) = isMessageSet opts := by
  induction opts with
  | nil => rfl
  | cons o os ih =>
    unfold isMessageSet at ih ⊢
    rw [er_list, List.map_cons, List.find?_cons, List.find?_cons]
    have : (er o).body.hasName b!"message_set_wire_format" = o.body.hasName b!"message_set_wire_format" :=
      hasName_er o.body _
    rw [this]
    cases o.body.hasName b!"message_set_wire_format" with
    | true => exact congrArg (Option.getD · false) (asBool_er o.body.value)
    | false => exact ih

theorem extRanges_er (ms : Bool) (xs : List (Option OptionList × ReservedRange)) :
    ((er xs).map fun x => extRangeDesc ms x.1 x.2) = xs.map fun x => extRangeDesc ms x.1 x.2 :=
  map_er _ (fun x => extRange_er ms x.1 x.2) xs

section
variable [FloatFmt]
mutual
theorem bodyDesc_er (s) : ∀ b : MessageBody, bodyDesc s (erBody b) = bodyDesc s b
  | ⟨items, exts, opts, res⟩ => by
    rw [erBody, bodyDesc, bodyDesc, itemsNested_er s items, Parse.erItems_map, itemsFields_er, countOneofs_er,
      itemsExts_er, itemsEnums_er, itemsOneofs_er, itemsSynth_er, isMessageSet_er, opts_er, allExtRanges_er, allRanges_er,
      allNames_er, extRanges_er, map_er _ (range_er _), identValue_er]
theorem itemsNested_er (s) : ∀ xs : List MessageItem, itemsNested s (erItems xs) = itemsNested s xs
  | [] => by rw [erItems]
  | x :: xs => by rw [erItems, itemsNested, itemsNested, itemNested_er s x, itemsNested_er s xs]
theorem itemNested_er (s) : ∀ x : MessageItem, itemNested s (erItem x) = itemNested s x
  | .field f => by rw [erItem, itemNested, itemNested, fieldNested_er s f]
  | .enum _ => by rw [erItem, itemNested, itemNested]
  | .message x => by rw [erItem, itemNested, itemNested, messageDesc_er s x]
  | .extend e => by rw [erItem, itemNested, itemNested, extendNested_er s e]
  | .oneof o => by rw [erItem, itemNested, itemNested, oneofNested_er s o]
theorem extendNested_er (s) : ∀ x : Extend, extendNested s (erExtend x) = extendNested s x
  | ⟨_, fields, _, _⟩ => by rw [erExtend, extendNested, extendNested, fieldsNested_er s fields]
theorem oneofNested_er (s) : ∀ x : Oneof, oneofNested s (erOneof x) = oneofNested s x
  | ⟨_, _, fields, _, _⟩ => by rw [erOneof, oneofNested, oneofNested, fieldsNested_er s fields]
theorem fieldsNested_er (s) : ∀ xs : List Field, fieldsNested s (erFields xs) = fieldsNested s xs
  | [] => by rw [erFields]
  | x :: xs => by rw [erFields, fieldsNested, fieldsNested, fieldNested_er s x, fieldsNested_er s xs]
theorem fieldNested_er (s) : ∀ x : Field, fieldNested s (erField x) = fieldNested s x
  | ⟨_, name, kind, _, _, _, _⟩ => by rw [erField, fieldNested, fieldNested]; exact kindNested_er s name.value kind
theorem kindNested_er (s) (name : Bytes) : ∀ x : FieldKind, kindNested s name (erKind x) = kindNested s name x
  | .normal _ _ => by rw [erKind, kindNested, kindNested]
  | .group _ body => by rw [erKind, kindNested, kindNested, bodyDesc_er s body]
  | .map _ k _ v _ => by rw [erKind, kindNested, kindNested, entryOf_er]
theorem messageDesc_er (s) : ∀ x : Message, messageDesc s (erMessage x) = messageDesc s x
  | ⟨name, body, _, _⟩ => by rw [erMessage, messageDesc, messageDesc, bodyDesc_er s body]; rfl
end
end

theorem extRangesErrs_er (xs : List (Option OptionList × ReservedRange)) :
    ((er xs).flatMap fun x => extRangeErrs x.1 x.2) = [] ↔ (xs.flatMap fun x => extRangeErrs x.1 x.2) = [] :=
  flatMap_er _ xs fun x _ => extRangeErrs_er x.1 x.2

mutual
theorem bodyErrs_er (s) : ∀ b : MessageBody, bodyErrs s (erBody b) = [] ↔ bodyErrs s b = []
  | ⟨items, exts, opts, res⟩ => by
    rw [erBody, bodyErrs, bodyErrs]
    simp only [List.append_eq_nil_iff]
    rw [itemsErrs_er s items, allRanges_er, allExtRanges_er, optsErrs_er, extRangesErrs_er, flatMap_er _ _ fun r _ => rangeErrs_er r]
theorem itemsErrs_er (s) : ∀ xs : List MessageItem, itemsErrs s (erItems xs) = [] ↔ itemsErrs s xs = []
  | [] => by rw [erItems]
  | x :: xs => by
    rw [erItems, itemsErrs, itemsErrs, List.append_eq_nil_iff, List.append_eq_nil_iff, itemErrs_er s x, itemsErrs_er s xs]
theorem itemErrs_er (s) : ∀ x : MessageItem, itemErrs s (erItem x) = [] ↔ itemErrs s x = []
  | .field f => by rw [erItem, itemErrs, itemErrs, fieldErrs_er s _ f]
  | .enum _ => by rw [erItem, itemErrs, itemErrs, enumErrs_er]
  | .message x => by rw [erItem, itemErrs, itemErrs, messageErrs_er s x]
  | .extend e => by rw [erItem, itemErrs, itemErrs, extendErrs_er s e]
  | .oneof o => by rw [erItem, itemErrs, itemErrs, oneofErrs_er s o]
theorem extendErrs_er (s) : ∀ x : Extend, extendErrs s (erExtend x) = [] ↔ extendErrs s x = []
  | ⟨_, fields, _, _⟩ => by rw [erExtend, extendErrs, extendErrs, fieldsErrs_er s _ fields]
theorem oneofErrs_er (s) : ∀ x : Oneof, oneofErrs s (erOneof x) = [] ↔ oneofErrs s x = []
  | ⟨_, options, fields, _, sp⟩ => by
    have : (erFields fields).isEmpty = fields.isEmpty := by rw [Parse.erFields_map]; cases fields <;> rfl
    rw [erOneof, oneofErrs, oneofErrs]
    simp only [List.append_eq_nil_iff]
    rw [fieldsErrs_er s _ fields, optsErrs_er, this, ite_nil, ite_nil]
theorem fieldsErrs_er (s scope) : ∀ xs : List Field, fieldsErrs s scope (erFields xs) = [] ↔ fieldsErrs s scope xs = []
  | [] => by rw [erFields]
  | x :: xs => by
    rw [erFields, fieldsErrs, fieldsErrs, List.append_eq_nil_iff, List.append_eq_nil_iff, fieldErrs_er s scope x,
      fieldsErrs_er s scope xs]
theorem fieldErrs_er (s scope) : ∀ x : Field, fieldErrs s scope (erField x) = [] ↔ fieldErrs s scope x = []
  | ⟨label, _, kind, number, options, _, span⟩ => by
    have hm : isMap (erKind kind) = isMap kind := isMap_er kind
    rw [erField, fieldErrs, fieldErrs]
    simp only [List.append_eq_nil_iff]
    rw [dfltOf_er, kindErrs_er s scope label _ span, messageNumberErrs_er, hm, defaultCheckErrs_er, tailErrs_er]
theorem kindErrs_er (s scope) (label : Option (FieldLabel × Span)) (sp sp' : Span) (d : Option OptionBody) :
    ∀ x : FieldKind, kindErrs s scope (er label) sp (er d) (erKind x) = [] ↔ kindErrs s scope label sp' d x = []
  | .normal ty _ => by
    rw [erKind, kindErrs, kindErrs, List.append_eq_nil_iff, List.append_eq_nil_iff, labelErrs_er, scalarDfltErrs_er]
  | .group _ body => by
    rw [erKind, kindErrs, kindErrs, List.append_eq_nil_iff, List.append_eq_nil_iff, bodyErrs_er s body, groupErrs_er]
  | .map _ k _ v _ => by
    rw [erKind, kindErrs, kindErrs, List.append_eq_nil_iff, List.append_eq_nil_iff, mapScopeErrs_er, validKey_er]
    refine and_congr Iff.rfl ?_
    split <;> simp
theorem messageErrs_er (s) : ∀ x : Message, messageErrs s (erMessage x) = [] ↔ messageErrs s x = []
  | ⟨_, body, _, _⟩ => by rw [erMessage, messageErrs, messageErrs, bodyErrs_er s body]
end

/-! ### Files -/

theorem importIdx_er (k : ImportKind) : ∀ (n : Nat) (xs : List Import), importIdx k n (er xs) = importIdx k n xs
  | _, [] => rfl
  | n, x :: xs => by
    have ih := importIdx_er k (n + 1) xs
    rw [er_list] at ih
    have : (er x).kind.map (·.1) = x.kind.map (·.1) := by
      show (er x.kind).map (·.1) = _
      rcases x.kind with _ | ⟨a, b⟩ <;> rfl
    rw [er_list, List.map_cons, importIdx, importIdx, ih, this]

theorem er_fitem_cons (x : FileItem) (xs : List FileItem) : er (x :: xs) = er x :: er xs := rfl
theorem er_fitem_enum (f : Enum) : er (FileItem.enum f) = .enum (er f) := rfl
theorem er_fitem_message (f : Message) : er (FileItem.message f) = .message (er f) := rfl
theorem er_fitem_extend (f : Extend) : er (FileItem.extend f) = .extend (er f) := rfl
theorem er_fitem_service (f : Service) : er (FileItem.service f) = .service (er f) := rfl

theorem itemsMsgs_er [FloatFmt] (s) : ∀ xs : List FileItem, itemsMsgs s (er xs) = itemsMsgs s xs
  | [] => rfl
  | x :: xs => by
    have ih := itemsMsgs_er s xs
    rw [er_fitem_cons]
    cases x with
    | enum e => rw [er_fitem_enum]; simp only [itemsMsgs, ih]
    | message e =>
      have := messageDesc_er s e
      rw [er_fitem_message]; simp only [itemsMsgs, ih]; rw [← this]; rfl
    | extend e =>
      rw [er_fitem_extend, itemsMsgs, itemsMsgs, er_extend_fields, ih, ← Parse.erFields_map, fieldsNested_er]
    | service e => rw [er_fitem_service]; simp only [itemsMsgs, ih]

theorem fileEnums_er : ∀ xs : List FileItem, fileEnums (er xs) = fileEnums xs
  | [] => rfl
  | x :: xs => by
    have ih := fileEnums_er xs
    rw [er_fitem_cons]
    cases x with
    | enum e => rw [er_fitem_enum]; simp only [fileEnums, ih, enum_er]
    | message e => rw [er_fitem_message]; simp only [fileEnums, ih]
    | extend e => rw [er_fitem_extend]; simp only [fileEnums, ih]
    | service e => rw [er_fitem_service]; simp only [fileEnums, ih]

theorem fileServices_er : ∀ xs : List FileItem, fileServices (er xs) = fileServices xs
  | [] => rfl
  | x :: xs => by
    have ih := fileServices_er xs
    rw [er_fitem_cons]
    cases x with
    | enum e => rw [er_fitem_enum]; simp only [fileServices, ih]
    | message e => rw [er_fitem_message]; simp only [fileServices, ih]
    | extend e => rw [er_fitem_extend]; simp only [fileServices, ih]
    | service e => rw [er_fitem_service]; simp only [fileServices, ih, service_er]

theorem fileExts_er [FloatFmt] (s) : ∀ xs : List FileItem, fileExts s (er xs) = fileExts s xs
  | [] => rfl
  | x :: xs => by
    have ih := fileExts_er s xs
    rw [er_fitem_cons]
    cases x with
    | enum e => rw [er_fitem_enum]; simp only [fileExts, ih]
    | message e => rw [er_fitem_message]; simp only [fileExts, ih]
    | extend e => rw [er_fitem_extend, fileExts, fileExts, er_extend_fields, er_extend_ty, extFields_er, ih]
    | service e => rw [er_fitem_service]; simp only [fileExts, ih]

theorem fileDesc_er [FloatFmt] (name : Bytes) (f : File) : fileDesc name (er f) = fileDesc name f := by
  have hp : (er f.package).map (fun p => p.name.display.getD []) = f.package.map fun p => p.name.display.getD [] := by
    cases f.package with
    | none => rfl
    | some p => exact congrArg (fun x => some (Option.getD x [])) (fullIdent_er p.name)
  have hi : (er f.imports).map (·.value) = f.imports.map (·.value) := map_er _ (fun _ => rfl) _
  unfold fileDesc
  show FileDescriptorProto.mk (some name) ((er f.package).map fun p => p.name.display.getD []) ((er f.imports).map (·.value))
    (importIdx .publ 0 (er f.imports)) (importIdx .weak 0 (er f.imports)) (itemsMsgs f.syntax' (er f.items))
    (fileEnums (er f.items)) (fileServices (er f.items)) (fileExts f.syntax' (er f.items))
    (nonEmpty (optsDesc (er f.options))) none (if f.syntax' = .proto2 then none else some f.syntax'.display) = _
  rw [hp, hi, importIdx_er, importIdx_er, itemsMsgs_er, fileEnums_er, fileServices_er, fileExts_er, opts_er]

theorem fileErrs_er (f : File) : fileErrs (er f) = [] ↔ fileErrs f = [] := by
  show (er f.items).flatMap (fileItemErrs f.syntax') ++ optsErrs (er f.options) = [] ↔
    f.items.flatMap (fileItemErrs f.syntax') ++ optsErrs f.options = []
  rw [List.append_eq_nil_iff, List.append_eq_nil_iff, optsErrs_er, flatMap_er]
  intro x _
  cases x with
  | enum e => exact enumErrs_er e
  | message e => exact messageErrs_er _ e
  | extend e => exact extendErrs_er _ e
  | service e => exact serviceErrs_er e

/-- Equal trees make equal descriptors. -/
theorem fileDesc_same [FloatFmt] (name : Bytes) {f g : File} (h : er f = er g) : fileDesc name f = fileDesc name g := by
  rw [← fileDesc_er name f, ← fileDesc_er name g, h]

theorem fileErrs_same {f g : File} (h : er f = er g) : fileErrs f = [] ↔ fileErrs g = [] := by
  rw [← fileErrs_er f, ← fileErrs_er g, h]

end Verif.Gen
