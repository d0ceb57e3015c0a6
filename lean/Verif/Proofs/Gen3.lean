import Verif.Proofs.Gen2
/-!
Running the generator: fields (without the bodies of groups).
-/
namespace Verif.Gen
open Verif.Ast Verif.Spec

/-! ### Labels -/

def labelDesc (s : Syntax') (scope : FieldScope) (label : Option (FieldLabel × Span)) : Option Label :=
  match scope, label with
  | .extend, some (.required, _) => none
  | .oneof, some _ => none
  | .message, none => if s = .proto2 then none else some .optional
  | .extend, none => if s = .proto2 then none else some .optional
  | .oneof, none => some .optional
  | .message, some (.required, _) => if s = .proto3 then none else some .required
  | .message, some (.repeated, _) => some .repeated
  | .message, some (.optional, _) => some .optional
  | .extend, some (.repeated, _) => some .repeated
  | .extend, some (.optional, _) => some .optional

def labelErrs (s : Syntax') (scope : FieldScope) (label : Option (FieldLabel × Span)) (sp : Span) :
    List ParseErrorKind :=
  match scope, label with
  | .extend, some (.required, sp) => [.requiredExtendField sp]
  | .oneof, some (_, sp) => [.oneofFieldWithLabel sp]
  | .message, none => if s = .proto2 then [.proto2FieldMissingLabel sp] else []
  | .extend, none => if s = .proto2 then [.proto2FieldMissingLabel sp] else []
  | .message, some (.required, sp) => if s = .proto3 then [.proto3RequiredField sp] else []
  | _, _ => []

/-- Marks recorded for a label: none if the label was rejected. -/
def labelMarks (s : Syntax') (scope : FieldScope) (label : Option (FieldLabel × Span)) : List Mark :=
  match label with
  | none => []
  | some (_, sp) => if labelDesc s scope label = none then [] else [⟨[Tag.fieldLabel], sp, {}⟩]

section
variable {src : Bytes} {env : Env}

theorem genFieldLabel_runs (he : EnvOk src env) (p) (scope) {label : Option (FieldLabel × Span)}
    (h : labelIn 0 src.length label) {sp} (hsp' : SpIn 0 src.length sp) :
    Runs src env (genFieldLabel label sp scope) p (labelDesc env.syn scope label) (labelErrs env.syn scope label sp)
      (under p (labelMarks env.syn scope label)) p := by
  unfold genFieldLabel
  refine Runs.conv (Runs.bind (a := env.syn) (e1 := []) (m1 := []) (Runs.syn p) (p2 := p)
    (b := labelDesc env.syn scope label) (e2 := labelErrs env.syn scope label sp)
    (m2 := under p (labelMarks env.syn scope label)) ?_) rfl rfl rfl rfl
  rcases label with _ | ⟨l, lsp⟩
  · rcases scope <;> cases env.syn <;>
      simp only [labelDesc, labelErrs, labelMarks, ne_eq, not_true_eq_false, false_and, true_and, and_self,
        reduceCtorEq, not_false_eq_true, ↓reduceIte, under_nil] <;>
      first | exact Runs.pure _ _ | exact Runs.bind (Runs.err _ _ (by exact one hsp')) (Runs.pure _ _)
  · have hsp := h _ rfl
    rcases scope <;> rcases l <;> cases env.syn <;>
      simp only [labelDesc, labelErrs, labelMarks, reduceCtorEq, ↓reduceIte, under_nil, under_cons] <;>
      first
      | exact Runs.pure _ _
      | exact Runs.bind (Runs.err _ _ (by exact one hsp)) (Runs.pure _ _)
      | exact Runs.bind (Runs.addSpanFor he _ hsp _) (Runs.pure _ _)
end

/-! ### Proto3 optional -/

/-- Is this a proto3 `optional` field? -/
def isP3 (s : Syntax') (label : Option (FieldLabel × Span)) : Bool :=
  match label with
  | some (.optional, _) => s ≠ .proto2
  | _ => false

def synthName (name : Bytes) : Bytes := if name.head? = some 95 then 88 :: name else 95 :: name

/-- Does the field get a synthetic oneof? -/
def hasSynth (s : Syntax') (scope : FieldScope) (label : Option (FieldLabel × Span)) : Bool :=
  isP3 s label && scope == .message

section
variable {src : Bytes} {env : Env}

theorem genProto3Optional_runs (p) {label : Option (FieldLabel × Span)} (name : Bytes) (tag : Option Int)
    (oneofs : List OneofDescriptorProto) (hl : oneofs.length ≤ 2147483647) :
    Runs src env (genProto3Optional label name tag oneofs) p
      (if isP3 env.syn label then some true else none,
       if isP3 env.syn label && tag.isSome then some (oneofs.length : Int) else none,
       oneofs ++ if isP3 env.syn label && tag.isSome then [⟨some (synthName name), none⟩] else []) [] [] p := by
  unfold genProto3Optional
  refine Runs.conv (Runs.bind (a := env.syn) (e1 := []) (m1 := []) (e2 := []) (m2 := []) (Runs.syn p) (p2 := p) ?_) rfl rfl rfl rfl
  rcases label with _ | ⟨l, lsp⟩
  · simp [isP3]; exact Runs.pure _ _
  · cases l with
    | optional =>
      cases hs : env.syn with
      | proto2 => simp [isP3]; exact Runs.pure _ _
      | proto3 =>
        cases tag with
        | none => simp [isP3]; exact Runs.pure _ _
        | some t =>
          simp [isP3, synthName]
          exact Runs.conv (Runs.bind (Runs.index hl _) <| Runs.bind (Runs.extend _ _) <| Runs.bind (Runs.popPath _ _ rfl) <|
            Runs.pure _ _) rfl rfl rfl rfl
    | required => simp [isP3]; exact Runs.pure _ _
    | repeated => simp [isP3]; exact Runs.pure _ _
end

/-! ### Default values -/

/-- The first option of the given name. -/
def pick (options : Option OptionList) (name : Bytes) : Option OptionBody := (takeOption options name).1
/-- The options without the first option of the given name. -/
def drop1 (options : Option OptionList) (name : Bytes) : Option OptionList := (takeOption options name).2

theorem takeFirst_mem {name} : ∀ {os : List OptionBody} {o rest}, takeFirst name os = some (o, rest) →
    o ∈ os ∧ (∀ x ∈ rest, x ∈ os) ∧ rest.length < os.length
  | [], _, _, h => by cases h
  | x :: xs, o, rest, h => by
    unfold takeFirst at h
    split at h
    · cases h; exact ⟨.head _, fun _ h => .tail _ h, by simp⟩
    · split at h
      · cases h
      · rename_i heq
        cases h
        obtain ⟨h1, h2, h3⟩ := takeFirst_mem heq
        refine ⟨.tail _ h1, fun y hy => ?_, by simpa using h3⟩
        rcases List.mem_cons.1 hy with rfl | hy
        · exact .head _
        · exact .tail _ (h2 y hy)

theorem pick_in {a b options name o} (h : optListIn a b options) (ho : pick options name = some o) : o.In a b := by
  unfold pick takeOption at ho
  split at ho
  · cases ho
  · rename_i l
    split at ho
    · cases ho
    · rename_i heq
      cases ho
      exact (h l rfl).1 _ (takeFirst_mem heq).1

theorem drop1_in {a b options name} (h : optListIn a b options) : optListIn a b (drop1 options name) := by
  unfold drop1 takeOption
  split
  · nofun
  · rename_i l
    split
    · exact h
    · rename_i heq
      rintro _ ⟨⟩
      exact ⟨fun x hx => (h l rfl).1 _ ((takeFirst_mem heq).2.1 x hx), (h l rfl).2⟩

theorem drop1_small {n options name} (h : optListSmall n options) : optListSmall n (drop1 options name) := by
  unfold drop1 takeOption
  split
  · nofun
  · rename_i l
    split
    · exact h
    · rename_i heq
      rintro _ ⟨⟩
      have := h l rfl
      have := (takeFirst_mem heq).2.2
      simp only; omega

/-- The conversion of an integer type. -/
def intConv : FieldType → Option (Int' → Option Int)
  | .int64 | .sfixed64 | .sint64 => some Int'.asI64
  | .int32 | .sfixed32 | .sint32 => some Int'.asI32
  | .uint64 | .fixed64 => some Int'.asU64
  | .uint32 | .fixed32 => some Int'.asU32
  | _ => none

def stringDefault : OptionValue → Option Bytes
  | .string s => if utf8Valid s.value then some s.value else none
  | _ => none

def stringErrs : OptionValue → List ParseErrorKind
  | .string s => if utf8Valid s.value then [] else [.invalidUtf8String s.span]
  | v => [.valueInvalidType b!"a string" v v.span]

def integerDefault (conv : Int' → Option Int) : OptionValue → Option Bytes
  | .int i => (conv i).map decimalInt
  | _ => none

def integerErrs (c : IntSort) : OptionValue → List ParseErrorKind
  | .int i => if c.conv i = none then [.integerValueOutOfRange c.expected i c.min c.max i.span] else []
  | v => [.valueInvalidType b!"an integer" v v.span]

def bytesDefault : OptionValue → Option Bytes
  | .string s => some s.display
  | _ => none

/-- The default value of a scalar type. -/
def scalarDefault [FloatFmt] (ty : Ty) (v : OptionValue) : Option Bytes :=
  match ty with
  | .double | .float => v.asF64.map fun f => (FloatFmt.plain f).map toLower
  | .int64 | .sfixed64 | .sint64 => integerDefault Int'.asI64 v
  | .int32 | .sfixed32 | .sint32 => integerDefault Int'.asI32 v
  | .uint64 | .fixed64 => integerDefault Int'.asU64 v
  | .uint32 | .fixed32 => integerDefault Int'.asU32 v
  | .bool => v.asBool.map fun b => if b then b!"true" else b!"false"
  | .string => stringDefault v
  | .bytes => bytesDefault v
  | .named _ => none

def scalarErrs (ty : Ty) (v : OptionValue) : List ParseErrorKind :=
  match ty with
  | .double | .float => if v.asF64 = none then [.valueInvalidType b!"a floating-point number" v v.span] else []
  | .int64 | .sfixed64 | .sint64 => integerErrs .i64 v
  | .int32 | .sfixed32 | .sint32 => integerErrs .i32 v
  | .uint64 | .fixed64 => integerErrs .u64 v
  | .uint32 | .fixed32 => integerErrs .u32 v
  | .bool => if v.asBool = none then [.valueInvalidType b!"either 'true' or 'false'" v v.span] else []
  | .string => stringErrs v
  | .bytes => if bytesDefault v = none then [.valueInvalidType b!"a string" v v.span] else []
  | .named _ => []

def defaultCheckErrs (s : Syntax') (label : Option (FieldLabel × Span)) (map : Bool) (dflt : Option OptionBody) :
    List ParseErrorKind :=
  match dflt with
  | none => []
  | some o =>
    if map then [.invalidDefault b!"map" (ospan o)]
    else if label.map (·.1) = some .repeated then [.invalidDefault b!"repeated" (ospan o)]
    else if s ≠ .proto2 then [.proto3DefaultValue (ospan o)] else []

section
variable {src : Bytes} {env : Env}

theorem genStringOptionValue_runs {v : OptionValue} (hv : v.In 0 src.length) (p) :
    Runs src env (genStringOptionValue v) p (stringDefault v) (stringErrs v) [] p := by
  have hv := value_span hv
  unfold genStringOptionValue stringDefault stringErrs
  cases v with
  | string s =>
    simp only
    cases utf8Valid s.value
    · exact Runs.bind (Runs.err _ _ (by exact one hv)) (Runs.pure _ _)
    · exact Runs.pure _ _
  | _ => exact Runs.bind (Runs.err _ _ (by exact one hv)) (Runs.pure _ _)

theorem genIntegerDefault_runs (c) {v : OptionValue} (hv : v.In 0 src.length) (p) :
    Runs src env (genIntegerDefault c v) p (integerDefault c.conv v) (integerErrs c v) [] p := by
  have hv := value_span hv
  unfold genIntegerDefault integerDefault integerErrs
  cases v with
  | int i =>
    simp only [genIntDefault]
    cases hc : c.conv i
    · exact Runs.bind (Runs.err _ _ (by exact one hv)) (Runs.pure _ _)
    · exact Runs.pure _ _
  | _ => exact Runs.bind (Runs.err _ _ (by exact one hv)) (Runs.pure _ _)

theorem genFieldDefaultValue_runs [FloatFmt] (ty : Ty) (hty : ∀ t, ty ≠ .named t) {v : OptionValue}
    (hv : v.In 0 src.length) (p) :
    Runs src env (genFieldDefaultValue ty.protoTy v) p (scalarDefault ty v) (scalarErrs ty v) [] p := by
  have hv' := value_span hv
  cases ty with
  | named t => exact absurd rfl (hty t)
  | double | float =>
    simp only [Ty.protoTy, genFieldDefaultValue, scalarDefault, scalarErrs]
    cases v.asF64
    · exact Runs.bind (Runs.err _ _ (by exact one hv')) (Runs.pure _ _)
    · exact Runs.pure _ _
  | bool =>
    simp only [Ty.protoTy, genFieldDefaultValue, scalarDefault, scalarErrs]
    cases v.asBool
    · exact Runs.bind (Runs.err _ _ (by exact one hv')) (Runs.pure _ _)
    · exact Runs.pure _ _
  | string => exact genStringOptionValue_runs hv p
  | bytes =>
    simp only [Ty.protoTy, genFieldDefaultValue, scalarDefault, scalarErrs]
    cases v with
    | string s => exact Runs.pure _ _
    | _ => exact Runs.bind (Runs.err _ _ (by exact one hv')) (Runs.pure _ _)
  | _ => exact genIntegerDefault_runs _ hv p

theorem genDefaultCheck_runs (p) (label map) {dflt : Option OptionBody} (h : ∀ o, dflt = some o → o.In 0 src.length) :
    Runs src env (genDefaultCheck label map dflt) p () (defaultCheckErrs env.syn label map dflt) [] p := by
  unfold genDefaultCheck
  refine Runs.conv (Runs.bind (a := env.syn) (e1 := []) (m1 := []) (b := ()) (e2 := defaultCheckErrs env.syn label map dflt)
    (m2 := []) (Runs.syn p) (p2 := p) ?_) rfl rfl rfl rfl
  cases dflt with
  | none => exact Runs.pure _ _
  | some o =>
    have ho := optionBody_span' (h o rfl)
    refine Runs.conv (Runs.bind (Runs.unwrap ho.1 p) (b := ()) (e2 := defaultCheckErrs env.syn label map (some o))
      (m2 := []) (p2 := p) ?_) rfl rfl rfl rfl
    unfold defaultCheckErrs
    cases map with
    | true => exact Runs.err _ _ (by exact one ho.2)
    | false =>
      rcases label with _ | ⟨l, lsp⟩
      · exact Runs.conv (Runs.errIf _ _ _ (by exact one ho.2)) rfl (by simp) rfl rfl
      · cases l with
        | repeated => exact Runs.err _ _ (by exact one ho.2)
        | _ => exact Runs.conv (Runs.errIf _ _ _ (by exact one ho.2)) rfl (by simp) rfl rfl
end

/-! ### Kinds -/

def dfltMarks (dflt : Option OptionBody) : List Mark :=
  match dflt with
  | none => []
  | some o => [⟨[Tag.fieldDefaultValue], o.value.span, {}⟩]

/-- Name, label, type, type name and default of a field. -/
def kindName (kind : FieldKind) (name : Bytes) : Bytes :=
  match kind with
  | .group .. => name.map toLower
  | _ => name

def kindLabel (s : Syntax') (scope : FieldScope) (label : Option (FieldLabel × Span)) (kind : FieldKind) : Option Label :=
  match kind with
  | .map .. => some .repeated
  | _ => labelDesc s scope label

def kindType (kind : FieldKind) : Option FieldType :=
  match kind with
  | .normal ty _ => ty.protoTy
  | .group .. => some .group
  | .map .. => some .message

def entryName (name : Bytes) : Bytes := toPascalCase name ++ b!"Entry"

def kindTypeName (kind : FieldKind) (name : Bytes) : Option Bytes :=
  match kind with
  | .normal (.named t) _ => some (tname t)
  | .normal _ _ => none
  | .group .. => some name
  | .map .. => some (entryName name)

def kindDefault [FloatFmt] (kind : FieldKind) (dflt : Option OptionBody) : Option Bytes :=
  match kind, dflt with
  | .normal (.named _) _, some o => some o.value.toTokenString
  | .normal ty _, some o => scalarDefault ty o.value
  | _, _ => none

/-- The type name of a field type. -/
def tyNameOf : Ty → Option Bytes
  | .named t => some (tname t)
  | _ => none

def entryOf (name : Bytes) (keyTy valueTy : Ty) : DescriptorProto :=
  mapEntry (entryName name) keyTy.protoTy valueTy.protoTy (tyNameOf valueTy)

def mapScopeErrs (label : Option (FieldLabel × Span)) (span : Span) (scope : FieldScope) : List ParseErrorKind :=
  match scope with
  | .oneof => [.invalidOneofFieldKind b!"map" span]
  | .extend => [.invalidExtendFieldKind b!"map" span]
  | .message => match label with
    | some (_, sp) => [.mapFieldWithLabel sp]
    | none => []

def groupDfltErrs (dflt : Option OptionBody) : List ParseErrorKind :=
  match dflt with
  | none => []
  | some o => [.invalidDefault b!"group" (ospan o)]

def scalarDfltErrs (ty : Ty) (dflt : Option OptionBody) : List ParseErrorKind :=
  match dflt with
  | none => []
  | some o => scalarErrs ty o.value

section
variable {src : Bytes} {env : Env}

theorem genNamedDefault_runs [FloatFmt] (he : EnvOk src env) (p) {dflt : Option OptionBody}
    (h : ∀ o, dflt = some o → o.In 0 src.length) :
    Runs src env (genNamedDefault dflt) p (dflt.map fun o => o.value.toTokenString) [] (under p (dfltMarks dflt)) p := by
  cases dflt with
  | none => exact Runs.pure _ _
  | some o =>
    obtain ⟨_, c, h1, h2⟩ := h o rfl
    refine Runs.conv (Runs.bind (Runs.addSpanFor he _ (value_span (h2.mono (Nat.zero_le _) (Nat.le_refl _))) _) (Runs.pure _ _))
      rfl rfl ?_ rfl
    simp [dfltMarks]

theorem genScalarDefault_runs [FloatFmt] (he : EnvOk src env) (p) (ty : Ty) (hty : ∀ t, ty ≠ .named t)
    {dflt : Option OptionBody} (h : ∀ o, dflt = some o → o.In 0 src.length) :
    Runs src env (genScalarDefault ty.protoTy dflt) p (dflt.bind fun o => scalarDefault ty o.value)
      (scalarDfltErrs ty dflt) (under p (dfltMarks dflt)) p := by
  cases dflt with
  | none => exact Runs.pure _ _
  | some o =>
    obtain ⟨_, c, h1, h2⟩ := h o rfl
    refine Runs.conv (Runs.bind (Runs.addSpanFor he _ (value_span (h2.mono (Nat.zero_le _) (Nat.le_refl _))) _)
      (genFieldDefaultValue_runs ty hty (h2.mono (Nat.zero_le _) (Nat.le_refl _)) _)) rfl rfl ?_ rfl
    simp [dfltMarks]

def namedMarks (s : Syntax') (scope : FieldScope) (label : Option (FieldLabel × Span)) (span : Span) (cm : Comments)
    (t : TypeName) (dflt : Option OptionBody) : List Mark :=
  labelMarks s scope label ++ ⟨[], span, cm⟩ :: ⟨[Tag.fieldTypeName], tspan t, {}⟩ :: dfltMarks dflt

def scalarMarks (s : Syntax') (scope : FieldScope) (label : Option (FieldLabel × Span)) (span : Span) (cm : Comments)
    (tySpan : Span) (dflt : Option OptionBody) : List Mark :=
  labelMarks s scope label ++ dfltMarks dflt ++ [⟨[], span, cm⟩, ⟨[Tag.fieldType], tySpan, {}⟩]

def mapMarks (span : Span) (cm : Comments) (tySpan : Span) : List Mark :=
  [⟨[], span, cm⟩, ⟨[Tag.fieldTypeName], tySpan, {}⟩]

def groupFieldMarks (s : Syntax') (scope : FieldScope) (label : Option (FieldLabel × Span)) (span : Span)
    (tySpan : Span) (name : Ident) : List Mark :=
  labelMarks s scope label ++ [⟨[], span, {}⟩, ⟨[Tag.fieldType], tySpan, {}⟩, ⟨[Tag.fieldTypeName], name.span, {}⟩]

def groupMsgMarks (span : Span) (cm : Comments) (name : Ident) : List Mark :=
  [⟨[], span, cm⟩, ⟨[Tag.messageName], name.span, {}⟩]

def groupErrs (s : Syntax') (scope : FieldScope) (label : Option (FieldLabel × Span)) (span : Span)
    (dflt : Option OptionBody) : List ParseErrorKind :=
  labelErrs s scope label span ++ (if s ≠ .proto2 then [.proto3GroupField span] else []) ++ groupDfltErrs dflt

theorem genNamedKind_runs [FloatFmt] (he : EnvOk src env) (p) {name label span comments t dflt scope messages}
    (hl : labelIn 0 src.length label) (hsp : SpIn 0 src.length span) (ht : t.In 0 src.length)
    (hd : ∀ o, dflt = some o → o.In 0 src.length) :
    Runs src env (genNamedKind name label span comments t dflt scope messages) p
      ⟨name.value, labelDesc env.syn scope label, none, some (tname t), dflt.map fun o => o.value.toTokenString, messages⟩
      (labelErrs env.syn scope label span) (under p (namedMarks env.syn scope label span comments t dflt)) p := by
  have t2 := typeName_span' ht
  refine Runs.conv (Runs.bind (genFieldLabel_runs he _ scope hl hsp) <| Runs.bind (Runs.unwrap (typeName_display ht) _) <|
    Runs.bind (Runs.addComments he hsp _ _) <| Runs.bind (Runs.unwrap t2.1 _) <| Runs.bind (Runs.addSpanFor he _ t2.2 _) <|
    Runs.bind (genNamedDefault_runs he _ hd) <| Runs.pure _ _) ?_ ?_ ?_ rfl
  · rfl
  · simp
  · simp [namedMarks]

theorem genScalarKind_runs [FloatFmt] (he : EnvOk src env) (p) {name label span comments ty tySpan dflt scope messages}
    (hl : labelIn 0 src.length label) (hsp : SpIn 0 src.length span) (hty : ∀ t, ty ≠ .named t)
    (htsp : SpIn 0 src.length tySpan) (hd : ∀ o, dflt = some o → o.In 0 src.length) :
    Runs src env (genScalarKind name label span comments ty tySpan dflt scope messages) p
      ⟨name.value, labelDesc env.syn scope label, ty.protoTy, none, dflt.bind fun o => scalarDefault ty o.value, messages⟩
      (labelErrs env.syn scope label span ++ scalarDfltErrs ty dflt)
      (under p (scalarMarks env.syn scope label span comments tySpan dflt)) p := by
  refine Runs.conv (Runs.bind (genFieldLabel_runs he _ scope hl hsp) <|
    Runs.bind (genScalarDefault_runs he _ ty hty hd) <| Runs.bind (Runs.addComments he hsp _ _) <|
    Runs.bind (Runs.addSpanFor he _ htsp _) <| Runs.pure _ _) ?_ ?_ ?_ rfl
  · rfl
  · simp
  · simp [scalarMarks]

theorem tyName_some {a b} {ty : Ty} (h : ty.In a b) :
    ty.tyName = some (tyNameOf ty) := by
  cases ty with
  | named t =>
    have := typeName_display (t := t) h
    show (match t.display with | none => none | some n => some (some n)) = _
    rw [this]; rfl
  | _ => rfl

theorem genMapScope_runs (p scope) {label : Option (FieldLabel × Span)} {span : Span} (hl : labelIn 0 src.length label)
    (hsp : SpIn 0 src.length span) :
    Runs src env (genMapScope label span scope) p () (mapScopeErrs label span scope) [] p := by
  cases scope with
  | message => rcases label with _ | ⟨l, sp⟩ <;> first | exact Runs.pure _ _ | exact Runs.err _ _ (by exact one (hl _ rfl))
  | _ => exact Runs.err _ _ (by exact one hsp)

theorem genMapKind_runs (he : EnvOk src env) (p) {name label span comments tySpan keyTy keySpan valueTy scope messages}
    (hl : labelIn 0 src.length label) (hks : SpIn 0 src.length keySpan)
    (hsp : SpIn 0 src.length span) (htsp : SpIn 0 src.length tySpan) (hv : valueTy.In 0 src.length) :
    Runs src env (genMapKind name label span comments tySpan keyTy keySpan valueTy scope messages) p
      ⟨name.value, some .repeated, some .message, some (entryName name.value), none,
        messages ++ [entryOf name.value keyTy valueTy]⟩
      (mapScopeErrs label span scope ++ if validKey keyTy then [] else [.invalidMapFieldKeyType keySpan])
      (under p (mapMarks span comments tySpan)) p := by
  refine Runs.conv (Runs.bind (genMapScope_runs _ _ hl hsp) <| Runs.bind (Runs.addComments he hsp _ _) <|
    Runs.bind (Runs.addSpanFor he _ htsp _) <| Runs.bind (Runs.errIf _ _ _ (by exact one hks)) <|
    Runs.bind (Runs.unwrap (tyName_some hv) _) <| Runs.pure _ _) ?_ ?_ ?_ rfl
  · rfl
  · cases validKey keyTy <;> simp
  · simp [mapMarks]

theorem genGroupDefault_runs (p) {dflt : Option OptionBody} (h : ∀ o, dflt = some o → o.In 0 src.length) :
    Runs src env (genGroupDefault dflt) p () (groupDfltErrs dflt) [] p := by
  cases dflt with
  | none => exact Runs.pure _ _
  | some o => exact Runs.bind (Runs.unwrap (optionBody_span' (h o rfl)).1 _) (Runs.err _ _ (by exact one (optionBody_span' (h o rfl)).2))

theorem genGroupHead_runs (he : EnvOk src env) (p) {name label span comments tySpan dflt scope mt k ft i}
    (hl : labelIn 0 src.length label) (hsp : SpIn 0 src.length span) (hn : SpIn 0 src.length name.span)
    (htsp : SpIn 0 src.length tySpan) (hd : ∀ o, dflt = some o → o.In 0 src.length) (hk : k ≤ 2147483647) :
    Runs src env (genGroupHead name label span comments tySpan dflt scope mt k) (p ++ [ft, i])
      (labelDesc env.syn scope label) (groupErrs env.syn scope label span dflt)
      (under p (under [ft, i] (groupFieldMarks env.syn scope label span tySpan name) ++
        under [mt, (k : Int)] (groupMsgMarks span comments name))) (p ++ [mt, (k : Int)]) := by
  refine Runs.conv (Runs.bind (genFieldLabel_runs he _ scope hl hsp) <| Runs.bind (Runs.syn _) <|
    Runs.bind (Runs.errIf _ _ _ (by exact one hsp)) <| Runs.bind (genGroupDefault_runs _ hd) <| Runs.bind (Runs.addSpan he hsp _) <|
    Runs.bind (Runs.addSpanFor he _ htsp _) <| Runs.bind (Runs.addSpanFor he _ hn _) <|
    Runs.bind (Runs.popPath _ _ rfl) <| Runs.bind (Runs.index hk _) <| Runs.bind (Runs.extend _ _) <|
    Runs.bind (Runs.addComments he hsp _ _) <| Runs.bind (Runs.addSpanFor he _ hn _) <| Runs.pure _ _) ?_ ?_ ?_ rfl
  · rfl
  · simp [groupErrs]
  · simp [groupFieldMarks, groupMsgMarks]

/-! ### Head and tail of a field -/

def headMarks (name : Ident) (number : Int') : List Mark :=
  [⟨[Tag.fieldName], name.span, {}⟩, ⟨[Tag.fieldNumber], number.span, {}⟩]

def jsonMarks (jn : Option OptionBody) : List Mark :=
  match jn with
  | none => []
  | some o => [⟨[Tag.fieldJsonName], ospan o, {}⟩, ⟨[Tag.fieldJsonName], o.value.span, {}⟩]

def jsonErrs (jn : Option OptionBody) : List ParseErrorKind :=
  match jn with
  | none => []
  | some o => stringErrs o.value

/-- The options of a field without `default`. -/
def opts1 (options : Option OptionList) : Option OptionList := drop1 options b!"default"
/-- The options of a field without `default` and `json_name`. -/
def opts2 (options : Option OptionList) : Option OptionList := drop1 (opts1 options) b!"json_name"
/-- The default value of a field. -/
def dfltOf (options : Option OptionList) : Option OptionBody := pick options b!"default"
/-- The JSON name of a field. -/
def jsonOf (options : Option OptionList) : Option OptionBody := pick (opts1 options) b!"json_name"

def tailMarks (options : Option OptionList) : List Mark :=
  jsonMarks (jsonOf options) ++ under [Tag.fieldOptions] (optListMarks (opts2 options))

def tailErrs (options : Option OptionList) : List ParseErrorKind :=
  jsonErrs (jsonOf options) ++ optListErrs (opts2 options)

theorem genFieldHead_runs (he : EnvOk src env) (p) {name number ft i} (hn : SpIn 0 src.length name.span)
    (hnum : SpIn 0 src.length number.span) (hi : i ≤ 2147483647) :
    Runs src env (genFieldHead name number ft i) p (messageNumber number) (messageNumberErrs number)
      (under p (under [ft, (i : Int)] (headMarks name number))) (p ++ [ft, (i : Int)]) := by
  refine Runs.conv (Runs.bind (Runs.index hi _) <| Runs.bind (Runs.extend _ _) <|
    Runs.bind (Runs.addSpanFor he _ hn _) <| Runs.bind (Runs.addSpanFor he _ hnum _) <|
    genMessageNumber_runs hnum _) rfl ?_ ?_ rfl
  · simp
  · simp [headMarks]

theorem genJsonName_runs (he : EnvOk src env) (p) {jn : Option OptionBody}
    (h : ∀ o, jn = some o → o.In 0 src.length) :
    Runs src env (genJsonName jn) p (jn.bind fun o => stringDefault o.value) (jsonErrs jn) (under p (jsonMarks jn)) p := by
  cases jn with
  | none => exact Runs.pure _ _
  | some o =>
    have ho := optionBody_span' (h o rfl)
    obtain ⟨_, c, h1, h2⟩ := h o rfl
    refine Runs.conv (Runs.bind (Runs.unwrap ho.1 _) <| Runs.bind (Runs.addSpanFor he _ ho.2 _) <|
      Runs.bind (Runs.addSpanFor he _ (value_span (h2.mono (Nat.zero_le _) (Nat.le_refl _))) _) <|
      genStringOptionValue_runs (h2.mono (Nat.zero_le _) (Nat.le_refl _)) _) rfl rfl ?_ rfl
    simp [jsonMarks]

/-- The field descriptor put together. -/
def mkField (k : KindOut) (number : Option Int) (p3 : Option Bool) (oi : Option Int) (options : Option OptionList) :
    FieldDescriptorProto :=
  { name := some k.name, number, label := k.label, type := k.type, typeName := k.typeName, extendee := none
    defaultValue := k.defaultValue, oneofIndex := oi, jsonName := (jsonOf options).bind fun o => stringDefault o.value
    options := optListDesc (opts2 options), proto3Optional := p3 }

theorem genFieldTail_runs (he : EnvOk src env) (p) {options number p3 oi k ft i}
    (h : optListIn 0 src.length options) (hs : optListSmall 2147483647 options) :
    Runs src env (genFieldTail (opts1 options) number p3 oi k) (p ++ [ft, i]) (mkField k number p3 oi options)
      (tailErrs options) (under p (under [ft, i] (tailMarks options))) p := by
  have h1 : optListIn 0 src.length (opts1 options) := drop1_in h
  refine Runs.conv (Runs.bind (genJsonName_runs he _ fun o ho => pick_in h1 ho) <| Runs.bind (Runs.extend _ _) <|
    Runs.bind (genOptionsList_runs he _ (drop1_in h1) (drop1_small (drop1_small hs))) <|
    Runs.bind (p1 := p) (a := ()) (e1 := []) (m1 := []) ?_ <| Runs.pure _ _) ?_ ?_ ?_ rfl
  · have := Runs.popPath (src := src) (env := env) [ft, i, Tag.fieldOptions] p (n := 3) rfl
    simpa using this
  · rfl
  · simp only [List.append_nil, List.nil_append]; rfl
  · simp only [under_append, under_under, tailMarks, List.append_nil, List.nil_append, List.append_assoc]; rfl
end
end Verif.Gen
