import Verif.Model.Parser
import Verif.Model.Lines
/-!
The descriptor generator: protox-parse/src/generate/mod.rs, protox-parse/src/tag.rs, protox-parse/src/case.rs
and `parse` (protox-parse/src/lib.rs:76-90).

A panic (an `unwrap` of `None`, an index out of bounds, an arithmetic overflow, `unreachable!`) is `none`.
`&mut Vec` arguments are passed in and returned.  An error carries what its text is made from (see
Model/Message.lean).
-/
namespace Verif

/-! tag.rs -/
namespace Tag
/-- tag.rs:1 -/
def uninterpretedOption : Int := 999
/-- tag.rs:4 -/
def filePackage : Int := 2
/-- tag.rs:5 -/
def fileDependency : Int := 3
/-- tag.rs:6 -/
def filePublicDependency : Int := 10
/-- tag.rs:7 -/
def fileWeakDependency : Int := 11
/-- tag.rs:8 -/
def fileMessageType : Int := 4
/-- tag.rs:9 -/
def fileEnumType : Int := 5
/-- tag.rs:10 -/
def fileService : Int := 6
/-- tag.rs:11 -/
def fileExtension : Int := 7
/-- tag.rs:12 -/
def fileOptions : Int := 8
/-- tag.rs:13 -/
def fileSyntax : Int := 12
/-- tag.rs:17 -/
def messageName : Int := 1
/-- tag.rs:18 -/
def messageField : Int := 2
/-- tag.rs:19 -/
def messageExtension : Int := 6
/-- tag.rs:20 -/
def messageNestedType : Int := 3
/-- tag.rs:21 -/
def messageEnumType : Int := 4
/-- tag.rs:22 -/
def messageExtensionRange : Int := 5
/-- tag.rs:23 -/
def messageOptions : Int := 7
/-- tag.rs:24 -/
def messageOneofDecl : Int := 8
/-- tag.rs:25 -/
def messageReservedRange : Int := 9
/-- tag.rs:26 -/
def messageReservedName : Int := 10
/-- tag.rs:29, 35, 65 -/
def rangeStart : Int := 1
/-- tag.rs:30, 36, 66 -/
def rangeEnd : Int := 2
/-- tag.rs:31 -/
def extensionRangeOptions : Int := 3
/-- tag.rs:41 -/
def fieldName : Int := 1
/-- tag.rs:42 -/
def fieldExtendee : Int := 2
/-- tag.rs:43 -/
def fieldNumber : Int := 3
/-- tag.rs:44 -/
def fieldLabel : Int := 4
/-- tag.rs:45 -/
def fieldType : Int := 5
/-- tag.rs:46 -/
def fieldTypeName : Int := 6
/-- tag.rs:47 -/
def fieldDefaultValue : Int := 7
/-- tag.rs:48 -/
def fieldJsonName : Int := 10
/-- tag.rs:49 -/
def fieldOptions : Int := 8
/-- tag.rs:53 -/
def oneofName : Int := 1
/-- tag.rs:54 -/
def oneofOptions : Int := 2
/-- tag.rs:58 -/
def enumName : Int := 1
/-- tag.rs:59 -/
def enumValue : Int := 2
/-- tag.rs:60 -/
def enumOptions : Int := 3
/-- tag.rs:61 -/
def enumReservedRange : Int := 4
/-- tag.rs:62 -/
def enumReservedName : Int := 5
/-- tag.rs:71 -/
def enumValueName : Int := 1
/-- tag.rs:72 -/
def enumValueNumber : Int := 2
/-- tag.rs:73 -/
def enumValueOptions : Int := 3
/-- tag.rs:77 -/
def serviceName : Int := 1
/-- tag.rs:78 -/
def serviceMethod : Int := 2
/-- tag.rs:79 -/
def serviceOptions : Int := 3
/-- tag.rs:83 -/
def methodName : Int := 1
/-- tag.rs:84 -/
def methodInputType : Int := 2
/-- tag.rs:85 -/
def methodOutputType : Int := 3
/-- tag.rs:86 -/
def methodOptions : Int := 4
/-- tag.rs:87 -/
def methodClientStreaming : Int := 5
/-- tag.rs:88 -/
def methodServerStreaming : Int := 6
end Tag

/-- The loop of `to_pascal_case` (case.rs:17-33), on bytes: `to_ascii_uppercase` leaves the bytes of non-ASCII
characters alone. -/
def pascalLoop : Bool → Bytes → Bytes
  | _, [] => []
  | up, c :: cs =>
    if c = 95 then pascalLoop true cs
    else if up then toUpper c :: pascalLoop false cs
    else c :: pascalLoop false cs

/-- `to_pascal_case` (case.rs:17-33). -/
def toPascalCase (name : Bytes) : Bytes := pascalLoop true name

namespace Ast
/-- `Display for OptionValue` (ast/mod.rs:580-598), with `Display for Float` (ast/mod.rs:610-618). -/
def OptionValue.display [FloatFmt] : OptionValue → Bytes
  | .ident neg i _ => if neg then 45 :: i.value else i.value
  | .int i => i.display
  | .float f => FloatFmt.display f.value
  | .string s => s.display
  | .aggregate t _ => t

/-- `OptionValue::to_token_string` (ast/mod.rs:460-465). -/
def OptionValue.toTokenString [FloatFmt] : OptionValue → Bytes
  | .string s => 34 :: s.display ++ [34]
  | v => v.display

/-- `Display for Syntax` (ast/mod.rs:546-553). -/
def Syntax'.display : Syntax' → Bytes
  | .proto2 => b!"proto2"
  | .proto3 => b!"proto3"
end Ast

namespace Gen
open Ast

/-- The immutable part of `Context` (generate/mod.rs:48-54). -/
structure Env where
  syn : Syntax'
  lines : List Int

/-- The mutable part of `Context` (generate/mod.rs:48-54). -/
structure Ctx where
  path : List Int
  errors : List ParseErrorKind
  locations : List Location

/-- A method of `Context`; `none` is a panic. -/
def G (α : Type) := Env → Ctx → Option (α × Ctx)

instance : Monad G where
  pure a := fun _ c => some (a, c)
  bind g f := fun e c => match g e c with
    | none => none
    | some (a, c') => f a e c'

/-- A value whose absence is a panic (`unwrap`). -/
def unwrap {α : Type} : Option α → G α
  | none => fun _ _ => none
  | some a => pure a

/-- `index_to_i32` (lib.rs:94-98). -/
def index (n : Nat) : G Int := unwrap (indexToI32 n)

/-- `self.syntax`. -/
def syn : G Syntax' := fun e c => some (e.syn, c)

/-- `self.errors.push(..)`. -/
def err (k : ParseErrorKind) : G Unit := fun _ c => some ((), { c with errors := c.errors ++ [k] })

/-- `if c { self.errors.push(..) }`. -/
def errIf (c : Bool) (k : ParseErrorKind) : G Unit := if c then err k else pure ()

/-- `self.path.extend(..)` and `self.path.push(..)`. -/
def extend (xs : List Int) : G Unit := fun _ c => some ((), { c with path := c.path ++ xs })

/-- `Context::pop_path` (generate/mod.rs:1262-1264): the subtraction overflows if the path is shorter. -/
def popPath (n : Nat) : G Unit := fun _ c =>
  if n ≤ c.path.length then some ((), { c with path := c.path.take (c.path.length - n) }) else none

/-- `self.path.pop()`: does nothing on an empty path. -/
def pop : G Unit := fun _ c => some ((), { c with path := c.path.dropLast })

/-- `Context::add_comments` (generate/mod.rs:1239-1248). -/
def addComments (s : Span) (cm : Comments) : G Unit := fun e c =>
  match Lines.resolveSpan e.lines s with
  | none => none
  | some sp => some ((), { c with locations := c.locations ++
      [⟨c.path, sp, cm.leading, cm.trailing, cm.leadingDetached⟩] })

/-- `Context::add_span` (generate/mod.rs:1230-1237). -/
def addSpan (s : Span) : G Unit := fun e c =>
  match Lines.resolveSpan e.lines s with
  | none => none
  | some sp => some ((), { c with locations := c.locations ++ [{ path := c.path, span := sp }] })

/-- `Context::add_span_for` (generate/mod.rs:1250-1254). -/
def addSpanFor (xs : List Int) (s : Span) : G Unit := do
  extend xs
  addSpan s
  popPath xs.length

/-- `Context::add_comments_for` (generate/mod.rs:1256-1260). -/
def addCommentsFor (xs : List Int) (s : Span) (cm : Comments) : G Unit := do
  extend xs
  addComments s cm
  popPath xs.length

/-- `take_option` (generate/mod.rs:1267-1275): the first option of that name, and the remaining options. -/
def takeFirst (name : Bytes) : List OptionBody → Option (OptionBody × List OptionBody)
  | [] => none
  | o :: os =>
    if o.hasName name then some (o, os)
    else match takeFirst name os with
      | none => none
      | some (x, rest) => some (x, o :: rest)

/-- `take_option` (generate/mod.rs:1267-1275). -/
def takeOption (options : Option OptionList) (name : Bytes) : Option OptionBody × Option OptionList :=
  match options with
  | none => (none, none)
  | some l => match takeFirst name l.options with
    | none => (none, some l)
    | some (o, rest) => (some o, some ⟨rest, l.span⟩)

/-- The name loop of `generate_option` (generate/mod.rs:1151-1165). -/
def genNameParts : List OptionNamePart → G (List NamePart)
  | [] => pure []
  | .ident i :: ps => do
    let rest ← genNameParts ps
    pure (⟨i.value, false⟩ :: rest)
  | .extension t _ :: ps => do
    let n ← unwrap t.display
    let rest ← genNameParts ps
    pure (⟨n, true⟩ :: rest)

/-- `generate_option` (generate/mod.rs:1150-1228). -/
def genOption (o : OptionBody) : G UninterpretedOption := do
  let name ← genNameParts o.name
  match o.value with
  | .ident false i _ => pure { name, identifierValue := some i.value }
  | .ident true _ sp => do
    err (.negativeIdentOutsideDefault sp)
    pure {}
  | .int i =>
    if i.negative then do
      errIf i.asI64.isNone (.integerValueOutOfRange b!"a 64-bit integer" i
        (-9223372036854775808) 18446744073709551615 i.span)
      pure { name, negativeIntValue := i.asI64 }
    else pure { name, positiveIntValue := some i.value }
  | .float f => pure { name, doubleValue := some f.value }
  | .string s => pure { name, stringValue := some s.value }
  | .aggregate t _ => pure { name, aggregateValue := some t }

/-- `None` for no options (generate/mod.rs:1118-1122, 1143-1147). -/
def nonEmpty {α : Type} (os : List α) : Option (List α) := if os = [] then none else some os

/-- The loop of `generate_options` (generate/mod.rs:1108-1116). -/
def genOptionsLoop : List Opt → List UninterpretedOption → G (List UninterpretedOption)
  | [], acc => pure acc
  | o :: os, acc => do
    addSpan o.span
    let i ← index acc.length
    addCommentsFor [Tag.uninterpretedOption, i] o.span o.comments
    let u ← genOption o.body
    genOptionsLoop os (acc ++ [u])

/-- `generate_options` (generate/mod.rs:1105-1123). -/
def genOptions (os : List Opt) : G (Option (List UninterpretedOption)) := do
  let us ← genOptionsLoop os []
  pure (nonEmpty us)

/-- The loop of `generate_options_list` (generate/mod.rs:1134-1140). -/
def genOptionsListLoop : List OptionBody → List UninterpretedOption → G (List UninterpretedOption)
  | [], acc => pure acc
  | o :: os, acc => do
    let i ← index acc.length
    let sp ← unwrap o.span
    addSpanFor [Tag.uninterpretedOption, i] sp
    let u ← genOption o
    genOptionsListLoop os (acc ++ [u])

/-- `generate_options_list` (generate/mod.rs:1125-1148). -/
def genOptionsList (l : Option OptionList) : G (Option (List UninterpretedOption)) :=
  match l with
  | none => pure none
  | some l => do
    addSpan l.span
    let us ← genOptionsListLoop l.options []
    pure (nonEmpty us)

/-- `MAX_MESSAGE_FIELD_NUMBER` (protox-parse/src/lib.rs:23). -/
def maxFieldNumber : Int := 536870911

/-- `generate_message_number` (generate/mod.rs:771-780). -/
def genMessageNumber (i : Int') : G (Option Int) :=
  match i.asI32 with
  | some n =>
    if 1 ≤ n ∧ n ≤ maxFieldNumber then pure (some n)
    else do err (.invalidMessageNumber i.span); pure none
  | none => do err (.invalidMessageNumber i.span); pure none

/-- `generate_enum_number` (generate/mod.rs:1003-1012). -/
def genEnumNumber (i : Int') : G (Option Int) :=
  match i.asI32 with
  | some n => pure (some n)
  | none => do err (.invalidEnumNumber i.span); pure none

/-- `n + 1` on `i32` (overflow is a panic). -/
def succI32 (n : Int) : G Int := unwrap (if n < 2147483647 then some (n + 1) else none)

/-- `end.map(|n| n + 1)` (generate/mod.rs:804, 836). -/
def succOpt : Option Int → G (Option Int)
  | none => pure none
  | some n => do
    let m ← succI32 n
    pure (some m)

/-- The end of a message range before the addition (generate/mod.rs:792-800, 824-832). -/
def genRangeEnd (r : ReservedRangeEnd) (start : Option Int) (isMessageSet : Bool) : G (Option Int) :=
  match r with
  | .none => pure start
  | .int v => genMessageNumber v
  | .max _ => pure (some (if isMessageSet then 2147483647 - 1 else maxFieldNumber))

/-- `generate_message_reserved_range` (generate/mod.rs:782-806). -/
def genReservedRange (r : ReservedRange) (isMessageSet : Bool) : G RangeProto := do
  addSpan r.span
  addSpanFor [Tag.rangeStart] r.startSpan
  addSpanFor [Tag.rangeEnd] r.endSpan
  let start ← genMessageNumber r.start
  let stop ← genRangeEnd r.stop start isMessageSet
  let stop ← succOpt stop
  pure ⟨start, stop⟩

/-- `generate_message_extension_range` (generate/mod.rs:808-841). -/
def genExtensionRange (r : ReservedRange) (isMessageSet : Bool) (options : Option OptionList) :
    G ExtensionRangeProto := do
  addSpan r.span
  addSpanFor [Tag.rangeStart] r.startSpan
  addSpanFor [Tag.rangeEnd] r.endSpan
  extend [Tag.extensionRangeOptions]
  let opts ← genOptionsList options
  pop
  let start ← genMessageNumber r.start
  let stop ← genRangeEnd r.stop start isMessageSet
  let stop ← succOpt stop
  pure ⟨start, stop, opts⟩

/-- `generate_enum_reserved_range` (generate/mod.rs:1014-1030). -/
def genEnumReservedRange (r : ReservedRange) : G RangeProto := do
  addSpan r.span
  addSpanFor [Tag.rangeStart] r.startSpan
  addSpanFor [Tag.rangeEnd] r.endSpan
  let start ← genEnumNumber r.start
  let stop ← match r.stop with
    | .none => pure start
    | .int v => genEnumNumber v
    | .max _ => pure (some 2147483647)
  pure ⟨start, stop⟩

/-- `generate_string_option_value` (generate/mod.rs:749-769). -/
def genStringOptionValue (v : OptionValue) : G (Option Bytes) :=
  match v with
  | .string s =>
    if utf8Valid s.value then pure (some s.value)
    else do err (.invalidUtf8String s.span); pure none
  | v => do err (.valueInvalidType b!"a string" v v.span); pure none

/-- What `generate_field_default_value` knows of an integer type: the conversion, the description and the bounds
(generate/mod.rs:645-700). -/
structure IntSort where
  conv : Int' → Option Int
  expected : Bytes
  min : Int
  max : Int

/-- generate/mod.rs:645-657. -/
def IntSort.i64 : IntSort := ⟨Int'.asI64, b!"a signed 64-bit integer", -9223372036854775808, 9223372036854775807⟩
/-- generate/mod.rs:659-671. -/
def IntSort.i32 : IntSort := ⟨Int'.asI32, b!"a signed 32-bit integer", -2147483648, 2147483647⟩
/-- generate/mod.rs:673-685. -/
def IntSort.u64 : IntSort := ⟨Int'.asU64, b!"an unsigned 64-bit integer", 0, 18446744073709551615⟩
/-- generate/mod.rs:687-699. -/
def IntSort.u32 : IntSort := ⟨Int'.asU32, b!"an unsigned 32-bit integer", 0, 4294967295⟩

/-- The range check of an integer default (generate/mod.rs:645-700). -/
def genIntDefault (c : IntSort) (i : Int') : G (Option Bytes) :=
  match c.conv i with
  | some n => pure (some (decimalInt n))
  | none => do err (.integerValueOutOfRange c.expected i c.min c.max i.span); pure none

/-- An integer default of one of the ten integer types (generate/mod.rs:645-722). -/
def genIntegerDefault (c : IntSort) (v : OptionValue) : G (Option Bytes) :=
  match v with
  | .int i => genIntDefault c i
  | v => do err (.valueInvalidType b!"an integer" v v.span); pure none

/-- `generate_field_default_value` (generate/mod.rs:623-747). `bool::to_string` gives `true` or `false`. -/
def genFieldDefaultValue [FloatFmt] (ty : Option FieldType) (v : OptionValue) : G (Option Bytes) :=
  match ty with
  | some .double | some .float =>
    match v.asF64 with
    | some f => pure (some ((FloatFmt.plain f).map toLower))
    | none => do err (.valueInvalidType b!"a floating-point number" v v.span); pure none
  | some .int64 | some .sfixed64 | some .sint64 => genIntegerDefault .i64 v
  | some .int32 | some .sfixed32 | some .sint32 => genIntegerDefault .i32 v
  | some .uint64 | some .fixed64 => genIntegerDefault .u64 v
  | some .uint32 | some .fixed32 => genIntegerDefault .u32 v
  | some .bool =>
    match v.asBool with
    | some b => pure (some (if b then b!"true" else b!"false"))
    | none => do err (.valueInvalidType b!"either 'true' or 'false'" v v.span); pure none
  | some .string => genStringOptionValue v
  | some .bytes =>
    match v with
    | .string s => pure (some s.display)
    | v => do err (.valueInvalidType b!"a string" v v.span); pure none
  | none | some .message | some .group | some .enum => fun _ _ => none

/-- `FieldScope` (generate/mod.rs:56-60). -/
inductive FieldScope where
  | message | oneof | extend
  deriving DecidableEq, Repr

/-- `generate_field_label` (generate/mod.rs:578-621). -/
def genFieldLabel (label : Option (FieldLabel × Span)) (fieldSpan : Span) (scope : FieldScope) :
    G (Option Label) := do
  let s ← syn
  match scope, label with
  | .extend, some (.required, sp) => do err (.requiredExtendField sp); pure none
  | .oneof, some (_, sp) => do err (.oneofFieldWithLabel sp); pure none
  | scope, none =>
    if scope ≠ .oneof ∧ s = .proto2 then do err (.proto2FieldMissingLabel fieldSpan); pure none
    else pure (some .optional)
  | _, some (.required, sp) =>
    if s = .proto3 then do err (.proto3RequiredField sp); pure none
    else do addSpanFor [Tag.fieldLabel] sp; pure (some .required)
  | _, some (.repeated, sp) => do addSpanFor [Tag.fieldLabel] sp; pure (some .repeated)
  | _, some (.optional, sp) => do addSpanFor [Tag.fieldLabel] sp; pure (some .optional)

/-- The synthetic oneof of a proto3 optional field (generate/mod.rs:349-373): `proto3_optional`,
`oneof_index` and the list of oneofs. -/
def genProto3Optional (label : Option (FieldLabel × Span)) (name : Bytes) (oneofTag : Option Int)
    (oneofs : List OneofDescriptorProto) : G (Option Bool × Option Int × List OneofDescriptorProto) := do
  let s ← syn
  match label with
  | some (.optional, _) =>
    if s ≠ .proto2 then
      match oneofTag with
      | some tag => do
        let oneofName := if name.head? = some 95 then 88 :: name else 95 :: name
        let i ← index oneofs.length
        extend [tag, i]
        popPath 2
        pure (some true, some i, oneofs ++ [{ name := some oneofName, options := none }])
      | none => pure (some true, none, oneofs)
    else pure (none, none, oneofs)
  | _ => pure (none, none, oneofs)

/-- Is the kind a map (generate/mod.rs:379)? -/
def isMap : FieldKind → Bool
  | .map .. => true
  | _ => false

/-- The checks of a default value that do not depend on the value (generate/mod.rs:375-391). -/
def genDefaultCheck (label : Option (FieldLabel × Span)) (map : Bool) (dflt : Option OptionBody) : G Unit := do
  let s ← syn
  match dflt with
  | none => pure ()
  | some o => do
    let sp ← unwrap o.span
    if map then err (.invalidDefault b!"map" sp)
    else match label with
    | some (.repeated, _) => err (.invalidDefault b!"repeated" sp)
    | _ => errIf (s ≠ .proto2) (.proto3DefaultValue sp)

/-- Is the type allowed as a map key (generate/mod.rs:499-513)? -/
def validKey : Ty → Bool
  | .int32 | .int64 | .uint32 | .uint64 | .sint32 | .sint64 | .fixed32 | .fixed64 | .sfixed32 | .sfixed64
  | .bool | .string => true
  | _ => false

/-- The errors of a map field in a given scope (generate/mod.rs:476-494). -/
def genMapScope (label : Option (FieldLabel × Span)) (span : Span) (scope : FieldScope) : G Unit :=
  match scope with
  | .oneof => err (.invalidOneofFieldKind b!"map" span)
  | .extend => err (.invalidExtendFieldKind b!"map" span)
  | .message => match label with
    | some (_, sp) => err (.mapFieldWithLabel sp)
    | none => pure ()

/-- The entry message of a map (generate/mod.rs:518-544). -/
def mapEntry (name : Bytes) (key : Option FieldType) (value : Option FieldType) (valueName : Option Bytes) :
    DescriptorProto :=
  { name := some name
    field := [
      { name := some b!"key", jsonName := some b!"key", label := some .optional, number := some 1, type := key },
      { name := some b!"value", jsonName := some b!"value", label := some .optional, number := some 2,
        type := value, typeName := valueName }]
    options := some { mapEntry := some true } }

/-- `json_name` (generate/mod.rs:548-554). -/
def genJsonName (o : Option OptionBody) : G (Option Bytes) :=
  match o with
  | none => pure none
  | some o => do
    let sp ← unwrap o.span
    addSpanFor [Tag.fieldJsonName] sp
    addSpanFor [Tag.fieldJsonName] o.value.span
    genStringOptionValue o.value

/-- The part of a field descriptor decided by the kind of the field. -/
structure KindOut where
  name : Bytes
  label : Option Label
  type : Option FieldType
  typeName : Option Bytes
  defaultValue : Option Bytes
  messages : List DescriptorProto

/-- The default of a field with a named type (generate/mod.rs:410-413). -/
def genNamedDefault [FloatFmt] (dflt : Option OptionBody) : G (Option Bytes) :=
  match dflt with
  | none => pure none
  | some o => do
    addSpanFor [Tag.fieldDefaultValue] o.value.span
    pure (some o.value.toTokenString)

/-- The default of a field with a scalar type (generate/mod.rs:421-424). -/
def genScalarDefault [FloatFmt] (ty : Option FieldType) (dflt : Option OptionBody) : G (Option Bytes) :=
  match dflt with
  | none => pure none
  | some o => do
    addSpanFor [Tag.fieldDefaultValue] o.value.span
    genFieldDefaultValue ty o.value

/-- The `Normal` case of `generate_field_descriptor` with a named type (generate/mod.rs:399-414). -/
def genNamedKind [FloatFmt] (name : Ident) (label : Option (FieldLabel × Span)) (span : Span) (comments : Comments)
    (t : TypeName) (dflt : Option OptionBody) (scope : FieldScope) (messages : List DescriptorProto) :
    G KindOut := do
  let label ← genFieldLabel label span scope
  let tn ← unwrap t.display
  addComments span comments
  let tsp ← unwrap t.span
  addSpanFor [Tag.fieldTypeName] tsp
  let d ← genNamedDefault dflt
  pure ⟨name.value, label, none, some tn, d, messages⟩

/-- The `Normal` case of `generate_field_descriptor` with a scalar type (generate/mod.rs:415-428). -/
def genScalarKind [FloatFmt] (name : Ident) (label : Option (FieldLabel × Span)) (span : Span) (comments : Comments)
    (ty : Ty) (tySpan : Span) (dflt : Option OptionBody) (scope : FieldScope) (messages : List DescriptorProto) :
    G KindOut := do
  let label ← genFieldLabel label span scope
  let d ← genScalarDefault ty.protoTy dflt
  addComments span comments
  addSpanFor [Tag.fieldType] tySpan
  pure ⟨name.value, label, ty.protoTy, none, d, messages⟩

/-- The `Map` case of `generate_field_descriptor` (generate/mod.rs:464-545). -/
def genMapKind (name : Ident) (label : Option (FieldLabel × Span)) (span : Span) (comments : Comments)
    (tySpan : Span) (keyTy : Ty) (keySpan : Span) (valueTy : Ty) (scope : FieldScope)
    (messages : List DescriptorProto) : G KindOut := do
  let tn := toPascalCase name.value ++ b!"Entry"
  genMapScope label span scope
  addComments span comments
  addSpanFor [Tag.fieldTypeName] tySpan
  errIf (!validKey keyTy) (.invalidMapFieldKeyType keySpan)
  let vn ← unwrap valueTy.tyName
  pure ⟨name.value, some .repeated, some .message, some tn, none,
    messages ++ [mapEntry tn keyTy.protoTy valueTy.protoTy vn]⟩

/-- `ast.items.iter().filter(Oneof).count()` (generate/mod.rs:203-207). -/
def countOneofs : List MessageItem → Nat
  | [] => 0
  | .oneof _ :: xs => countOneofs xs + 1
  | _ :: xs => countOneofs xs

/-- `is_message_set` (generate/mod.rs:261-268). -/
def isMessageSet (opts : List Opt) : Bool :=
  match opts.find? (fun o => o.body.hasName b!"message_set_wire_format") with
  | some o => o.body.value.asBool.getD false
  | none => false

/-- The loop over reserved ranges (generate/mod.rs:275-280). -/
def genReservedRanges (ms : Bool) : List ReservedRange → List RangeProto → G (List RangeProto)
  | [], acc => pure acc
  | r :: rs, acc => do
    let i ← index acc.length
    extend [i]
    let x ← genReservedRange r ms
    pop
    genReservedRanges ms rs (acc ++ [x])

/-- The loop over reserved names (generate/mod.rs:286-289, 956-959). -/
def genReservedNames : List Ident → List Bytes → G (List Bytes)
  | [], acc => pure acc
  | n :: ns, acc => do
    let i ← index acc.length
    addSpanFor [i] n.span
    genReservedNames ns (acc ++ [n.value])

/-- The loop over `reserved` declarations of a message (generate/mod.rs:270-293). -/
def genReserved (ms : Bool) : List Reserved → List RangeProto × List Bytes → G (List RangeProto × List Bytes)
  | [], acc => pure acc
  | ⟨.ranges rs, cm, sp⟩ :: xs, (ranges, names) => do
    extend [Tag.messageReservedRange]
    addComments sp cm
    let ranges ← genReservedRanges ms rs ranges
    pop
    genReserved ms xs (ranges, names)
  | ⟨.names ns, cm, sp⟩ :: xs, (ranges, names) => do
    extend [Tag.messageReservedName]
    addComments sp cm
    let names ← genReservedNames ns names
    pop
    genReserved ms xs (ranges, names)

/-- The loop over the ranges of one `extensions` declaration (generate/mod.rs:299-307). -/
def genExtensionRanges (ms : Bool) (opts : Option OptionList) :
    List ReservedRange → List ExtensionRangeProto → G (List ExtensionRangeProto)
  | [], acc => pure acc
  | r :: rs, acc => do
    let i ← index acc.length
    extend [i]
    let x ← genExtensionRange r ms opts
    pop
    genExtensionRanges ms opts rs (acc ++ [x])

/-- The loop over `extensions` declarations (generate/mod.rs:296-308). -/
def genExtensions (ms : Bool) : List Extensions → List ExtensionRangeProto → G (List ExtensionRangeProto)
  | [], acc => pure acc
  | e :: es, acc => do
    addComments e.span e.comments
    let acc ← genExtensionRanges ms e.options e.ranges acc
    genExtensions ms es acc

/-- `generate_enum_value_descriptor` (generate/mod.rs:981-1001). -/
def genEnumValue (v : EnumValue) : G EnumValueDescriptorProto := do
  addComments v.span v.comments
  addSpanFor [Tag.enumValueName] v.name.span
  addSpanFor [Tag.enumValueNumber] v.number.span
  let number ← genEnumNumber v.number
  extend [Tag.enumValueOptions]
  let options ← genOptionsList v.options
  pop
  pure ⟨some v.name.value, number, options⟩

/-- The loop over enum values (generate/mod.rs:934-939). -/
def genEnumValues : List EnumValue → List EnumValueDescriptorProto → G (List EnumValueDescriptorProto)
  | [], acc => pure acc
  | v :: vs, acc => do
    let i ← index acc.length
    extend [Tag.enumValue, i]
    let x ← genEnumValue v
    popPath 2
    genEnumValues vs (acc ++ [x])

/-- The loop over reserved ranges of an enum (generate/mod.rs:946-950). -/
def genEnumReservedRanges : List ReservedRange → List RangeProto → G (List RangeProto)
  | [], acc => pure acc
  | r :: rs, acc => do
    let i ← index acc.length
    extend [i]
    let x ← genEnumReservedRange r
    pop
    genEnumReservedRanges rs (acc ++ [x])

/-- The loop over `reserved` declarations of an enum (generate/mod.rs:941-964). -/
def genEnumReserved : List Reserved → List RangeProto × List Bytes → G (List RangeProto × List Bytes)
  | [], acc => pure acc
  | ⟨.ranges rs, cm, sp⟩ :: xs, (ranges, names) => do
    extend [Tag.enumReservedRange]
    addComments sp cm
    let ranges ← genEnumReservedRanges rs ranges
    pop
    genEnumReserved xs (ranges, names)
  | ⟨.names ns, cm, sp⟩ :: xs, (ranges, names) => do
    extend [Tag.enumReservedName]
    addComments sp cm
    let names ← genReservedNames ns names
    pop
    genEnumReserved xs (ranges, names)

/-- `generate_enum_descriptor` (generate/mod.rs:925-979). -/
def genEnum (e : Enum) : G EnumDescriptorProto := do
  addComments e.span e.comments
  addSpanFor [Tag.enumName] e.name.span
  let value ← genEnumValues e.values []
  let (ranges, names) ← genEnumReserved e.reserved ([], [])
  extend [Tag.enumOptions]
  let options ← genOptions e.options
  pop
  pure ⟨some e.name.value, value, options, ranges, names⟩

/-- `if let Some(span) = .. { self.add_span_for(..) }` (generate/mod.rs:1075-1077, 1083-1085). -/
def addSpanOpt (tag : Int) : Option Span → G Unit
  | none => pure ()
  | some sp => addSpanFor [tag] sp

/-- `generate_method_descriptor` (generate/mod.rs:1060-1103). -/
def genMethod (x : Method) : G MethodDescriptorProto := do
  addComments x.span x.comments
  addSpanFor [Tag.methodName] x.name.span
  let isp ← unwrap x.inputTy.span
  addSpanFor [Tag.methodInputType] isp
  let input ← unwrap x.inputTy.display
  let osp ← unwrap x.outputTy.span
  addSpanFor [Tag.methodOutputType] osp
  let output ← unwrap x.outputTy.display
  addSpanOpt Tag.methodClientStreaming x.clientStreaming
  addSpanOpt Tag.methodServerStreaming x.serverStreaming
  extend [Tag.methodOptions]
  let options ← genOptions x.options
  pop
  pure ⟨some x.name.value, some input, some output, options,
    if x.clientStreaming.isSome then some true else none,
    if x.serverStreaming.isSome then some true else none⟩

/-- The loop over methods (generate/mod.rs:1039-1043). -/
def genMethods : List Method → List MethodDescriptorProto → G (List MethodDescriptorProto)
  | [], acc => pure acc
  | x :: xs, acc => do
    let i ← index acc.length
    extend [i]
    let d ← genMethod x
    pop
    genMethods xs (acc ++ [d])

/-- `generate_service_descriptor` (generate/mod.rs:1032-1058). -/
def genService (s : Service) : G ServiceDescriptorProto := do
  addComments s.span s.comments
  addSpanFor [Tag.serviceName] s.name.span
  extend [Tag.serviceMethod]
  let methods ← genMethods s.methods []
  pop
  extend [Tag.serviceOptions]
  let options ← genOptions s.options
  pop
  pure ⟨some s.name.value, methods, options⟩

/-- The vectors built by `generate_message_body_descriptor` while it walks over the items
(generate/mod.rs:193-210). -/
structure BodyAcc where
  field : List FieldDescriptorProto
  extension : List FieldDescriptorProto
  nestedType : List DescriptorProto
  enumType : List EnumDescriptorProto
  oneofDecl : List OneofDescriptorProto
  realOneofIndex : Nat

/-- What follows the items in `generate_message_body_descriptor` (generate/mod.rs:261-330). -/
def genBodyTail (exts : List Extensions) (opts : List Opt) (res : List Reserved) (acc : BodyAcc) :
    G DescriptorProto := do
  let ms := isMessageSet opts
  let (ranges, names) ← genReserved ms res ([], [])
  extend [Tag.messageExtensionRange]
  let extRanges ← genExtensions ms exts []
  pop
  extend [Tag.messageOptions]
  let options ← genOptions opts
  pop
  pure {
    name := none
    field := acc.field
    extension := acc.extension
    nestedType := acc.nestedType
    enumType := acc.enumType
    extensionRange := extRanges
    oneofDecl := acc.oneofDecl
    options := options.map fun us => { uninterpretedOption := us }
    reservedRange := ranges
    reservedName := names }

/-- `oneof_decl[i] = d` (generate/mod.rs:246): out of bounds is a panic. -/
def setAt (l : List OneofDescriptorProto) (i : Nat) (d : OneofDescriptorProto) : G (List OneofDescriptorProto) :=
  unwrap (if i < l.length then some (l.set i d) else none)

/-- The oneof itself, without its fields (generate/mod.rs:853-860). -/
def genOneofHead (o : Oneof) (oneofIndex : Nat) : G OneofDescriptorProto := do
  let i ← index oneofIndex
  extend [Tag.messageOneofDecl, i]
  addComments o.span o.comments
  addSpanFor [Tag.oneofName] o.name.span
  extend [Tag.oneofOptions]
  let options ← genOptions o.options
  pop
  popPath 2
  pure ⟨some o.name.value, options⟩

/-- The check for an empty oneof (generate/mod.rs:862-865). -/
def genOneofCheck (o : Oneof) : G Unit :=
  if o.fields.isEmpty then err (.emptyOneof o.span) else pure ()

/-- The start of `generate_extend_descriptors` (generate/mod.rs:899-901). -/
def genExtendHead (extensionTag : Int) (span : Span) (comments : Comments) : G Unit := do
  extend [extensionTag]
  addComments span comments
  pop

/-- The location of the extendee (generate/mod.rs:904-907). -/
def genExtendee (extendee : TypeName) (extensionTag : Int) (n : Nat) : G Unit := do
  let i ← index n
  extend [extensionTag, i]
  let sp ← unwrap extendee.span
  addSpanFor [Tag.fieldExtendee] sp
  popPath 2

/-- The start of `generate_field_descriptor` (generate/mod.rs:344-347). -/
def genFieldHead (name : Ident) (number : Int') (fieldTag : Int) (fieldIndex : Nat) : G (Option Int) := do
  let i ← index fieldIndex
  extend [fieldTag, i]
  addSpanFor [Tag.fieldName] name.span
  addSpanFor [Tag.fieldNumber] number.span
  genMessageNumber number

/-- The end of `generate_field_descriptor` (generate/mod.rs:548-576). -/
def genFieldTail (options : Option OptionList) (number : Option Int) (p3 : Option Bool) (oneofIndex : Option Int)
    (k : KindOut) : G FieldDescriptorProto := do
  let (jn, options) := takeOption options b!"json_name"
  let jsonName ← genJsonName jn
  extend [Tag.fieldOptions]
  let opts ← genOptionsList options
  popPath 3
  pure {
    name := some k.name
    number
    label := k.label
    type := k.type
    typeName := k.typeName
    extendee := none
    defaultValue := k.defaultValue
    oneofIndex
    jsonName
    options := opts
    proto3Optional := p3 }

/-- A default value on a group is an error (generate/mod.rs:441-446). -/
def genGroupDefault (dflt : Option OptionBody) : G Unit :=
  match dflt with
  | none => pure ()
  | some o => do
    let sp ← unwrap o.span
    err (.invalidDefault b!"group" sp)

/-- The `Group` case up to the message (generate/mod.rs:429-456). -/
def genGroupHead (name : Ident) (label : Option (FieldLabel × Span)) (span : Span) (comments : Comments)
    (tySpan : Span) (dflt : Option OptionBody) (scope : FieldScope) (messageTag : Int) (messages : Nat) :
    G (Option Label) := do
  let label ← genFieldLabel label span scope
  let s ← syn
  errIf (s ≠ .proto2) (.proto3GroupField span)
  genGroupDefault dflt
  addSpan span
  addSpanFor [Tag.fieldType] tySpan
  addSpanFor [Tag.fieldTypeName] name.span
  popPath 2
  let i ← index messages
  extend [messageTag, i]
  addComments span comments
  addSpanFor [Tag.messageName] name.span
  pure label

mutual
/-- `generate_message_body_descriptor` (generate/mod.rs:192-330). -/
def genBody [FloatFmt] : MessageBody → G DescriptorProto
  | ⟨items, exts, opts, res⟩ => do
    let acc ← genItems items
      ⟨[], [], [], [], List.replicate (countOneofs items) {}, 0⟩
    genBodyTail exts opts res acc

/-- The loop over the items of a message (generate/mod.rs:211-259). -/
def genItems [FloatFmt] : List MessageItem → BodyAcc → G BodyAcc
  | [], acc => pure acc
  | x :: xs, acc => do
    let acc ← genItem x acc
    genItems xs acc

/-- One item of a message (generate/mod.rs:212-258). -/
def genItem [FloatFmt] : MessageItem → BodyAcc → G BodyAcc
  | .field f, acc => do
    let (d, nested, oneofs) ← genField f acc.field.length Tag.messageField Tag.messageNestedType acc.nestedType
      (some Tag.messageOneofDecl) acc.oneofDecl .message
    pure { acc with field := acc.field ++ [d], nestedType := nested, oneofDecl := oneofs }
  | .enum e, acc => do
    let i ← index acc.enumType.length
    extend [Tag.messageEnumType, i]
    let d ← genEnum e
    popPath 2
    pure { acc with enumType := acc.enumType ++ [d] }
  | .message m, acc => do
    let i ← index acc.nestedType.length
    extend [Tag.messageNestedType, i]
    let d ← genMessage m
    popPath 2
    pure { acc with nestedType := acc.nestedType ++ [d] }
  | .extend ⟨extendee, fields, comments, span⟩, acc => do
    genExtendHead Tag.messageExtension span comments
    let (exts, nested) ← genExtendFields extendee Tag.messageExtension Tag.messageNestedType fields acc.extension
      acc.nestedType
    pure { acc with extension := exts, nestedType := nested }
  | .oneof ⟨name, options, fields, comments, span⟩, acc => do
    let d ← genOneofHead ⟨name, options, fields, comments, span⟩ acc.realOneofIndex
    genOneofCheck ⟨name, options, fields, comments, span⟩
    let (fs, nested) ← genOneofFields acc.realOneofIndex fields acc.field acc.nestedType
    let decls ← setAt acc.oneofDecl acc.realOneofIndex d
    pure { acc with field := fs, nestedType := nested, oneofDecl := decls,
                    realOneofIndex := acc.realOneofIndex + 1 }

/-- The loop over the fields of a oneof in `generate_oneof_descriptor` (generate/mod.rs:867-881). -/
def genOneofFields [FloatFmt] (oneofIndex : Nat) : List Field → List FieldDescriptorProto → List DescriptorProto →
    G (List FieldDescriptorProto × List DescriptorProto)
  | [], fs, ms => pure (fs, ms)
  | f :: rest, fs, ms => do
    let i ← index oneofIndex
    let (d, ms, _) ← genField f fs.length Tag.messageField Tag.messageNestedType ms none [] .oneof
    genOneofFields oneofIndex rest (fs ++ [{ d with oneofIndex := some i }]) ms

/-- The loop of `generate_extend_descriptors` (generate/mod.rs:903-922). -/
def genExtendFields [FloatFmt] (extendee : TypeName) (extensionTag messageTag : Int) : List Field →
    List FieldDescriptorProto → List DescriptorProto → G (List FieldDescriptorProto × List DescriptorProto)
  | [], fs, ms => pure (fs, ms)
  | f :: rest, fs, ms => do
    genExtendee extendee extensionTag fs.length
    let n ← unwrap extendee.display
    let (d, ms, _) ← genField f fs.length extensionTag messageTag ms none [] .extend
    genExtendFields extendee extensionTag messageTag rest (fs ++ [{ d with extendee := some n }]) ms

/-- `generate_message_descriptor` (generate/mod.rs:180-190). -/
def genMessage [FloatFmt] : Message → G DescriptorProto
  | ⟨name, body, comments, span⟩ => do
    addComments span comments
    addSpanFor [Tag.messageName] name.span
    let d ← genBody body
    pure { d with name := some name.value }

/-- `generate_field_descriptor` (generate/mod.rs:333-576). -/
def genField [FloatFmt] : Field → Nat → Int → Int → List DescriptorProto → Option Int → List OneofDescriptorProto →
    FieldScope → G (FieldDescriptorProto × List DescriptorProto × List OneofDescriptorProto)
  | ⟨label, name, kind, number, options, comments, span⟩, fieldIndex, fieldTag, messageTag, messages, oneofTag,
      oneofs, scope => do
    let num ← genFieldHead name number fieldTag fieldIndex
    let (p3, oi, oneofs) ← genProto3Optional label name.value oneofTag oneofs
    let (dflt, options) := takeOption options b!"default"
    genDefaultCheck label (isMap kind) dflt
    let k ← genKind kind name label span comments dflt fieldTag fieldIndex messageTag messages scope
    let d ← genFieldTail options num p3 oi k
    pure (d, k.messages, oneofs)

/-- The match on the kind of a field in `generate_field_descriptor` (generate/mod.rs:398-546). -/
def genKind [FloatFmt] : FieldKind → Ident → Option (FieldLabel × Span) → Span → Comments → Option OptionBody →
    Int → Nat → Int → List DescriptorProto → FieldScope → G KindOut
  | .normal (.named t) _, name, label, span, comments, dflt, _, _, _, messages, scope =>
    genNamedKind name label span comments t dflt scope messages
  | .normal ty tySpan, name, label, span, comments, dflt, _, _, _, messages, scope =>
    genScalarKind name label span comments ty tySpan dflt scope messages
  | .group tySpan body, name, label, span, comments, dflt, fieldTag, fieldIndex, messageTag, messages, scope => do
    let label ← genGroupHead name label span comments tySpan dflt scope messageTag messages.length
    let d ← genBody body
    popPath 2
    let i ← index fieldIndex
    extend [fieldTag, i]
    pure ⟨name.value.map toLower, label, some .group, some name.value, none,
      messages ++ [{ d with name := some name.value }]⟩
  | .map tySpan keyTy keySpan valueTy _, name, label, span, comments, _, _, _, _, messages, scope =>
    genMapKind name label span comments tySpan keyTy keySpan valueTy scope messages
end

/-- The vectors of `generate_file_descriptor` (generate/mod.rs:73-75). -/
structure ImportAcc where
  dependency : List Bytes
  publicDependency : List Int
  weakDependency : List Int

/-- The loop over imports (generate/mod.rs:76-109). -/
def genImports : List Import → ImportAcc → G ImportAcc
  | [], acc => pure acc
  | x :: xs, acc => do
    let i ← index acc.dependency.length
    addCommentsFor [Tag.fileDependency, i] x.span x.comments
    let acc := { acc with dependency := acc.dependency ++ [x.value] }
    match x.kind with
    | some (.publ, sp) => do
      let j ← index acc.publicDependency.length
      addSpanFor [Tag.filePublicDependency, j] sp
      genImports xs { acc with publicDependency := acc.publicDependency ++ [i] }
    | some (.weak, sp) => do
      let j ← index acc.weakDependency.length
      addSpanFor [Tag.fileWeakDependency, j] sp
      genImports xs { acc with weakDependency := acc.weakDependency ++ [i] }
    | none => genImports xs acc

/-- The vectors of the item loop of `generate_file_descriptor` (generate/mod.rs:111-114). -/
structure FileAcc where
  messageType : List DescriptorProto
  enumType : List EnumDescriptorProto
  service : List ServiceDescriptorProto
  extension : List FieldDescriptorProto

/-- One item of a file (generate/mod.rs:117-149). -/
def genFileItem [FloatFmt] (x : FileItem) (acc : FileAcc) : G FileAcc :=
  match x with
  | .message m => do
    let i ← index acc.messageType.length
    extend [Tag.fileMessageType, i]
    let d ← genMessage m
    popPath 2
    pure { acc with messageType := acc.messageType ++ [d] }
  | .enum e => do
    let i ← index acc.enumType.length
    extend [Tag.fileEnumType, i]
    let d ← genEnum e
    popPath 2
    pure { acc with enumType := acc.enumType ++ [d] }
  | .service s => do
    let i ← index acc.service.length
    extend [Tag.fileService, i]
    let d ← genService s
    popPath 2
    pure { acc with service := acc.service ++ [d] }
  | .extend e => do
    genExtendHead Tag.fileExtension e.span e.comments
    let (exts, ms) ← genExtendFields e.extendee Tag.fileExtension Tag.fileMessageType e.fields acc.extension
      acc.messageType
    pure { acc with extension := exts, messageType := ms }

/-- The loop over the items of a file (generate/mod.rs:116-150). -/
def genFileItems [FloatFmt] : List FileItem → FileAcc → G FileAcc
  | [], acc => pure acc
  | x :: xs, acc => do
    let acc ← genFileItem x acc
    genFileItems xs acc

/-- The package (generate/mod.rs:66-71). -/
def genPackage (p : Option Package) : G (Option Bytes) :=
  match p with
  | none => pure none
  | some p => do
    addCommentsFor [Tag.filePackage] p.span p.comments
    let n ← unwrap p.name.display
    pure (some n)

/-- The location of the syntax (generate/mod.rs:156-158). -/
def genSyntaxSpan (s : Option (Span × Comments)) : G Unit :=
  match s with
  | none => pure ()
  | some (sp, cm) => addCommentsFor [Tag.fileSyntax] sp cm

/-- `generate_file_descriptor` (generate/mod.rs:63-178). -/
def genFile [FloatFmt] (name : Bytes) (f : File) : G FileDescriptorProto := do
  addSpan f.span
  let package ← genPackage f.package
  let imports ← genImports f.imports ⟨[], [], []⟩
  let items ← genFileItems f.items ⟨[], [], [], []⟩
  extend [Tag.fileOptions]
  let options ← genOptions f.options
  pop
  genSyntaxSpan f.syntaxSpan
  pure {
    name := some name
    package
    dependency := imports.dependency
    publicDependency := imports.publicDependency
    weakDependency := imports.weakDependency
    messageType := items.messageType
    enumType := items.enumType
    service := items.service
    extension := items.extension
    options
    sourceCodeInfo := none
    syntax' := if f.syntax' = .proto2 then none else some f.syntax'.display }

end Gen

/-- Lexicographic order of `Vec<i32>` (std `Ord for [T]`). -/
def pathLe : List Int → List Int → Bool
  | [], _ => true
  | _ :: _, [] => false
  | a :: as, b :: bs => if a < b then true else if b < a then false else pathLe as bs

/-- The contract of `sort_unstable_by(|l, r| l.path.cmp(&r.path))` (generate/mod.rs:36): some permutation of
the list that is ordered by path.  Which one is not specified, as the sort is unstable. -/
class LocSort where
  sort : List Location → List Location
  perm : ∀ l, (sort l).Perm l
  sorted : ∀ l, (sort l).Pairwise (fun a b => pathLe a.path b.path = true)

namespace Gen
/-- `generate_file` (generate/mod.rs:19-46). -/
def generateFile [FloatFmt] [LocSort] (f : Ast.File) (name source : Bytes) :
    Option (Except (List ParseErrorKind) FileDescriptorProto) :=
  match Lines.new source with
  | none => none
  | some lines =>
    match genFile name f ⟨f.syntax', lines⟩ ⟨[], [], []⟩ with
    | none => none
    | some (file, c) =>
      if c.errors = [] then
        some (.ok { file with sourceCodeInfo := some (LocSort.sort c.locations) })
      else some (.error c.errors)
end Gen

/-- `parse` (protox-parse/src/lib.rs:76-90). `none` is a panic (or the parser model running out of fuel). -/
def parse [FloatFmt] [LocSort] (name source : Bytes) : Option (Except ParseError FileDescriptorProto) :=
  if source.length > maxParseLen then
    (ParseError.new [.fileTooLarge] name []).map .error
  else
    match Parse.parseFile source with
    | .ok (.error errs) => (ParseError.new errs name source).map .error
    | .ok (.ok f) =>
      match Gen.generateFile f name source with
      | none => none
      | some (.ok fd) => some (.ok fd)
      | some (.error errs) => (ParseError.new errs name source).map .error
    | _ => none

end Verif
