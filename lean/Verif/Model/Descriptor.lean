import Verif.Basic
/-!
The `prost_types` descriptor messages that protox produces (protox-parse/src/generate/mod.rs:2-9).
`i32` fields are `Int`, `u64` fields are `Nat`, `String`/`Vec<u8>` are `Bytes`.  Fields which protox never
sets are left out: the option messages hold only `uninterpreted_option` (and `map_entry`).
-/
namespace Verif

/-- `logos::Span` = `Range<usize>` (byte offsets). -/
structure Span where
  start : Nat
  stop : Nat
  deriving DecidableEq, Repr, Inhabited

/-- `join_span` (protox-parse/src/lib.rs:100-102). -/
def joinSpan (a b : Span) : Span := ⟨a.start, b.stop⟩

/-- A floating point value, kept symbolically: `f64` arithmetic and formatting are not modelled. -/
inductive FloatVal where
  /-- `str::parse::<f64>` of a literal, negated if `neg`. -/
  | lit (neg : Bool) (text : Bytes)
  /-- `u64 as f64`, negated if `neg`. -/
  | ofInt (neg : Bool) (n : Nat)
  /-- `f64::NAN`. -/
  | nan (neg : Bool)
  /-- `f64::INFINITY`. -/
  | inf (neg : Bool)
  deriving DecidableEq, Repr

/-- `prost_types::field_descriptor_proto::Type`. -/
inductive FieldType where
  | double | float | int64 | uint64 | int32 | fixed64 | fixed32 | bool | string | group
  | message | bytes | uint32 | enum | sfixed32 | sfixed64 | sint32 | sint64
  deriving DecidableEq, Repr

/-- `prost_types::field_descriptor_proto::Label`. -/
inductive Label where
  | optional | required | repeated
  deriving DecidableEq, Repr

/-- `prost_types::uninterpreted_option::NamePart`. -/
structure NamePart where
  namePart : Bytes
  isExtension : Bool
  deriving DecidableEq, Repr

/-- `prost_types::UninterpretedOption`. -/
structure UninterpretedOption where
  name : List NamePart := []
  identifierValue : Option Bytes := none
  positiveIntValue : Option Nat := none
  negativeIntValue : Option Int := none
  doubleValue : Option FloatVal := none
  stringValue : Option Bytes := none
  aggregateValue : Option Bytes := none
  deriving DecidableEq, Repr

/-- `prost_types::MessageOptions`. -/
structure MessageOptions where
  mapEntry : Option Bool := none
  uninterpretedOption : List UninterpretedOption := []
  deriving DecidableEq, Repr

/-- `prost_types::FieldDescriptorProto`. -/
structure FieldDescriptorProto where
  name : Option Bytes := none
  number : Option Int := none
  label : Option Label := none
  type : Option FieldType := none
  typeName : Option Bytes := none
  extendee : Option Bytes := none
  defaultValue : Option Bytes := none
  oneofIndex : Option Int := none
  jsonName : Option Bytes := none
  options : Option (List UninterpretedOption) := none
  proto3Optional : Option Bool := none
  deriving DecidableEq, Repr

/-- `prost_types::OneofDescriptorProto`. -/
structure OneofDescriptorProto where
  name : Option Bytes := none
  options : Option (List UninterpretedOption) := none
  deriving DecidableEq, Repr

/-- `descriptor_proto::ReservedRange` and `enum_descriptor_proto::EnumReservedRange`. -/
structure RangeProto where
  start : Option Int := none
  stop : Option Int := none
  deriving DecidableEq, Repr

/-- `descriptor_proto::ExtensionRange`. -/
structure ExtensionRangeProto where
  start : Option Int := none
  stop : Option Int := none
  options : Option (List UninterpretedOption) := none
  deriving DecidableEq, Repr

/-- `prost_types::EnumValueDescriptorProto`. -/
structure EnumValueDescriptorProto where
  name : Option Bytes := none
  number : Option Int := none
  options : Option (List UninterpretedOption) := none
  deriving DecidableEq, Repr

/-- `prost_types::EnumDescriptorProto`. -/
structure EnumDescriptorProto where
  name : Option Bytes := none
  value : List EnumValueDescriptorProto := []
  options : Option (List UninterpretedOption) := none
  reservedRange : List RangeProto := []
  reservedName : List Bytes := []
  deriving DecidableEq, Repr

/-- `prost_types::DescriptorProto`. -/
structure DescriptorProto where
  name : Option Bytes := none
  field : List FieldDescriptorProto := []
  extension : List FieldDescriptorProto := []
  nestedType : List DescriptorProto := []
  enumType : List EnumDescriptorProto := []
  extensionRange : List ExtensionRangeProto := []
  oneofDecl : List OneofDescriptorProto := []
  options : Option MessageOptions := none
  reservedRange : List RangeProto := []
  reservedName : List Bytes := []

/-- `prost_types::MethodDescriptorProto`. -/
structure MethodDescriptorProto where
  name : Option Bytes := none
  inputType : Option Bytes := none
  outputType : Option Bytes := none
  options : Option (List UninterpretedOption) := none
  clientStreaming : Option Bool := none
  serverStreaming : Option Bool := none
  deriving DecidableEq, Repr

/-- `prost_types::ServiceDescriptorProto`. -/
structure ServiceDescriptorProto where
  name : Option Bytes := none
  method : List MethodDescriptorProto := []
  options : Option (List UninterpretedOption) := none
  deriving DecidableEq, Repr

/-- `prost_types::source_code_info::Location`. -/
structure Location where
  path : List Int := []
  span : List Int := []
  leadingComments : Option Bytes := none
  trailingComments : Option Bytes := none
  leadingDetachedComments : List Bytes := []
  deriving DecidableEq, Repr

/-- `prost_types::FileDescriptorProto`; `sourceCodeInfo` is the list of locations. -/
structure FileDescriptorProto where
  name : Option Bytes := none
  package : Option Bytes := none
  dependency : List Bytes := []
  publicDependency : List Int := []
  weakDependency : List Int := []
  messageType : List DescriptorProto := []
  enumType : List EnumDescriptorProto := []
  service : List ServiceDescriptorProto := []
  extension : List FieldDescriptorProto := []
  options : Option (List UninterpretedOption) := none
  sourceCodeInfo : Option (List Location) := none
  syntax' : Option Bytes := none

/-- `FileDescriptorProto::name()` (prost getter: empty if unset). -/
def FileDescriptorProto.getName (f : FileDescriptorProto) : Bytes := f.name.getD []

end Verif
