import Verif.Spec.Source
import Verif.Model.Generate
/-!
What the elements of a descriptor contain, in terms of what is written: small definitions used by the statements
of C33–C45.
-/
namespace Verif.Spec
open Verif.Ast

/-- A dotted name as text. -/
def identText (f : FullIdent) : Bytes := joinWith 46 (f.parts.map (·.value))

/-- A type name as text: the parts separated by dots, with the leading dot if it is written. -/
def typeText (t : TypeName) : Bytes := (if t.leadingDot.isSome then [46] else []) ++ identText t.name

/-- The option is named by the single identifier `n`. -/
def named (n : Bytes) (o : OptionBody) : Bool :=
  match o.name with
  | [.ident i] => i.value == n
  | _ => false

/-- The options written in brackets; none if there are no brackets. -/
def listed : Option OptionList → List OptionBody
  | none => []
  | some l => l.options

/-- A part of an option name. -/
def partOf : OptionNamePart → NamePart
  | .ident i => ⟨i.value, false⟩
  | .extension t _ => ⟨typeText t, true⟩

/-- The option as it should appear in the descriptor: its name, and its value in the field for values of its sort. -/
def optionOf (o : OptionBody) : UninterpretedOption :=
  match o.value with
  | .ident _ i _ => { name := o.name.map partOf, identifierValue := some i.value }
  | .int i =>
    if i.negative then { name := o.name.map partOf, negativeIntValue := some (-(i.value : Int)) }
    else { name := o.name.map partOf, positiveIntValue := some i.value }
  | .float f => { name := o.name.map partOf, doubleValue := some f.value }
  | .string s => { name := o.name.map partOf, stringValue := some s.value }
  | .aggregate t _ => { name := o.name.map partOf, aggregateValue := some t }

/-- The value can be represented: no minus sign before an identifier, negative integers fit `i64`. -/
def representable (o : OptionBody) : Prop :=
  match o.value with
  | .ident neg _ _ => neg = false
  | .int i => i.negative = true → i.value ≤ 2 ^ 63
  | _ => True

/-- The options `os` appear as `us`: each of them once, in order, and `us` is absent if there are none. -/
def CarriedOver (os : List OptionBody) (us : Option (List UninterpretedOption)) : Prop :=
  (∀ o ∈ os, representable o) ∧ us = if os = [] then none else some (os.map optionOf)

/-- The ranges written in `reserved` statements, in order. -/
def reservedRanges (rs : List Reserved) : List ReservedRange := rs.flatMap fun r =>
  match r.kind with
  | .ranges xs => xs
  | .names _ => []

/-- The names written in `reserved` statements, in order. -/
def reservedNames (rs : List Reserved) : List Bytes := rs.flatMap fun r =>
  match r.kind with
  | .ranges _ => []
  | .names ns => ns.map (·.value)

/-- The ranges written in `extensions` statements, each with the options of its statement, in order. -/
def extensionRanges (es : List Extensions) : List (ReservedRange × Option OptionList) :=
  es.flatMap fun e => e.ranges.map fun r => (r, e.options)

/-- The last number of a written range, where `max` stands for `top`. -/
def lastOf (top : Int) (r : ReservedRange) : Int :=
  match r.stop with
  | .none => r.start.toInt
  | .int j => j.toInt
  | .max _ => top

/-- The message body has the option `message_set_wire_format = true` (the first option of that name counts). -/
def MessageSet (b : MessageBody) : Prop :=
  ∃ pre o post i sp, b.options = pre ++ o :: post ∧ (∀ x ∈ pre, named b!"message_set_wire_format" x.body = false) ∧
    named b!"message_set_wire_format" o.body = true ∧ o.body.value = .ident false i sp ∧ i.value = b!"true"

/-- The field types whose default values are integers, with their bounds. -/
def integerBounds : Ty → Option (Int × Int)
  | .int32 | .sint32 | .sfixed32 => some (-(2 ^ 31), 2 ^ 31 - 1)
  | .int64 | .sint64 | .sfixed64 => some (-(2 ^ 63), 2 ^ 63 - 1)
  | .uint32 | .fixed32 => some (0, 2 ^ 32 - 1)
  | .uint64 | .fixed64 => some (0, 2 ^ 64 - 1)
  | _ => none

/-- The number denoted by a sequence of decimal digits; `none` if a byte is not a digit. -/
def digitsValue : Nat → Bytes → Option Nat
  | n, [] => some n
  | n, b :: bs => if isDigit b then digitsValue (10 * n + (b.toNat - 48)) bs else none

/-- `s` is the decimal text of `v` as it is usually written: an optional minus sign, digits, no leading zeros, no `-0`. -/
def CanonicalDecimal (s : Bytes) (v : Int) : Prop :=
  ∃ neg ds n, s = (if neg then 45 :: ds else ds) ∧ ds ≠ [] ∧ (ds.head? = some 48 → ds = [48] ∧ neg = false) ∧
    digitsValue 0 ds = some n ∧ v = if neg then -(n : Int) else (n : Int)

/-- A field written with `optional` directly in a message of a proto3 file. -/
def IsProto3Optional (syn : Syntax') (x : Place × Field) : Bool :=
  match syn, x.1, x.2.label with
  | .proto3, .message, some (.optional, _) => true
  | _, _, _ => false

/-- The name of the synthetic oneof of a field. -/
def syntheticName (field : Bytes) : Bytes :=
  match field with
  | 95 :: _ => b!"X" ++ field
  | _ => b!"_" ++ field

/-- A word with its first letter in upper case. -/
def capitalize : Bytes → Bytes
  | [] => []
  | c :: cs => toUpper c :: cs

/-- PascalCase: the words separated by underscores, capitalized. -/
def pascalCase (s : Bytes) : Bytes := (splitAt 95 s).flatMap capitalize

/-- The descriptor type of a scalar type; named types are resolved later. -/
def typeNumber : Ty → Option FieldType
  | .double => some .double | .float => some .float | .int32 => some .int32 | .int64 => some .int64
  | .uint32 => some .uint32 | .uint64 => some .uint64 | .sint32 => some .sint32 | .sint64 => some .sint64
  | .fixed32 => some .fixed32 | .fixed64 => some .fixed64 | .sfixed32 => some .sfixed32
  | .sfixed64 => some .sfixed64 | .bool => some .bool | .string => some .string | .bytes => some .bytes
  | .named _ => none

/-- The name of a named type; scalar types have none. -/
def typeNameOf : Ty → Option Bytes
  | .named t => some (typeText t)
  | _ => none

/-- The types allowed for map keys: integers, bool and string. -/
def keyTypes : List Ty :=
  [.int32, .int64, .uint32, .uint64, .sint32, .sint64, .fixed32, .fixed64, .sfixed32, .sfixed64, .bool, .string]

/-- The `oneof_index` of the `i`th field of a message body: the index of the oneof it is written in; for a proto3
`optional` field the next free index after the written oneofs; otherwise none. -/
def oneofIndexOf (syn : Syntax') (b : MessageBody) (i : Nat) : Option Int :=
  match (bodyFields b)[i]? with
  | some (.oneof k, _) => some (k : Int)
  | some x =>
    if IsProto3Optional syn x then
      some ((bodyOneofs b).length + (((bodyFields b).take i).filter (IsProto3Optional syn)).length : Nat)
    else none
  | none => none

/-- The path of the `j`th message inside the message at `p`, or of the file if `p` is empty. -/
def messagePath (p : List Int) (j : Nat) : List Int := if p = [] then [4, (j : Int)] else p ++ [3, (j : Int)]

/-- A field that is a map. -/
def isMapField (x : Field) : Bool :=
  match x.kind with
  | .map .. => true
  | _ => false

/-- The extended type of an extension field. -/
def extendeeOf : Place → Option Bytes
  | .extend t => some (typeText t)
  | _ => none

/-- The type of a field. -/
def fieldTypeOf (x : Field) : Option FieldType :=
  match x.kind with
  | .normal t _ => typeNumber t
  | .group .. => some .group
  | .map .. => some .message

/-- The type name of a field. -/
def fieldTypeNameOf (x : Field) : Option Bytes :=
  match x.kind with
  | .normal t _ => typeNameOf t
  | .group .. => some x.name.value
  | .map .. => some (pascalCase x.name.value ++ b!"Entry")

/-- The name of a field: that of a group in lower case. -/
def fieldNameOf (x : Field) : Bytes :=
  match x.kind with
  | .group .. => x.name.value.map toLower
  | _ => x.name.value

/-- The name of a written message, group or map entry. -/
def MsgSrc.name : MsgSrc → Bytes
  | .message m => m.name.value
  | .group f _ => f.name.value
  | .map f _ _ => pascalCase f.name.value ++ b!"Entry"

/-- The literal is in the bounds of the integer type `t`, and without minus sign if `t` is unsigned (so that `-0` does
not fit). -/
def FitsIn (t : Ty) (i : Int') : Prop :=
  ∃ b, integerBounds t = some b ∧ b.1 ≤ i.toInt ∧ i.toInt ≤ b.2 ∧ (b.1 = 0 → i.negative = false)

/-- `s` is the text of a `default` of the type `t` written as `v`: booleans and UTF-8 strings as they are, bytes
escaped, integers in decimal and within the bounds of the type; floating point numbers as std prints them, `inf`, `-inf` and
`nan`; for named types
(enums) the written identifier. -/
def DefaultText [FloatFmt] (t : Ty) (v : OptionValue) (s : Bytes) : Prop :=
  match t, v with
  | .named _, .ident neg i _ => s = (if neg then b!"-" else []) ++ i.value
  | .named _, v => s = v.toTokenString
  | .bool, .ident neg i _ => neg = false ∧ (i.value = b!"true" ∨ i.value = b!"false") ∧ s = i.value
  | .bool, _ => False
  | .string, .string x => utf8Valid x.value = true ∧ s = x.value
  | .string, _ => False
  | .bytes, .string x => s = x.display
  | .bytes, _ => False
  | .double, .ident neg i _ | .float, .ident neg i _ =>
    (i.value = b!"inf" ∧ s = if neg then b!"-inf" else b!"inf") ∨ (i.value = b!"nan" ∧ s = b!"nan")
  | .double, .int i | .float, .int i => s = (FloatFmt.plain (.ofInt i.negative i.value)).map toLower
  | .double, .float x | .float, .float x => s = (FloatFmt.plain x.value).map toLower
  | .double, _ | .float, _ => False
  | t, .int i => FitsIn t i ∧ CanonicalDecimal s i.toInt
  | _, _ => False

end Verif.Spec
