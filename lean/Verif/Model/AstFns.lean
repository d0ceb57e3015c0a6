import Verif.Model.Ast
/-!
Methods of the syntax tree: protox-parse/src/ast/mod.rs:313-649.
-/
namespace Verif

/-- Decimal digits of a number, most significant first (Rust `Display` for unsigned integers, std). -/
def decimal (n : Nat) : Bytes :=
  if n < 10 then [UInt8.ofNat (48 + n)] else decimal (n / 10) ++ [UInt8.ofNat (48 + n % 10)]
termination_by n

/-- Rust `Display` for signed integers (std). -/
def decimalInt (i : Int) : Bytes :=
  match i with
  | .ofNat n => decimal n
  | .negSucc n => 45 :: decimal (n + 1)

/-- `-value` on `f64`, on the symbolic values: the sign is flipped. -/
def FloatVal.neg : FloatVal → FloatVal
  | .lit n t => .lit (!n) t
  | .ofInt n v => .ofInt (!n) v
  | .nan n => .nan (!n)
  | .inf n => .inf (!n)

namespace Ast

/-- `i32::try_from(u64)` (std). -/
def tryI32 (n : Nat) : Option Int := if n ≤ 2147483647 then some (n : Int) else none
/-- `i64::try_from(u64)` (std). -/
def tryI64 (n : Nat) : Option Int := if n ≤ 9223372036854775807 then some (n : Int) else none

/-- `Int::as_i32` (ast/mod.rs:314-324). -/
def Int'.asI32 (i : Int') : Option Int :=
  if i.negative then
    if i.value = 2147483647 + 1 then some (-2147483648)
    else (tryI32 i.value).map (fun v => -v)
  else tryI32 i.value

/-- `Int::as_i64` (ast/mod.rs:326-336). -/
def Int'.asI64 (i : Int') : Option Int :=
  if i.negative then
    if i.value = 9223372036854775807 + 1 then some (-9223372036854775808)
    else (tryI64 i.value).map (fun v => -v)
  else tryI64 i.value

/-- `Int::as_u32` (ast/mod.rs:338-344). -/
def Int'.asU32 (i : Int') : Option Int :=
  if i.negative then none
  else if i.value ≤ 4294967295 then some (i.value : Int) else none

/-- `Int::as_u64` (ast/mod.rs:346-352); `u64::try_from` is the identity. -/
def Int'.asU64 (i : Int') : Option Int :=
  if i.negative then none else some (i.value : Int)

/-- `FullIdent::span` (ast/mod.rs:376-380): `first().unwrap()` panics on an empty list. -/
def FullIdent.span (f : FullIdent) : Option Span :=
  match f.parts.head?, f.parts.getLast? with
  | some a, some b => some ⟨a.span.start, b.span.stop⟩
  | _, _ => none

/-- `TypeName::span` (ast/mod.rs:382-390). -/
def TypeName.span (t : TypeName) : Option Span :=
  match t.leadingDot with
  | some d => t.name.span.map (joinSpan d)
  | none => t.name.span

/-- `Ty::proto_ty` (ast/mod.rs:393-412). -/
def Ty.protoTy : Ty → Option FieldType
  | .double => some .double | .float => some .float | .int32 => some .int32 | .int64 => some .int64
  | .uint32 => some .uint32 | .uint64 => some .uint64 | .sint32 => some .sint32 | .sint64 => some .sint64
  | .fixed32 => some .fixed32 | .fixed64 => some .fixed64 | .sfixed32 => some .sfixed32
  | .sfixed64 => some .sfixed64 | .bool => some .bool | .string => some .string | .bytes => some .bytes
  | .named _ => none

/-- The parts of a name separated by dots. -/
def dotJoin : List Ident → Bytes
  | [] => []
  | [i] => i.value
  | i :: j :: is => i.value ++ 46 :: dotJoin (j :: is)

/-- `Display for FullIdent` (ast/mod.rs:561-569): `self.parts[0]` panics on an empty list. -/
def FullIdent.display (f : FullIdent) : Option Bytes :=
  match f.parts with
  | [] => none
  | ps => some (dotJoin ps)

/-- `Display for TypeName` (ast/mod.rs:571-578). -/
def TypeName.display (t : TypeName) : Option Bytes :=
  match t.name.display with
  | none => none
  | some n => some (if t.leadingDot.isSome then 46 :: n else n)

/-- `Ty::ty_name` (ast/mod.rs:414-419); the inner option is the panic of `Display`. -/
def Ty.tyName : Ty → Option (Option Bytes)
  | .named t => match t.display with
    | none => none
    | some n => some (some n)
  | _ => some none

/-- `OptionNamePart::span` (ast/mod.rs:423-428). -/
def OptionNamePart.span : OptionNamePart → Span
  | .ident i => i.span
  | .extension _ s => s

/-- `OptionBody::has_name` (ast/mod.rs:432-434). -/
def OptionBody.hasName (o : OptionBody) (name : Bytes) : Bool :=
  match o.name with
  | [.ident i] => i.value == name
  | _ => false

/-- `OptionBody::name_span` (ast/mod.rs:436-442); panics on an empty name. -/
def OptionBody.nameSpan (o : OptionBody) : Option Span :=
  match o.name.head?, o.name.getLast? with
  | some a, some b => some (joinSpan a.span b.span)
  | _, _ => none

/-- `OptionValue::span` (ast/mod.rs:450-458). -/
def OptionValue.span : OptionValue → Span
  | .ident _ _ s => s
  | .int i => i.span
  | .float f => f.span
  | .string s => s.span
  | .aggregate _ s => s

/-- `OptionBody::span` (ast/mod.rs:444-446). -/
def OptionBody.span (o : OptionBody) : Option Span :=
  o.nameSpan.map fun s => joinSpan s o.value.span

/-- `OptionValue::as_f64` (ast/mod.rs:467-496). -/
def OptionValue.asF64 : OptionValue → Option FloatVal
  | .ident neg i _ =>
    if i.value = b!"nan" then some (.nan neg)
    else if i.value = b!"inf" then some (.inf neg)
    else none
  | .int i => some (.ofInt i.negative i.value)
  | .float f => some f.value
  | .string _ | .aggregate _ _ => none

/-- `OptionValue::as_bool` (ast/mod.rs:498-513). -/
def OptionValue.asBool : OptionValue → Option Bool
  | .ident neg i _ =>
    if neg then none
    else if i.value = b!"false" then some false
    else if i.value = b!"true" then some true
    else none
  | _ => none

/-- `ReservedRange::start_span` (ast/mod.rs:516-518). -/
def ReservedRange.startSpan (r : ReservedRange) : Span := r.start.span

/-- `ReservedRange::end_span` (ast/mod.rs:520-526). -/
def ReservedRange.endSpan (r : ReservedRange) : Span :=
  match r.stop with
  | .none => r.start.span
  | .int e => e.span
  | .max s => s

/-- `ReservedRange::span` (ast/mod.rs:528-530). -/
def ReservedRange.span (r : ReservedRange) : Span := joinSpan r.startSpan r.endSpan

/-- Three octal digits (`{:03o}` of a `u8`, std). -/
def octal3 (b : UInt8) : Bytes :=
  [48 + b / 64, 48 + b / 8 % 8, 48 + b % 8]

/-- One byte of `Display for String` (ast/mod.rs:633-644). -/
def escapeByte (ch : UInt8) : Bytes :=
  if ch = 9 then b!"\\t"
  else if ch = 13 then b!"\\r"
  else if ch = 10 then b!"\\n"
  else if ch = 92 then b!"\\\\"
  else if ch = 39 then b!"\\'"
  else if ch = 34 then b!"\\\""
  else if 0x20 ≤ ch ∧ ch ≤ 0x7e then [ch]
  else 92 :: octal3 ch

/-- `Display for String` (ast/mod.rs:630-649). -/
def Str.display (s : Str) : Bytes := s.value.flatMap escapeByte

/-- `Display for Int` (ast/mod.rs:600-608). -/
def Int'.display (i : Int') : Bytes :=
  if i.negative then 45 :: decimal i.value else decimal i.value

/-- The mathematical value of an integer literal with its sign. -/
def Int'.toInt (i : Int') : Int := if i.negative then -(i.value : Int) else (i.value : Int)

end Ast
end Verif
