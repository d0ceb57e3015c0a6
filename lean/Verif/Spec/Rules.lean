import Verif.Spec.Locations
import Verif.Model.Error
/-!
The rules that a file must obey beyond the grammar, and the diagnostic for each violation.  Written in terms of the
syntax tree, without reference to the code.
-/
namespace Verif.Spec
open Verif.Ast

/-- A message, group or map written somewhere in the file. -/
inductive MsgWritten (f : File) : MsgSrc → Prop where
  | top {s} : s ∈ fileMsgs f → MsgWritten f s
  | nested {s b s'} : MsgWritten f s → s.body = some b → s' ∈ bodyMsgs b → MsgWritten f s'

/-- A message body written somewhere in the file. -/
def BodyWritten (f : File) (b : MessageBody) : Prop := ∃ s, MsgWritten f s ∧ s.body = some b

/-- A field or extension field written somewhere in the file, and where. -/
inductive FieldWritten (f : File) : Place → Field → Prop where
  | field {b pl x} : BodyWritten f b → (pl, x) ∈ bodyFields b → FieldWritten f pl x
  | ext {b pl x} : BodyWritten f b → (pl, x) ∈ bodyExts b → FieldWritten f pl x
  | fileExt {pl x} : (pl, x) ∈ fileExts f → FieldWritten f pl x

/-- An enum written somewhere in the file. -/
inductive EnumWritten (f : File) : Enum → Prop where
  | top {e} : e ∈ fileEnums f → EnumWritten f e
  | nested {b e} : BodyWritten f b → e ∈ bodyEnums b → EnumWritten f e

/-- A number allowed for fields, and in `reserved` and `extensions` ranges of messages. -/
def IsFieldNumber (i : Int') : Prop := 1 ≤ i.toInt ∧ i.toInt ≤ 536870911

/-- A number allowed for enum values, and in `reserved` ranges of enums. -/
def IsEnumNumber (i : Int') : Prop := -(2 ^ 31) ≤ i.toInt ∧ i.toInt ≤ 2 ^ 31 - 1

/-- A value that an option cannot have: an identifier with a minus sign, a negative number below `-2^63`. -/
inductive BadOption : OptionBody → ParseErrorKind → Prop where
  | ident {o i sp} : o.value = .ident true i sp → BadOption o (.negativeIdentOutsideDefault sp)
  | int {o i} : o.value = .int i → i.negative = true → 2 ^ 63 < i.value → 
      BadOption o (.integerValueOutOfRange b!"a 64-bit integer" i (-(2 ^ 63)) (2 ^ 64 - 1) i.span)

/-- A range with a bad bound. (An end before the start is not an error here: the descriptor pool checks it.) -/
inductive BadRange (ok : Int' → Prop) (kind : Span → ParseErrorKind) : ReservedRange → ParseErrorKind → Prop where
  | start {r} : ¬ ok r.start → BadRange ok kind r (kind r.start.span)
  | stop {r j} : r.stop = .int j → ¬ ok j → BadRange ok kind r (kind j.span)

/-- The sort of value that a default for the type is written with; any value for named types (they are checked when the
type is known). -/
def RightSort (t : Ty) (v : OptionValue) : Prop :=
  match t, v with
  | .named _, _ => True
  | .bool, .ident neg i _ => neg = false ∧ (i.value = b!"true" ∨ i.value = b!"false")
  | .string, .string _ => True
  | .bytes, .string _ => True
  | .double, .ident _ i _ | .float, .ident _ i _ => i.value = b!"nan" ∨ i.value = b!"inf"
  | .double, .int _ | .float, .int _ | .double, .float _ | .float, .float _ => True
  | t, .int _ => (integerBounds t).isSome = true
  | _, _ => False

/-- What a default value of the type should be, in words. -/
def sortWords : Ty → Bytes
  | .double | .float => b!"a floating-point number"
  | .bool => b!"either 'true' or 'false'"
  | .string | .bytes => b!"a string"
  | .named _ => []
  | _ => b!"an integer"

/-- What an integer default value of the type should be, in words. -/
def rangeWords : Ty → Bytes
  | .int32 | .sint32 | .sfixed32 => b!"a signed 32-bit integer"
  | .int64 | .sint64 | .sfixed64 => b!"a signed 64-bit integer"
  | .uint32 | .fixed32 => b!"an unsigned 32-bit integer"
  | .uint64 | .fixed64 => b!"an unsigned 64-bit integer"
  | _ => []

/-- A default value that the type does not have. -/
inductive BadDefault (t : Ty) (v : OptionValue) : ParseErrorKind → Prop where
  | sort : ¬ RightSort t v → BadDefault t v (.valueInvalidType (sortWords t) v (valueSpan v))
  | range {i lo hi} : v = .int i → integerBounds t = some (lo, hi) → ¬ FitsIn t i →
      BadDefault t v (.integerValueOutOfRange (rangeWords t) i lo hi i.span)
  | utf8 {s} : t = .string → v = .string s → utf8Valid s.value = false → BadDefault t v (.invalidUtf8String s.span)

/-- The first option with this name. -/
def FirstNamed (n : Bytes) (x : Field) (o : OptionBody) : Prop := (listed x.options).find? (named n) = some o

/-- The label of a field, without its position. -/
def labelOf (x : Field) : Option FieldLabel := x.label.map (·.1)

/-- A field that breaks a rule, in a file with the given syntax. -/
inductive BadField (syn : Syntax') : Place → Field → ParseErrorKind → Prop where
  | number {pl x} : ¬ IsFieldNumber x.number → BadField syn pl x (.invalidMessageNumber x.number.span)
  -- labels
  | labelMissing {pl x} : syn = .proto2 → isMapField x = false → (∀ k, pl ≠ .oneof k) → x.label = none →
      BadField syn pl x (.proto2FieldMissingLabel x.span)
  | proto3Required {x sp} : syn = .proto3 → isMapField x = false → x.label = some (.required, sp) →
      BadField syn .message x (.proto3RequiredField sp)
  | requiredExtension {t x sp} : isMapField x = false → x.label = some (.required, sp) →
      BadField syn (.extend t) x (.requiredExtendField sp)
  | oneofLabel {k x l sp} : isMapField x = false → x.label = some (l, sp) → BadField syn (.oneof k) x (.oneofFieldWithLabel sp)
  -- maps and groups
  | mapLabel {x l sp} : isMapField x = true → x.label = some (l, sp) → BadField syn .message x (.mapFieldWithLabel sp)
  | mapInOneof {k x} : isMapField x = true → BadField syn (.oneof k) x (.invalidOneofFieldKind b!"map" x.span)
  | mapInExtend {t x} : isMapField x = true → BadField syn (.extend t) x (.invalidExtendFieldKind b!"map" x.span)
  | mapKey {pl x sp k ksp v vsp} : x.kind = .map sp k ksp v vsp → k ∉ keyTypes → BadField syn pl x (.invalidMapFieldKeyType ksp)
  | proto3Group {pl x sp b} : syn = .proto3 → x.kind = .group sp b → BadField syn pl x (.proto3GroupField x.span)
  -- defaults
  | mapDefault {pl x o} : FirstNamed b!"default" x o → isMapField x = true →
      BadField syn pl x (.invalidDefault b!"map" (optionSpan o))
  | repeatedDefault {pl x o} : FirstNamed b!"default" x o → isMapField x = false → labelOf x = some .repeated →
      BadField syn pl x (.invalidDefault b!"repeated" (optionSpan o))
  | groupDefault {pl x o sp b} : FirstNamed b!"default" x o → x.kind = .group sp b →
      BadField syn pl x (.invalidDefault b!"group" (optionSpan o))
  | proto3Default {pl x o} : FirstNamed b!"default" x o → syn = .proto3 → isMapField x = false → labelOf x ≠ some .repeated →
      BadField syn pl x (.proto3DefaultValue (optionSpan o))
  | badDefault {pl x o t sp k} : FirstNamed b!"default" x o → x.kind = .normal t sp → BadDefault t o.value k → BadField syn pl x k
  -- other options
  | badJsonName {pl x o k} : FirstNamed b!"json_name" x o → BadDefault .string o.value k → BadField syn pl x k
  | badOption {pl x o k} : o ∈ keptOptions x → BadOption o k → BadField syn pl x k

/-- The diagnostics for a file: one kind for each rule, with the place of the violation. -/
inductive Violation (f : File) : ParseErrorKind → Prop where
  | field {pl x k} : FieldWritten f pl x → BadField f.syntax' pl x k → Violation f k
  | reservedRange {b r k} : BodyWritten f b → r ∈ reservedRanges b.reserved → BadRange IsFieldNumber .invalidMessageNumber r k →
      Violation f k
  | extensionRange {b r os k} : BodyWritten f b → (r, os) ∈ extensionRanges b.extensions →
      BadRange IsFieldNumber .invalidMessageNumber r k → Violation f k
  | extensionOption {b r os o k} : BodyWritten f b → (r, os) ∈ extensionRanges b.extensions → o ∈ listed os → BadOption o k →
      Violation f k
  | messageOption {b o k} : BodyWritten f b → o ∈ b.options → BadOption o.body k → Violation f k
  | emptyOneof {b o} : BodyWritten f b → o ∈ bodyOneofs b → o.fields = [] → Violation f (.emptyOneof o.span)
  | oneofOption {b x o k} : BodyWritten f b → x ∈ bodyOneofs b → o ∈ x.options → BadOption o.body k → Violation f k
  | enumNumber {e v} : EnumWritten f e → v ∈ e.values → ¬ IsEnumNumber v.number → Violation f (.invalidEnumNumber v.number.span)
  | enumRange {e r k} : EnumWritten f e → r ∈ reservedRanges e.reserved → BadRange IsEnumNumber .invalidEnumNumber r k →
      Violation f k
  | enumValueOption {e v o k} : EnumWritten f e → v ∈ e.values → o ∈ listed v.options → BadOption o k → Violation f k
  | enumOption {e o k} : EnumWritten f e → o ∈ e.options → BadOption o.body k → Violation f k
  | methodOption {s m o k} : s ∈ fileServices f → m ∈ s.methods → o ∈ m.options → BadOption o.body k → Violation f k
  | serviceOption {s o k} : s ∈ fileServices f → o ∈ s.options → BadOption o.body k → Violation f k
  | fileOption {o k} : o ∈ f.options → BadOption o.body k → Violation f k

end Verif.Spec
