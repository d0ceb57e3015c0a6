import Verif.Spec.Rules
import Verif.Spec.Places
import Verif.Model.Message
/-!
What the texts of diagnostics say: message, help and place, with the fact about the source that they state. The error type does
not appear; bounds in the texts are the bounds in the facts.
-/
namespace Verif.Spec
open Verif.Ast

/-- An integer as it is written: with its sign, in decimal. -/
def written (i : Int') : Bytes := (if i.negative then b!"-" else []) ++ decimal i.value

/-- Between two numbers. -/
def Within (lo hi : Int) (i : Int') : Prop := lo ≤ i.toInt ∧ i.toInt ≤ hi

/-- `… must be between 1 and 7` -/
def mustBeBetween (what : Bytes) (lo hi : Int) : Bytes :=
  what ++ b!" must be between " ++ decimalInt lo ++ b!" and " ++ decimalInt hi

/-- A diagnostic, as it is shown: the message, the help, and the places that it points to. -/
structure Shown where
  message : Bytes
  help : Option Bytes := none
  places : List Span

/-- Numbers of fields and in ranges of messages. -/
inductive NumberText (what : Bytes) (lo hi : Int) (i : Int') : Shown → Prop where
  | mk : ¬ Within lo hi i → NumberText what lo hi i ⟨mustBeBetween what lo hi, none, [i.span]⟩

/-- The bounds of a range. -/
inductive RangeText (what : Bytes) (lo hi : Int) (r : ReservedRange) : Shown → Prop where
  | start {t} : NumberText what lo hi r.start t → RangeText what lo hi r t
  | stop {j t} : r.stop = .int j → NumberText what lo hi j t → RangeText what lo hi r t

/-- Values of options. -/
inductive OptionText (o : OptionBody) : Shown → Prop where
  | ident {i sp} : o.value = .ident true i sp → OptionText o ⟨b!"identifiers may not be negative", none, [sp]⟩
  | int {i lo hi} : o.value = .int i → lo = -(2 ^ 63) → hi = 2 ^ 64 - 1 → i.toInt < lo →
      OptionText o ⟨b!"expected value to be a 64-bit integer, but the value " ++ written i ++ b!" is out of range",
        some (mustBeBetween b!"the value" lo hi ++ b!" inclusive"), [i.span]⟩

/-- Default values of a type. (`-0` is not taken for unsigned types.) -/
inductive DefaultText' [FloatFmt] (t : Ty) (v : OptionValue) : Shown → Prop where
  | sort : ¬ RightSort t v → DefaultText' t v
      ⟨b!"expected value to be " ++ sortWords t ++ b!", but found '" ++ v.display ++ b!"'", none, [valueSpan v]⟩
  | range {i lo hi} : v = .int i → integerBounds t = some (lo, hi) → ¬ Within lo hi i ∨ lo = 0 ∧ i.negative = true →
      DefaultText' t v ⟨b!"expected value to be " ++ rangeWords t ++ b!", but the value " ++ written i ++ b!" is out of range",
        some (mustBeBetween b!"the value" lo hi ++ b!" inclusive"), [i.span]⟩
  | utf8 {s} : t = .string → v = .string s → utf8Valid s.value = false →
      DefaultText' t v ⟨b!"string is not valid utf-8", none, [s.span]⟩

/-- The kind of a field, in a word. -/
def FieldWord (x : Field) (w : Bytes) : Prop :=
  (w = b!"map" ∧ isMapField x = true) ∨ (w = b!"repeated" ∧ isMapField x = false ∧ labelOf x = some .repeated) ∨
  (w = b!"group" ∧ ∃ sp b, x.kind = .group sp b)

/-- Fields, in a file with the given syntax. -/
inductive FieldText [FloatFmt] (syn : Syntax') : Place → Field → Shown → Prop where
  | number {pl x t} : NumberText b!"message numbers" 1 536870911 x.number t → FieldText syn pl x t
  | labelMissing {pl x} : syn = .proto2 → isMapField x = false → (∀ k, pl ≠ .oneof k) → x.label = none →
      FieldText syn pl x
        ⟨b!"fields must have a label with proto2 syntax (expected one of 'optional', 'repeated' or 'required')", none, [x.span]⟩
  | proto3Required {x sp} : syn = .proto3 → isMapField x = false → x.label = some (.required, sp) →
      FieldText syn .message x ⟨b!"required fields are not allowed in proto3 syntax", none, [sp]⟩
  | requiredExtension {t x sp} : isMapField x = false → x.label = some (.required, sp) →
      FieldText syn (.extend t) x ⟨b!"extension fields may not be required", none, [sp]⟩
  | oneofLabel {k x l sp} : isMapField x = false → x.label = some (l, sp) →
      FieldText syn (.oneof k) x ⟨b!"oneof fields cannot have labels", none, [sp]⟩
  | mapLabel {x l sp} : isMapField x = true → x.label = some (l, sp) →
      FieldText syn .message x ⟨b!"map fields cannot have labels", none, [sp]⟩
  | mapInOneof {k x} : isMapField x = true → FieldText syn (.oneof k) x ⟨b!"map fields are not allowed in a oneof", none, [x.span]⟩
  | mapInExtend {t x} : isMapField x = true →
      FieldText syn (.extend t) x ⟨b!"map fields are not allowed in extensions", none, [x.span]⟩
  | mapKey {pl x sp k ksp v vsp} : x.kind = .map sp k ksp v vsp → k ∉ keyTypes →
      FieldText syn pl x ⟨b!"a map field key type must be an integer, boolean or string", none, [ksp]⟩
  | proto3Group {pl x sp b} : syn = .proto3 → x.kind = .group sp b →
      FieldText syn pl x ⟨b!"groups are not allowed in proto3 syntax", none, [x.span]⟩
  | noDefault {pl x o w} : FirstNamed b!"default" x o → FieldWord x w →
      FieldText syn pl x ⟨w ++ b!" fields may not have default values", none, [optionSpan o]⟩
  | proto3Default {pl x o} : FirstNamed b!"default" x o → syn = .proto3 → isMapField x = false → labelOf x ≠ some .repeated →
      FieldText syn pl x ⟨b!"default values are not allowed in proto3", none, [optionSpan o]⟩
  | badDefault {pl x o t sp k} : FirstNamed b!"default" x o → x.kind = .normal t sp → DefaultText' t o.value k →
      FieldText syn pl x k
  | badJsonName {pl x o k} : FirstNamed b!"json_name" x o → DefaultText' .string o.value k → FieldText syn pl x k
  | badOption {pl x o k} : o ∈ keptOptions x → OptionText o k → FieldText syn pl x k

/-- What is said about a file that lexes and has a syntax tree. -/
inductive RuleText [FloatFmt] (f : File) : Shown → Prop where
  | field {pl x t} : FieldWritten f pl x → FieldText f.syntax' pl x t → RuleText f t
  | reservedRange {b r t} : BodyWritten f b → r ∈ reservedRanges b.reserved → RangeText b!"message numbers" 1 536870911 r t →
      RuleText f t
  | extensionRange {b r os t} : BodyWritten f b → (r, os) ∈ extensionRanges b.extensions →
      RangeText b!"message numbers" 1 536870911 r t → RuleText f t
  | enumNumber {e v t} : EnumWritten f e → v ∈ e.values → NumberText b!"enum numbers" (-2147483648) 2147483647 v.number t →
      RuleText f t
  | enumRange {e r t} : EnumWritten f e → r ∈ reservedRanges e.reserved →
      RangeText b!"enum numbers" (-2147483648) 2147483647 r t → RuleText f t
  | emptyOneof {b o} : BodyWritten f b → o ∈ bodyOneofs b → o.fields = [] →
      RuleText f ⟨b!"a oneof must have at least one field", none, [o.span]⟩
  | extensionOption {b r os o t} : BodyWritten f b → (r, os) ∈ extensionRanges b.extensions → o ∈ listed os → OptionText o t →
      RuleText f t
  | messageOption {b o t} : BodyWritten f b → o ∈ b.options → OptionText o.body t → RuleText f t
  | oneofOption {b x o t} : BodyWritten f b → x ∈ bodyOneofs b → o ∈ x.options → OptionText o.body t → RuleText f t
  | enumValueOption {e v o t} : EnumWritten f e → v ∈ e.values → o ∈ listed v.options → OptionText o t → RuleText f t
  | enumOption {e o t} : EnumWritten f e → o ∈ e.options → OptionText o.body t → RuleText f t
  | methodOption {s m o t} : s ∈ fileServices f → m ∈ s.methods → o ∈ m.options → OptionText o.body t → RuleText f t
  | serviceOption {s o t} : s ∈ fileServices f → o ∈ s.options → OptionText o.body t → RuleText f t
  | fileOption {o t} : o ∈ f.options → OptionText o.body t → RuleText f t

end Verif.Spec
