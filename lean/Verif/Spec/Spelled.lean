import Verif.Spec.DescPath
import Verif.Spec.Comments
import Verif.Spec.Lexeme
import Verif.Spec.Content
/-!
What the text at a source location says about the descriptor element that its path leads to.
-/
namespace Verif.Spec
open Verif

/-- The texts of the tokens in the span, without comments and newlines. -/
def wordsIn (src : Bytes) (sp : Span) : List Bytes :=
  (((allToks src).filter fun t => ! t.1.isTrivia).filter fun t => sp.start ≤ t.2.start ∧ t.2.stop ≤ sp.stop).map
    fun t => textOf src t.2

/-- The text is one word, and that is the value. -/
def IsWord (ws : List Bytes) (o : Option Bytes) : Prop := ∃ w, ws = [w] ∧ o = some w

/-- The text is the number `n`: an integer literal, perhaps with a minus sign. -/
def WrittenNumber (ws : List Bytes) (n : Int) : Prop :=
  ∃ (w : Bytes) (v : Nat), Lexeme true w (.int v) ∧ (ws = [w] ∧ n = v ∨ ws = [b!"-", w] ∧ n = -v)

/-- The text is one or more string literals for the pieces of `v`. -/
def WrittenString (ws : List Bytes) (v : Bytes) : Prop :=
  ∃ l : List (Bytes × Bytes), l ≠ [] ∧ (∀ x ∈ l, Lexeme true x.1 (.string x.2)) ∧ ws = l.map (·.1) ∧ v = (l.map (·.2)).flatten

/-- The text begins with the keyword and the name. -/
def Named (keyword : Bytes) (ws : List Bytes) (o : Option Bytes) : Prop := ∃ n r, ws = keyword :: n :: r ∧ o = some n

/-- The keyword of a label. -/
def labelWord : Label → Bytes
  | .optional => b!"optional"
  | .required => b!"required"
  | .repeated => b!"repeated"

/-- The keywords of the types. -/
def typeWords : List (FieldType × Bytes) :=
  [(.double, b!"double"), (.float, b!"float"), (.int32, b!"int32"), (.int64, b!"int64"), (.uint32, b!"uint32"),
   (.uint64, b!"uint64"), (.sint32, b!"sint32"), (.sint64, b!"sint64"), (.fixed32, b!"fixed32"), (.fixed64, b!"fixed64"),
   (.sfixed32, b!"sfixed32"), (.sfixed64, b!"sfixed64"), (.bool, b!"bool"), (.string, b!"string"), (.bytes, b!"bytes"),
   (.group, b!"group")]

/-- Below a repeated field: an index in bounds follows, and the text belongs to that element. -/
def each {α : Type} (inside : α → List Int → List Bytes → Prop) (l : List α) : List Int → List Bytes → Prop
  | i :: p, ws => ∃ (n : Nat) (x : α), i = (n : Int) ∧ l[n]? = some x ∧ inside x p ws
  | [], _ => True

/-- A reserved name. -/
def nameSays (n : Bytes) (_ : List Int) (ws : List Bytes) : Prop := WrittenString ws n

/-- The text is this part of the name of an option. -/
def PartWords (p : NamePart) (ws : List Bytes) : Prop :=
  if p.isExtension then ∃ vs, ws = b!"(" :: vs ++ [b!")"] ∧ p.namePart = vs.flatten else ws = [p.namePart]

/-- The text is the name of an option: its parts with dots between them. -/
def NameWords : List NamePart → List Bytes → Prop
  | [], _ => False
  | [p], ws => PartWords p ws
  | p :: ps, ws => ∃ a b, ws = a ++ b!"." :: b ∧ PartWords p a ∧ NameWords ps b

/-- The text is the value of the option, and the option has its value in the field for values of this kind. (A minus sign in
front of an identifier is rejected elsewhere.) -/
def OptionValueWords (u : UninterpretedOption) (ws : List Bytes) : Prop :=
  (∃ v, u.identifierValue = some v ∧ (ws = [v] ∨ ws = [b!"-", v])) ∨
  (∃ n : Nat, u.positiveIntValue = some n ∧ WrittenNumber ws n) ∨
  (∃ n, u.negativeIntValue = some n ∧ WrittenNumber ws n) ∨
  (∃ neg w t, u.doubleValue = some (.lit neg t) ∧ Lexeme true w (.float t) ∧ ws = if neg then [b!"-", w] else [w]) ∨
  (∃ v, u.stringValue = some v ∧ WrittenString ws v) ∨
  ∃ v vs, u.aggregateValue = some v ∧ ws = b!"{" :: vs ++ [b!"}"]

/-- Below an UninterpretedOption, which is a statement or stands in brackets. -/
def optionSays (u : UninterpretedOption) : List Int → List Bytes → Prop
  | [], ws => ∃ ns vs, NameWords u.name ns ∧ OptionValueWords u vs ∧
    (ws = ns ++ b!"=" :: vs ∨ ws = b!"option" :: ns ++ b!"=" :: vs ++ [b!";"])
  | _, _ => True

/-- Below the options of an element: 999 is `uninterpreted_option`. -/
def optionsSay (us : Option (List UninterpretedOption)) : List Int → List Bytes → Prop
  | 999 :: p, ws => each optionSays (us.getD []) p ws
  | _, _ => True

/-- The text is the name of the field. The name of a group is stored in lower case. -/
def fieldNameSays (d : FieldDescriptorProto) (ws : List Bytes) : Prop :=
  if d.type = some .group then ∃ w, ws = [w] ∧ d.name = some (w.map toLower) else IsWord ws d.name

/-- The types whose default values are integers. -/
def integerTypes : List FieldType :=
  [.int32, .int64, .uint32, .uint64, .sint32, .sint64, .fixed32, .fixed64, .sfixed32, .sfixed64]

/-- The text is the default value of a string, a boolean or an integer, which is kept in decimal. -/
def defaultSays (d : FieldDescriptorProto) (ws : List Bytes) : Prop :=
  ∃ v, d.defaultValue = some v ∧ (d.type = some .string → WrittenString ws v) ∧ (d.type = some .bool → ws = [v]) ∧
    ∀ t ∈ integerTypes, d.type = some t → ∃ n, CanonicalDecimal v n ∧ WrittenNumber ws n

/-- Below a FieldDescriptorProto. The entry type of a map has no name in the text. -/
def fieldSays (d : FieldDescriptorProto) : List Int → List Bytes → Prop
  | [], ws => ∃ pre n num r v, ws = pre ++ n :: b!"=" :: num ++ r ∧ fieldNameSays d [n] ∧ d.number = some v ∧ WrittenNumber num v
  | [1], ws => fieldNameSays d ws
  | [2], ws => d.extendee = some ws.flatten
  | [3], ws => ∃ n, d.number = some n ∧ WrittenNumber ws n
  | [4], ws => ∃ l, d.label = some l ∧ ws = [labelWord l]
  | [5], ws => ∃ t w, d.type = some t ∧ ws = [w] ∧ (t, w) ∈ typeWords
  | [6], ws => if d.type = some .message then ∃ r, ws = b!"map" :: b!"<" :: r else d.typeName = some ws.flatten
  | [10], ws => ∃ s vs, d.jsonName = some s ∧ WrittenString vs s ∧ (ws = vs ∨ ws = b!"json_name" :: b!"=" :: vs)
  | [7], ws => defaultSays d ws
  | 8 :: p, ws => optionsSay d.options p ws
  | _, _ => True

/-- Below a OneofDescriptorProto. -/
def oneofSays (d : OneofDescriptorProto) : List Int → List Bytes → Prop
  | [], ws => Named b!"oneof" ws d.name
  | [1], ws => IsWord ws d.name
  | 2 :: p, ws => optionsSay d.options p ws
  | _, _ => True

/-- The text is the last number of a range, or `max`, which stands for one of `tops`. -/
def LastNumber (tops : List Int) (ws : List Bytes) (n : Int) : Prop := ws = [b!"max"] ∧ n ∈ tops ∨ WrittenNumber ws n

/-- What `max` stands for in messages and in message sets. -/
def fieldTops : List Int := [536870911, 2147483646]

/-- The text is a number, or two of them with `to` in between. -/
def WrittenRange (tops : List Int) (ws : List Bytes) (m n : Int) : Prop :=
  m = n ∧ WrittenNumber ws m ∨ ∃ a b, ws = a ++ b!"to" :: b ∧ WrittenNumber a m ∧ LastNumber tops b n

/-- Below a reserved range of a message, which excludes its end. -/
def rangeSays (d : RangeProto) : List Int → List Bytes → Prop
  | [], ws => ∃ m n, d.start = some m ∧ d.stop = some (n + 1) ∧ WrittenRange fieldTops ws m n
  | [1], ws => ∃ n, d.start = some n ∧ WrittenNumber ws n
  | [2], ws => ∃ n, d.stop = some (n + 1) ∧ LastNumber fieldTops ws n
  | _, _ => True

/-- Below an extension range, which excludes its end. -/
def extensionRangeSays (d : ExtensionRangeProto) : List Int → List Bytes → Prop
  | [], ws => ∃ m n, d.start = some m ∧ d.stop = some (n + 1) ∧ WrittenRange fieldTops ws m n
  | [1], ws => ∃ n, d.start = some n ∧ WrittenNumber ws n
  | [2], ws => ∃ n, d.stop = some (n + 1) ∧ LastNumber fieldTops ws n
  | 3 :: p, ws => optionsSay d.options p ws
  | _, _ => True

/-- Below a reserved range of an enum, which includes its end. -/
def enumRangeSays (d : RangeProto) : List Int → List Bytes → Prop
  | [], ws => ∃ m n, d.start = some m ∧ d.stop = some n ∧ WrittenRange [2147483647] ws m n
  | [1], ws => ∃ n, d.start = some n ∧ WrittenNumber ws n
  | [2], ws => ∃ n, d.stop = some n ∧ LastNumber [2147483647] ws n
  | _, _ => True

/-- Below an EnumValueDescriptorProto. -/
def enumValueSays (d : EnumValueDescriptorProto) : List Int → List Bytes → Prop
  | [], ws => ∃ n num r v, ws = n :: b!"=" :: num ++ r ∧ d.name = some n ∧ d.number = some v ∧ WrittenNumber num v
  | [1], ws => IsWord ws d.name
  | [2], ws => ∃ n, d.number = some n ∧ WrittenNumber ws n
  | 3 :: p, ws => optionsSay d.options p ws
  | _, _ => True

/-- Below an EnumDescriptorProto. -/
def enumSays (d : EnumDescriptorProto) : List Int → List Bytes → Prop
  | [], ws => Named b!"enum" ws d.name
  | [1], ws => IsWord ws d.name
  | 2 :: p, ws => each enumValueSays d.value p ws
  | 4 :: p, ws => each enumRangeSays d.reservedRange p ws
  | 5 :: p, ws => each nameSays d.reservedName p ws
  | 3 :: p, ws => optionsSay d.options p ws
  | _, _ => True

/-- Below a MethodDescriptorProto. -/
def methodSays (d : MethodDescriptorProto) : List Int → List Bytes → Prop
  | [], ws => Named b!"rpc" ws d.name
  | [1], ws => IsWord ws d.name
  | [2], ws => d.inputType = some ws.flatten
  | [3], ws => d.outputType = some ws.flatten
  | [5], ws => d.clientStreaming = some true ∧ ws = [b!"stream"]
  | [6], ws => d.serverStreaming = some true ∧ ws = [b!"stream"]
  | 4 :: p, ws => optionsSay d.options p ws
  | _, _ => True

/-- Below a ServiceDescriptorProto. -/
def serviceSays (d : ServiceDescriptorProto) : List Int → List Bytes → Prop
  | [], ws => Named b!"service" ws d.name
  | [1], ws => IsWord ws d.name
  | 2 :: p, ws => each methodSays d.method p ws
  | 3 :: p, ws => optionsSay d.options p ws
  | _, _ => True

/-- The text of a message, or of a group with or without a label. -/
def messageSays (ws : List Bytes) (o : Option Bytes) : Prop :=
  Named b!"message" ws o ∨ Named b!"group" ws o ∨ ∃ l, Named b!"group" ws.tail o ∧ ws.head? = some (labelWord l)

/-- Below a DescriptorProto. -/
def descriptorSays : DescriptorProto → List Int → List Bytes → Prop
  | d, [], ws => messageSays ws d.name
  | d, [1], ws => IsWord ws d.name
  | d, 2 :: p, ws => each fieldSays d.field p ws
  | _, [3], _ => True
  | d, 3 :: i :: p, ws =>
    ∃ (n : Nat) (x : DescriptorProto), i = (n : Int) ∧ d.nestedType[n]? = some x ∧ descriptorSays x p ws
  | d, 4 :: p, ws => each enumSays d.enumType p ws
  | d, 5 :: p, ws => each extensionRangeSays d.extensionRange p ws
  | d, 6 :: p, ws => each fieldSays d.extension p ws
  | d, 7 :: p, ws => optionsSay (d.options.map (·.uninterpretedOption)) p ws
  | d, 8 :: p, ws => each oneofSays d.oneofDecl p ws
  | d, 9 :: p, ws => each rangeSays d.reservedRange p ws
  | d, 10 :: p, ws => each nameSays d.reservedName p ws
  | _, _, _ => True

/-- An import statement with this path. -/
def importSays (v : Bytes) : List Int → List Bytes → Prop
  | [], ws => ∃ m vs, ws = b!"import" :: m ++ vs ++ [b!";"] ∧ (m = [] ∨ m = [b!"public"] ∨ m = [b!"weak"]) ∧ WrittenString vs v
  | _, _ => True

/-- Below a FileDescriptorProto. -/
def fileSays (d : FileDescriptorProto) : List Int → List Bytes → Prop
  | [2], ws => ∃ vs, ws = b!"package" :: vs ++ [b!";"] ∧ d.package = some vs.flatten
  | 3 :: p, ws => each importSays d.dependency p ws
  | 4 :: p, ws => each descriptorSays d.messageType p ws
  | 5 :: p, ws => each enumSays d.enumType p ws
  | 6 :: p, ws => each serviceSays d.service p ws
  | 7 :: p, ws => each fieldSays d.extension p ws
  | 10 :: p, ws => each (fun _ _ ws => ws = [b!"public"]) d.publicDependency p ws
  | 11 :: p, ws => each (fun _ _ ws => ws = [b!"weak"]) d.weakDependency p ws
  | [12], ws => ∃ vs, ws = b!"syntax" :: b!"=" :: vs ++ [b!";"] ∧ WrittenString vs (d.syntax'.getD b!"proto2")
  | 8 :: p, ws => optionsSay d.options p ws
  | _, _ => True

end Verif.Spec
