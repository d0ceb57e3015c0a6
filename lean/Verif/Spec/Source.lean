import Verif.Spec.Grammar
import Verif.Spec.Tokens
/-!
How the constructs written in a file and the elements of its descriptor are paired up.  Nothing here says what the
elements contain: that is what the properties say about each pair.
-/
namespace Verif.Spec
open Verif.Ast Verif.Grammar

/-- `f` is a syntax tree of the source `src`: its significant tokens derive `f` in the grammar. -/
def TreeOf [FloatFmt] (src : Bytes) (f : File) : Prop :=
  ∃ ts : List STok, sigToks 0 src = ts.map some ∧ FileG (ts.map (·.1)) f

/-- The source has a syntax tree, and `P` holds of every syntax tree of it. (All its trees are equal up to positions and
comments: C49.) -/
def ForTree [FloatFmt] (src : Bytes) (P : File → Prop) : Prop := (∃ f, TreeOf src f) ∧ ∀ f, TreeOf src f → P f

/-- What a message descriptor was made from: a `message`, a group field or a map field. -/
inductive MsgSrc where
  | message (m : Message)
  | group (f : Field) (body : MessageBody)
  | map (f : Field) (key value : Ty)

/-- The written body of a message or group; a map has none. -/
def MsgSrc.body : MsgSrc → Option MessageBody
  | .message m => some m.body
  | .group _ b => some b
  | .map .. => none

/-- The message that a field brings with it. -/
def fieldMsgs (f : Field) : List MsgSrc :=
  match f.kind with
  | .normal .. => []
  | .group _ b => [.group f b]
  | .map _ k _ v _ => [.map f k v]

/-- The messages directly inside an element of a message body, in source order. -/
def itemMsgs : MessageItem → List MsgSrc
  | .field f => fieldMsgs f
  | .enum _ => []
  | .message m => [.message m]
  | .extend e => e.fields.flatMap fieldMsgs
  | .oneof o => o.fields.flatMap fieldMsgs

/-- The messages directly inside a message body, in source order. -/
def bodyMsgs (b : MessageBody) : List MsgSrc := b.items.flatMap itemMsgs

/-- The messages at the top level of a file, in source order. -/
def fileMsgs (f : File) : List MsgSrc := f.items.flatMap fun
  | .message m => [.message m]
  | .extend e => e.fields.flatMap fieldMsgs
  | _ => []

/-- `MsgAt f fd path src d`: the message descriptor `d` stands at `path` (field numbers and indices of
descriptor.proto: 4 is `message_type`, 3 is `nested_type`) in `fd`, and `src` is what stands at the same place in the
syntax tree `f`. -/
inductive MsgAt (f : File) (fd : FileDescriptorProto) : List Int → MsgSrc → DescriptorProto → Prop where
  | top {i : Nat} {s d} : (fileMsgs f)[i]? = some s → fd.messageType[i]? = some d → MsgAt f fd [4, (i : Int)] s d
  | nested {p s d b} {i : Nat} {s' d'} : MsgAt f fd p s d → s.body = some b → (bodyMsgs b)[i]? = some s' →
      d.nestedType[i]? = some d' → MsgAt f fd (p ++ [3, (i : Int)]) s' d'

/-- A message descriptor somewhere in a file. -/
inductive MsgIn (fd : FileDescriptorProto) : DescriptorProto → Prop where
  | top {d} : d ∈ fd.messageType → MsgIn fd d
  | nested {d d'} : MsgIn fd d → d' ∈ d.nestedType → MsgIn fd d'

/-- Where a field is written. -/
inductive Place where
  /-- Directly in a message body. -/
  | message
  /-- In the oneof of that index among the oneofs of the message body. -/
  | oneof (k : Nat)
  /-- In an `extend` block for that type. -/
  | extend (t : TypeName)

/-- The fields of a message body in source order, those of oneofs included; `k` is the index of the next oneof. -/
def fieldsFrom (k : Nat) : List MessageItem → List (Place × Field)
  | [] => []
  | .field f :: xs => (.message, f) :: fieldsFrom k xs
  | .oneof o :: xs => o.fields.map (fun f => (.oneof k, f)) ++ fieldsFrom (k + 1) xs
  | _ :: xs => fieldsFrom k xs

/-- The fields of a message body in source order, those of oneofs included. -/
def bodyFields (b : MessageBody) : List (Place × Field) := fieldsFrom 0 b.items

/-- The extension fields of an `extend` block. -/
def extendFields (e : Extend) : List (Place × Field) := e.fields.map fun f => (.extend e.extendee, f)

/-- The extension fields declared directly in a message body, in source order. -/
def bodyExts (b : MessageBody) : List (Place × Field) := b.items.flatMap fun
  | .extend e => extendFields e
  | _ => []

/-- The extension fields at the top level of a file, in source order. -/
def fileExts (f : File) : List (Place × Field) := f.items.flatMap fun
  | .extend e => extendFields e
  | _ => []

/-- The oneofs of a message body in source order. -/
def bodyOneofs (b : MessageBody) : List Oneof := b.items.filterMap fun
  | .oneof o => some o
  | _ => none

/-- The enums directly in a message body in source order. -/
def bodyEnums (b : MessageBody) : List Enum := b.items.filterMap fun
  | .enum e => some e
  | _ => none

/-- The enums at the top level of a file in source order. -/
def fileEnums (f : File) : List Enum := f.items.filterMap fun
  | .enum e => some e
  | _ => none

/-- The services of a file in source order. -/
def fileServices (f : File) : List Service := f.items.filterMap fun
  | .service s => some s
  | _ => none

/-- `FieldAt f fd path place field d`: the field descriptor `d` stands at `path` (2 is `field`, 6 and 7 are
`extension`) in `fd` and `field` at the same place in the syntax tree. -/
inductive FieldAt (f : File) (fd : FileDescriptorProto) : List Int → Place → Field → FieldDescriptorProto → Prop where
  | field {p s d b} {i : Nat} {pl x y} : MsgAt f fd p s d → s.body = some b → (bodyFields b)[i]? = some (pl, x) →
      d.field[i]? = some y → FieldAt f fd (p ++ [2, (i : Int)]) pl x y
  | ext {p s d b} {i : Nat} {pl x y} : MsgAt f fd p s d → s.body = some b → (bodyExts b)[i]? = some (pl, x) →
      d.extension[i]? = some y → FieldAt f fd (p ++ [6, (i : Int)]) pl x y
  | fileExt {i : Nat} {pl x y} : (fileExts f)[i]? = some (pl, x) → fd.extension[i]? = some y →
      FieldAt f fd [7, (i : Int)] pl x y

/-- A field or extension descriptor somewhere in a file. -/
inductive FieldIn (fd : FileDescriptorProto) : FieldDescriptorProto → Prop where
  | field {d x} : MsgIn fd d → x ∈ d.field → FieldIn fd x
  | ext {d x} : MsgIn fd d → x ∈ d.extension → FieldIn fd x
  | fileExt {x} : x ∈ fd.extension → FieldIn fd x

/-- `EnumAt f fd path e d`: the enum descriptor `d` stands at `path` (5 and 4 are `enum_type`) in `fd` and `e` at the
same place in the syntax tree. -/
inductive EnumAt (f : File) (fd : FileDescriptorProto) : List Int → Enum → EnumDescriptorProto → Prop where
  | top {i : Nat} {e d} : (fileEnums f)[i]? = some e → fd.enumType[i]? = some d → EnumAt f fd [5, (i : Int)] e d
  | nested {p s d b} {i : Nat} {e d'} : MsgAt f fd p s d → s.body = some b → (bodyEnums b)[i]? = some e →
      d.enumType[i]? = some d' → EnumAt f fd (p ++ [4, (i : Int)]) e d'

/-- `ServiceAt f fd path s d`: the service descriptor `d` stands at `path` (6 is `service`) in `fd` and `s` at the same
place in the syntax tree. -/
inductive ServiceAt (f : File) (fd : FileDescriptorProto) : List Int → Service → ServiceDescriptorProto → Prop where
  | mk {i : Nat} {s d} : (fileServices f)[i]? = some s → fd.service[i]? = some d → ServiceAt f fd [6, (i : Int)] s d

/-- Every element of the descriptor is paired with a written construct, and the other way round: the lists of the two
sides have the same lengths (an entry message of a map has exactly two fields and nothing else). -/
structure Paired (f : File) (fd : FileDescriptorProto) : Prop where
  messages : fd.messageType.length = (fileMsgs f).length
  enums : fd.enumType.length = (fileEnums f).length
  services : fd.service.length = (fileServices f).length
  extensions : fd.extension.length = (fileExts f).length
  body : ∀ p s d b, MsgAt f fd p s d → s.body = some b →
    d.nestedType.length = (bodyMsgs b).length ∧ d.field.length = (bodyFields b).length ∧
    d.extension.length = (bodyExts b).length ∧ d.enumType.length = (bodyEnums b).length
  entry : ∀ p s d, MsgAt f fd p s d → s.body = none →
    d.nestedType = [] ∧ d.field.length = 2 ∧ d.extension = [] ∧ d.enumType = [] ∧ d.oneofDecl = [] ∧
    d.extensionRange = [] ∧ d.reservedRange = [] ∧ d.reservedName = []

end Verif.Spec
