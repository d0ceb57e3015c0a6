import Verif.Model.Descriptor
/-!
Following a path of field numbers and indices through a descriptor (google/protobuf/descriptor.proto, the message
`SourceCodeInfo.Location`).  `filePath fd p` holds if `p` leads to something that is there.
-/
namespace Verif.Spec

/-- The rest of a path below a field that holds at most one value: the value must be there, and nothing is below it. -/
def single {α : Type} (o : Option α) (p : List Int) : Prop := o.isSome = true ∧ p = []

/-- The rest of a path below a repeated field: either the path ends here and means the whole field, or an index in
bounds follows and the rest goes on in that element. -/
def repeated {α : Type} (inside : α → List Int → Prop) (l : List α) : List Int → Prop
  | [] => True
  | i :: p => ∃ (n : Nat) (x : α), i = (n : Int) ∧ l[n]? = some x ∧ inside x p

/-- An element without fields of its own. -/
def leaf {α : Type} (_ : α) (p : List Int) : Prop := p = []

/-- Below an options field: 999 is `uninterpreted_option`. -/
def optionsPath (o : Option (List UninterpretedOption)) : List Int → Prop
  | [] => o.isSome = true
  | 999 :: p => ∃ l, o = some l ∧ repeated leaf l p
  | _ => False

/-- Below a FieldDescriptorProto. -/
def fieldPath (d : FieldDescriptorProto) : List Int → Prop
  | [] => True
  | 1 :: p => single d.name p
  | 2 :: p => single d.extendee p
  | 3 :: p => single d.number p
  | 4 :: p => single d.label p
  | 5 :: p => single d.type p
  | 6 :: p => single d.typeName p
  | 7 :: p => single d.defaultValue p
  | 8 :: p => optionsPath d.options p
  | 9 :: p => single d.oneofIndex p
  | 10 :: p => single d.jsonName p
  | 17 :: p => single d.proto3Optional p
  | _ => False

/-- Below a OneofDescriptorProto. -/
def oneofPath (d : OneofDescriptorProto) : List Int → Prop
  | [] => True
  | 1 :: p => single d.name p
  | 2 :: p => optionsPath d.options p
  | _ => False

/-- Below a reserved range. -/
def rangePath (d : RangeProto) : List Int → Prop
  | [] => True
  | 1 :: p => single d.start p
  | 2 :: p => single d.stop p
  | _ => False

/-- Below an extension range. -/
def extensionRangePath (d : ExtensionRangeProto) : List Int → Prop
  | [] => True
  | 1 :: p => single d.start p
  | 2 :: p => single d.stop p
  | 3 :: p => optionsPath d.options p
  | _ => False

/-- Below an EnumValueDescriptorProto. -/
def enumValuePath (d : EnumValueDescriptorProto) : List Int → Prop
  | [] => True
  | 1 :: p => single d.name p
  | 2 :: p => single d.number p
  | 3 :: p => optionsPath d.options p
  | _ => False

/-- Below an EnumDescriptorProto. -/
def enumPath (d : EnumDescriptorProto) : List Int → Prop
  | [] => True
  | 1 :: p => single d.name p
  | 2 :: p => repeated enumValuePath d.value p
  | 3 :: p => optionsPath d.options p
  | 4 :: p => repeated rangePath d.reservedRange p
  | 5 :: p => repeated leaf d.reservedName p
  | _ => False

/-- Below a MethodDescriptorProto. -/
def methodPath (d : MethodDescriptorProto) : List Int → Prop
  | [] => True
  | 1 :: p => single d.name p
  | 2 :: p => single d.inputType p
  | 3 :: p => single d.outputType p
  | 4 :: p => optionsPath d.options p
  | 5 :: p => single d.clientStreaming p
  | 6 :: p => single d.serverStreaming p
  | _ => False

/-- Below a ServiceDescriptorProto. -/
def servicePath (d : ServiceDescriptorProto) : List Int → Prop
  | [] => True
  | 1 :: p => single d.name p
  | 2 :: p => repeated methodPath d.method p
  | 3 :: p => optionsPath d.options p
  | _ => False

/-- Below a DescriptorProto. -/
def descriptorPath : DescriptorProto → List Int → Prop
  | _, [] => True
  | d, 1 :: p => single d.name p
  | d, 2 :: p => repeated fieldPath d.field p
  | _, [3] => True
  | d, 3 :: i :: p => ∃ (n : Nat) (x : DescriptorProto), i = (n : Int) ∧ d.nestedType[n]? = some x ∧ descriptorPath x p
  | d, 4 :: p => repeated enumPath d.enumType p
  | d, 5 :: p => repeated extensionRangePath d.extensionRange p
  | d, 6 :: p => repeated fieldPath d.extension p
  | d, 7 :: p => optionsPath (d.options.map (·.uninterpretedOption)) p
  | d, 8 :: p => repeated oneofPath d.oneofDecl p
  | d, 9 :: p => repeated rangePath d.reservedRange p
  | d, 10 :: p => repeated leaf d.reservedName p
  | _, _ => False

/-- Below a FileDescriptorProto. -/
def filePath (d : FileDescriptorProto) : List Int → Prop
  | [] => True
  | 1 :: p => single d.name p
  | 2 :: p => single d.package p
  | 3 :: p => repeated leaf d.dependency p
  | 4 :: p => repeated descriptorPath d.messageType p
  | 5 :: p => repeated enumPath d.enumType p
  | 6 :: p => repeated servicePath d.service p
  | 7 :: p => repeated fieldPath d.extension p
  | 8 :: p => optionsPath d.options p
  | 10 :: p => repeated leaf d.publicDependency p
  | 11 :: p => repeated leaf d.weakDependency p
  | 12 :: p => single d.syntax' p
  | _ => False

end Verif.Spec
