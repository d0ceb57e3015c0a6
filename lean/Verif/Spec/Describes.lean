import Verif.Spec.Content
import Verif.Spec.Locations
/-!
The complete rules for the descriptor of a file (C65): every field of every element of the descriptor, in terms of the
syntax tree.
-/
namespace Verif.Spec
open Verif.Ast

/-- The options `os` as they stand in a descriptor: each of them once, in order; absent if there are none. -/
def carried (os : List OptionBody) : Option (List UninterpretedOption) :=
  if os = [] then none else some (os.map optionOf)

/-- The rules for the descriptor `d` of a field or extension `x` that is written at `pl`, in a file with the syntax `syn`.
The number of the oneof it belongs to is `oneof`. -/
structure FieldDescribed [FloatFmt] (syn : Syntax') (pl : Place) (x : Field) (oneof : Option Int)
    (d : FieldDescriptorProto) : Prop where
  name : d.name = some (fieldNameOf x)
  number : d.number = some x.number.toInt
  label : d.label = some (if isMapField x then .repeated else (x.label.map (·.1)).getD .optional)
  type : d.type = fieldTypeOf x
  typeName : d.typeName = fieldTypeNameOf x
  extendee : d.extendee = extendeeOf pl
  oneofIndex : d.oneofIndex = oneof
  proto3Optional : d.proto3Optional = if syn = .proto3 ∧ x.label.map (·.1) = some .optional then some true else none
  /-- The first `default` and the first `json_name` are not options of the field. -/
  options : d.options = carried (((listed x.options).eraseP (named b!"default")).eraseP (named b!"json_name"))
  noJsonName : (listed x.options).find? (named b!"json_name") = none → d.jsonName = none
  jsonName : ∀ o, (listed x.options).find? (named b!"json_name") = some o →
    ∃ s, o.value = .string s ∧ d.jsonName = some s.value
  noDefault : (listed x.options).find? (named b!"default") = none → d.defaultValue = none
  default : ∀ o, (listed x.options).find? (named b!"default") = some o →
    ∃ t sp s, x.kind = .normal t sp ∧ d.defaultValue = some s ∧ DefaultText t o.value s

/-- The rules for the descriptor `d` of a message or group with the body `b`; its fields, enums, extensions and nested
messages have rules of their own. -/
structure BodyDescribed (syn : Syntax') (b : MessageBody) (d : DescriptorProto) : Prop where
  options : d.options = (carried (b.options.map (·.body))).map fun us => { uninterpretedOption := us }
  /-- First the written oneofs, then those made for `optional` fields of proto3. -/
  oneofs : d.oneofDecl =
    (bodyOneofs b).map (fun o => { name := some o.name.value, options := carried (o.options.map (·.body)) }) ++
    ((bodyFields b).filter (IsProto3Optional syn)).map (fun x => { name := some (syntheticName x.2.name.value) })
  reservedName : d.reservedName = reservedNames b.reserved
  /-- Half-open intervals; `max` is larger in a message set. -/
  ranges : ∃ top : Int, (MessageSet b → top = 2147483646) ∧ (¬ MessageSet b → top = 536870911) ∧
    d.reservedRange = (reservedRanges b.reserved).map
      (fun r => { start := some r.start.toInt, stop := some (lastOf top r + 1) }) ∧
    d.extensionRange = (extensionRanges b.extensions).map (fun r =>
      { start := some r.1.start.toInt, stop := some (lastOf top r.1 + 1), options := carried (listed r.2) })

/-- The two fields of a map entry with a key of type `k` and values of type `v`. -/
def entryFields (k v : Ty) : List FieldDescriptorProto :=
  [{ name := some b!"key", jsonName := some b!"key", label := some .optional, number := some 1,
     type := typeNumber k },
   { name := some b!"value", jsonName := some b!"value", label := some .optional, number := some 2,
     type := typeNumber v, typeName := typeNameOf v }]

/-- The descriptor of an enum. -/
def enumDescribed (e : Enum) : EnumDescriptorProto :=
  { name := some e.name.value
    value := e.values.map fun v =>
      { name := some v.name.value, number := some v.number.toInt, options := carried (listed v.options) }
    options := carried (e.options.map (·.body))
    reservedRange := (reservedRanges e.reserved).map fun r =>
      { start := some r.start.toInt, stop := some (lastOf 2147483647 r) }
    reservedName := reservedNames e.reserved }

/-- The descriptor of a service. -/
def serviceDescribed (s : Service) : ServiceDescriptorProto :=
  { name := some s.name.value
    method := s.methods.map fun x =>
      { name := some x.name.value, inputType := some (typeText x.inputTy), outputType := some (typeText x.outputTy)
        options := carried (x.options.map (·.body))
        clientStreaming := if x.clientStreaming.isSome then some true else none
        serverStreaming := if x.serverStreaming.isSome then some true else none }
    options := carried (s.options.map (·.body)) }

/-- The numbers of the imports of the kind `k`. -/
def importsOf (k : ImportKind) (f : File) : List Int :=
  ((List.range f.imports.length).filter fun i => (f.imports[i]?.bind fun x => x.kind.map (·.1)) = some k).map Int.ofNat

/-- The rules for the descriptor `fd` of the file `f`, apart from its source code info. -/
structure Describes [FloatFmt] (name : Bytes) (f : File) (fd : FileDescriptorProto) : Prop where
  name : fd.name = some name
  package : fd.package = f.package.map (fun p => identText p.name)
  syn : fd.syntax' = (match f.syntax' with | .proto2 => none | .proto3 => some b!"proto3")
  dependency : fd.dependency = f.imports.map (·.value)
  publicDependency : fd.publicDependency = importsOf .publ f
  weakDependency : fd.weakDependency = importsOf .weak f
  options : fd.options = carried (f.options.map (·.body))
  /-- There is a descriptor for every written construct, and no other. -/
  paired : Paired f fd
  messageNames : ∀ p s d, MsgAt f fd p s d → d.name = some s.name
  bodies : ∀ p s d b, MsgAt f fd p s d → s.body = some b → BodyDescribed f.syntax' b d
  entries : ∀ p x k v d, MsgAt f fd p (.map x k v) d → d.options = some { mapEntry := some true } ∧ d.field = entryFields k v
  fields : ∀ p s d b (i : Nat) pl x y, MsgAt f fd p s d → s.body = some b → (bodyFields b)[i]? = some (pl, x) →
    d.field[i]? = some y → FieldDescribed f.syntax' pl x (oneofIndexOf f.syntax' b i) y
  extensions : ∀ p s d b (i : Nat) pl x y, MsgAt f fd p s d → s.body = some b → (bodyExts b)[i]? = some (pl, x) →
    d.extension[i]? = some y → FieldDescribed f.syntax' pl x none y
  fileExtensions : ∀ (i : Nat) pl x y, (fileExts f)[i]? = some (pl, x) → fd.extension[i]? = some y →
    FieldDescribed f.syntax' pl x none y
  enums : ∀ p e d, EnumAt f fd p e d → d = enumDescribed e
  services : ∀ p s d, ServiceAt f fd p s d → d = serviceDescribed s

/-- The rules for the source code info: the locations of the written constructs, each once, ordered by path.  (The order of
the locations of one path is not determined.) -/
def Located (src : Bytes) (f : File) (fd : FileDescriptorProto) : Prop :=
  ∃ locs, fd.sourceCodeInfo = some locs ∧ locs.Pairwise (fun a b => a.path ≤ b.path) ∧ locs.Nodup ∧
    ∀ loc, loc ∈ locs ↔ ∃ r, RowOf f fd r ∧ loc = r.location src

/-- Two descriptors that are equal except that the locations of the same path may be in another order. -/
def SameDescriptor (fd fd' : FileDescriptorProto) : Prop :=
  { fd with sourceCodeInfo := none } = { fd' with sourceCodeInfo := none } ∧
  ∃ locs locs', fd.sourceCodeInfo = some locs ∧ fd'.sourceCodeInfo = some locs' ∧
    locs.map (·.path) = locs'.map (·.path) ∧ ∀ p, (locs.filter (·.path = p)).Perm (locs'.filter (·.path = p))

end Verif.Spec
