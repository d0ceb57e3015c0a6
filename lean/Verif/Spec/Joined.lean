import Verif.Model.Descriptor
/-! One file after another. -/
namespace Verif.Spec

/-- The `syntax` statement for the syntax of a descriptor. -/
def header (syn : Option Bytes) : Bytes :=
  if syn = some b!"proto3" then b!"syntax = \"proto3\";" else b!"syntax = \"proto2\";"

/-- Two texts, one after the other, on separate lines. -/
def joinLines (a b : Bytes) : Bytes := a ++ b!"\n" ++ b

/-- `d` describes the statements of `da` followed by those of `db`. (Locations in the source are not compared.) -/
structure Joined (da db d : FileDescriptorProto) : Prop where
  name : d.name = da.name
  syntax' : d.syntax' = da.syntax'
  onePackage : da.package = none ∨ db.package = none
  package : d.package = da.package.or db.package
  dependency : d.dependency = da.dependency ++ db.dependency
  publicDependency : d.publicDependency = da.publicDependency ++ db.publicDependency.map (· + (da.dependency.length : Int))
  weakDependency : d.weakDependency = da.weakDependency ++ db.weakDependency.map (· + (da.dependency.length : Int))
  messageType : d.messageType = da.messageType ++ db.messageType
  enumType : d.enumType = da.enumType ++ db.enumType
  service : d.service = da.service ++ db.service
  extension : d.extension = da.extension ++ db.extension
  options : d.options = match da.options, db.options with
    | none, o => o
    | some o, none => some o
    | some o, some o' => some (o ++ o')

end Verif.Spec
