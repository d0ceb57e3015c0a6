import Verif.Model.Descriptor
/-!
The syntax tree: protox-parse/src/ast/mod.rs.  `u64` is `Nat`, `f64` is the symbolic `FloatVal`.
-/
namespace Verif.Ast

/-- `Syntax` (ast/mod.rs:11-16). -/
inductive Syntax' where
  | proto2 | proto3
  deriving DecidableEq, Repr, Inhabited

/-- `Comments` (ast/mod.rs:37-42). -/
structure Comments where
  leadingDetached : List Bytes := []
  leading : Option Bytes := none
  trailing : Option Bytes := none
  deriving DecidableEq, Repr, Inhabited

/-- `Ident` (ast/mod.rs:44-48). -/
structure Ident where
  value : Bytes
  span : Span
  deriving DecidableEq, Repr

/-- `FullIdent` (ast/mod.rs:50-53). -/
structure FullIdent where
  parts : List Ident
  deriving DecidableEq, Repr

/-- `TypeName` (ast/mod.rs:55-59). -/
structure TypeName where
  leadingDot : Option Span
  name : FullIdent
  deriving DecidableEq, Repr

/-- `Int` (ast/mod.rs:61-66). -/
structure Int' where
  negative : Bool
  value : Nat
  span : Span
  deriving DecidableEq, Repr

/-- `Float` (ast/mod.rs:68-72). -/
structure Float' where
  value : FloatVal
  span : Span
  deriving DecidableEq, Repr

/-- `String` (ast/mod.rs:74-78). -/
structure Str where
  value : Bytes
  span : Span
  deriving DecidableEq, Repr

/-- `OptionValue` (ast/mod.rs:80-91). -/
inductive OptionValue where
  | ident (negative : Bool) (ident : Ident) (span : Span)
  | int (i : Int')
  | float (f : Float')
  | string (s : Str)
  | aggregate (text : Bytes) (span : Span)
  deriving DecidableEq, Repr

/-- `ImportKind` (ast/mod.rs:102-106). -/
inductive ImportKind where
  | weak | publ
  deriving DecidableEq, Repr

/-- `Import` (ast/mod.rs:93-100). -/
structure Import where
  kind : Option (ImportKind × Span)
  value : Bytes
  valueSpan : Span
  comments : Comments
  span : Span
  deriving DecidableEq, Repr

/-- `Package` (ast/mod.rs:108-113). -/
structure Package where
  name : FullIdent
  comments : Comments
  span : Span
  deriving DecidableEq, Repr

/-- `OptionNamePart` (ast/mod.rs:122-126). -/
inductive OptionNamePart where
  | ident (i : Ident)
  | extension (t : TypeName) (span : Span)
  deriving DecidableEq, Repr

/-- `OptionBody` (ast/mod.rs:128-132). -/
structure OptionBody where
  name : List OptionNamePart
  value : OptionValue
  deriving DecidableEq, Repr

/-- `Option` (ast/mod.rs:115-120). -/
structure Opt where
  body : OptionBody
  comments : Comments
  span : Span
  deriving DecidableEq, Repr

/-- `OptionList` (ast/mod.rs:134-138). -/
structure OptionList where
  options : List OptionBody
  span : Span
  deriving DecidableEq, Repr

/-- `FieldLabel` (ast/mod.rs:159-164); the same three labels as in the descriptor. -/
abbrev FieldLabel := Label

/-- `Ty` (ast/mod.rs:201-219). -/
inductive Ty where
  | double | float | int32 | int64 | uint32 | uint64 | sint32 | sint64 | fixed32 | fixed64
  | sfixed32 | sfixed64 | bool | string | bytes
  | named (t : TypeName)
  deriving DecidableEq, Repr

/-- `ReservedRangeEnd` (ast/mod.rs:266-271). -/
inductive ReservedRangeEnd where
  | none
  | int (i : Int')
  | max (span : Span)
  deriving DecidableEq, Repr

/-- `ReservedRange` (ast/mod.rs:260-264). -/
structure ReservedRange where
  start : Int'
  stop : ReservedRangeEnd
  deriving DecidableEq, Repr

/-- `ReservedKind` (ast/mod.rs:254-258). -/
inductive ReservedKind where
  | ranges (rs : List ReservedRange)
  | names (ns : List Ident)
  deriving DecidableEq, Repr

/-- `Reserved` (ast/mod.rs:239-244). -/
structure Reserved where
  kind : ReservedKind
  comments : Comments
  span : Span
  deriving DecidableEq, Repr

/-- `Extensions` (ast/mod.rs:246-252). -/
structure Extensions where
  ranges : List ReservedRange
  options : Option OptionList
  comments : Comments
  span : Span
  deriving DecidableEq, Repr

/-- `EnumValue` (ast/mod.rs:283-290). -/
structure EnumValue where
  name : Ident
  number : Int'
  options : Option OptionList
  comments : Comments
  span : Span
  deriving DecidableEq, Repr

/-- `Enum` (ast/mod.rs:273-281). -/
structure Enum where
  name : Ident
  options : List Opt
  values : List EnumValue
  reserved : List Reserved
  comments : Comments
  span : Span
  deriving DecidableEq, Repr

/-- `Method` (ast/mod.rs:301-311). -/
structure Method where
  name : Ident
  inputTy : TypeName
  outputTy : TypeName
  options : List Opt
  clientStreaming : Option Span
  serverStreaming : Option Span
  comments : Comments
  span : Span
  deriving DecidableEq, Repr

/-- `Service` (ast/mod.rs:292-299). -/
structure Service where
  name : Ident
  options : List Opt
  methods : List Method
  comments : Comments
  span : Span
  deriving DecidableEq, Repr

mutual
/-- `MessageBody` (ast/mod.rs:166-172). -/
structure MessageBody where
  items : List MessageItem
  extensions : List Extensions
  options : List Opt
  reserved : List Reserved

/-- `MessageItem` (ast/mod.rs:174-181). -/
inductive MessageItem where
  | field (f : Field)
  | enum (e : Enum)
  | message (m : Message)
  | extend (e : Extend)
  | oneof (o : Oneof)

/-- `Message` (ast/mod.rs:140-146). -/
structure Message where
  name : Ident
  body : MessageBody
  comments : Comments
  span : Span

/-- `Extend` (ast/mod.rs:230-236). -/
structure Extend where
  extendee : TypeName
  fields : List Field
  comments : Comments
  span : Span

/-- `Oneof` (ast/mod.rs:221-228). -/
structure Oneof where
  name : Ident
  options : List Opt
  fields : List Field
  comments : Comments
  span : Span

/-- `Field` (ast/mod.rs:148-157). -/
structure Field where
  label : Option (FieldLabel × Span)
  name : Ident
  kind : FieldKind
  number : Int'
  options : Option OptionList
  comments : Comments
  span : Span

/-- `FieldKind` (ast/mod.rs:183-199). -/
inductive FieldKind where
  | normal (ty : Ty) (tySpan : Span)
  | group (tySpan : Span) (body : MessageBody)
  | map (tySpan : Span) (keyTy : Ty) (keyTySpan : Span) (valueTy : Ty) (valueTySpan : Span)
end

/-- `FileItem` (ast/mod.rs:29-35). -/
inductive FileItem where
  | enum (e : Enum)
  | message (m : Message)
  | extend (e : Extend)
  | service (s : Service)

/-- `File` (ast/mod.rs:18-27). -/
structure File where
  span : Span
  syntax' : Syntax'
  syntaxSpan : Option (Span × Comments)
  package : Option Package
  imports : List Import
  options : List Opt
  items : List FileItem

end Verif.Ast
