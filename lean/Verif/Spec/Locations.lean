import Verif.Spec.Content
import Verif.Spec.Lines
/-!
Which source locations a file has: for each construct the paths (field numbers of google/protobuf/descriptor.proto,
relative to the descriptor of the construct), the span and the comments that are recorded for it.
-/
namespace Verif.Spec
open Verif.Ast

/-- A source location: path, span in bytes, comments. -/
structure Row where
  path : List Int
  span : Span
  comments : Comments := {}

/-- The row with its path below `p`. -/
def Row.below (p : List Int) (r : Row) : Row := { r with path := p ++ r.path }

/-- The rows of the elements of a list, below `tag` and their index. -/
def indexed {α : Type} (tag : Int) (l : List α) (rows : α → List Row) : List Row :=
  l.zipIdx.flatMap fun x => (rows x.1).map (Row.below [tag, (x.2 : Int)])

/-- From the start of `a` to the end of `b`. -/
def spanTo (a b : Span) : Span := ⟨a.start, b.stop⟩

/-- From the first to the last of these spans. -/
def spanOfAll (l : List Span) : Span := spanTo (l.head?.getD ⟨0, 0⟩) (l.getLast?.getD ⟨0, 0⟩)

/-- The span of a type name, with its leading dot. -/
def typeSpan (t : TypeName) : Span := spanOfAll (t.leadingDot.toList ++ t.name.parts.map (·.span))

/-- The span of an option value. -/
def valueSpan : OptionValue → Span
  | .ident _ _ s => s
  | .int i => i.span
  | .float f => f.span
  | .string s => s.span
  | .aggregate _ s => s

/-- The span of a part of an option name. -/
def partSpan : OptionNamePart → Span
  | .ident i => i.span
  | .extension _ s => s

/-- The span of an option: from its name to its value. -/
def optionSpan (o : OptionBody) : Span := spanTo ((o.name.head?.map partSpan).getD ⟨0, 0⟩) (valueSpan o.value)

/-- The rows of option statements, below the options field: each of them marks the options field as well. -/
def optionRows (os : List Opt) : List Row :=
  os.map (fun o => ⟨[], o.span, {}⟩) ++ indexed 999 os fun o => [⟨[], o.span, o.comments⟩]

/-- The rows of options in brackets, below the options field. -/
def listRows (os : Option OptionList) (kept : List OptionBody) : List Row :=
  os.toList.map (fun l => ⟨[], l.span, {}⟩) ++ indexed 999 kept fun o => [⟨[], optionSpan o, {}⟩]

/-- The options of a field other than the first `default` and the first `json_name`. -/
def keptOptions (x : Field) : List OptionBody :=
  ((listed x.options).eraseP (named b!"default")).eraseP (named b!"json_name")

/-- The span of the last number of a range. -/
def stopSpan (r : ReservedRange) : Span :=
  match r.stop with
  | .none => r.start.span
  | .int i => i.span
  | .max s => s

/-- The rows of a range. -/
def rangeRows (r : ReservedRange) : List Row :=
  [⟨[], spanTo r.start.span (stopSpan r), {}⟩, ⟨[1], r.start.span, {}⟩, ⟨[2], stopSpan r, {}⟩]

/-- The row of the extended type, for an extension. -/
def extendeeRows : Place → List Row
  | .extend t => [⟨[2], typeSpan t, {}⟩]
  | _ => []

/-- The rows of the type of a field. -/
def typeRows (x : Field) : List Row :=
  match x.kind with
  | .normal (.named t) _ => [⟨[6], typeSpan t, {}⟩]
  | .normal _ sp => [⟨[5], sp, {}⟩]
  | .group sp _ => [⟨[5], sp, {}⟩, ⟨[6], x.name.span, {}⟩]
  | .map sp _ _ _ _ => [⟨[6], sp, {}⟩]

/-- The comments of a field; those of a group belong to its message. -/
def fieldComments (x : Field) : Comments :=
  match x.kind with
  | .group .. => {}
  | _ => x.comments

/-- The rows of a field: 1 is `name`, 2 `extendee`, 3 `number`, 4 `label`, 5 `type`, 6 `type_name`, 7 `default_value`,
8 `options`, 10 `json_name`. -/
def fieldRows (place : Place) (x : Field) : List Row :=
  [⟨[], x.span, fieldComments x⟩, ⟨[1], x.name.span, {}⟩, ⟨[3], x.number.span, {}⟩] ++ extendeeRows place ++
  x.label.toList.map (fun l => ⟨[4], l.2, {}⟩) ++ typeRows x ++
  ((listed x.options).find? (named b!"default")).toList.map (fun o => ⟨[7], valueSpan o.value, {}⟩) ++
  ((listed x.options).find? (named b!"json_name")).toList.flatMap
    (fun o => [⟨[10], optionSpan o, {}⟩, ⟨[10], valueSpan o.value, {}⟩]) ++
  (listRows x.options (keptOptions x)).map (Row.below [8])

/-- The rows of a oneof: 1 is `name`, 2 `options`. -/
def oneofRows (o : Oneof) : List Row :=
  [⟨[], o.span, o.comments⟩, ⟨[1], o.name.span, {}⟩] ++ (optionRows o.options).map (Row.below [2])

/-- The rows of the `reserved` statements: below the range field or the name field. -/
def reservedRows (rangeTag nameTag : Int) (rs : List Reserved) : List Row :=
  rs.map (fun r => match r.kind with
    | .ranges _ => ⟨[rangeTag], r.span, r.comments⟩
    | .names _ => ⟨[nameTag], r.span, r.comments⟩) ++
  indexed rangeTag (reservedRanges rs) rangeRows ++
  indexed nameTag (rs.flatMap fun r => match r.kind with | .ranges _ => [] | .names ns => ns)
    (fun n => [⟨[], n.span, {}⟩])

/-- The rows of an enum value: 1 is `name`, 2 `number`, 3 `options`. -/
def valueRows (v : EnumValue) : List Row :=
  [⟨[], v.span, v.comments⟩, ⟨[1], v.name.span, {}⟩, ⟨[2], v.number.span, {}⟩] ++
  (listRows v.options (listed v.options)).map (Row.below [3])

/-- The rows of an enum: 1 is `name`, 2 `value`, 3 `options`, 4 `reserved_range`, 5 `reserved_name`. -/
def enumRows (e : Enum) : List Row :=
  [⟨[], e.span, e.comments⟩, ⟨[1], e.name.span, {}⟩] ++ indexed 2 e.values valueRows ++ reservedRows 4 5 e.reserved ++
  (optionRows e.options).map (Row.below [3])

/-- The rows of a method: 1 is `name`, 2 `input_type`, 3 `output_type`, 4 `options`, 5 `client_streaming`, 6
`server_streaming`. -/
def methodRows (x : Method) : List Row :=
  [⟨[], x.span, x.comments⟩, ⟨[1], x.name.span, {}⟩, ⟨[2], typeSpan x.inputTy, {}⟩, ⟨[3], typeSpan x.outputTy, {}⟩] ++
  x.clientStreaming.toList.map (fun s => ⟨[5], s, {}⟩) ++ x.serverStreaming.toList.map (fun s => ⟨[6], s, {}⟩) ++
  (optionRows x.options).map (Row.below [4])

/-- The rows of a service: 1 is `name`, 2 `method`, 3 `options`. -/
def serviceRows (s : Service) : List Row :=
  [⟨[], s.span, s.comments⟩, ⟨[1], s.name.span, {}⟩] ++ indexed 2 s.methods methodRows ++
  (optionRows s.options).map (Row.below [3])

/-- The `extend` blocks directly in a message body. -/
def bodyExtends (b : MessageBody) : List Extend := b.items.filterMap fun
  | .extend e => some e
  | _ => none

/-- The `extend` blocks at the top level of a file. -/
def fileExtends (f : File) : List Extend := f.items.filterMap fun
  | .extend e => some e
  | _ => none

/-- The rows of the parts of a message body that are not fields, enums or messages: 5 is `extension_range` (with 3 its
`options`), 6 `extension`, 7 `options`, 8 `oneof_decl`, 9 `reserved_range`, 10 `reserved_name`. -/
def bodyRows (b : MessageBody) : List Row :=
  indexed 8 (bodyOneofs b) oneofRows ++ reservedRows 9 10 b.reserved ++
  b.extensions.map (fun e => ⟨[5], e.span, e.comments⟩) ++
  indexed 5 (extensionRanges b.extensions) (fun r =>
    rangeRows r.1 ++ (listRows r.2 (listed r.2)).map (Row.below [3])) ++
  (bodyExtends b).map (fun e => ⟨[6], e.span, e.comments⟩) ++
  (optionRows b.options).map (Row.below [7])

/-- The rows of a message: 1 is `name`. Nothing is recorded for the entry message of a map. -/
def messageRows : MsgSrc → List Row
  | .message m => [⟨[], m.span, m.comments⟩, ⟨[1], m.name.span, {}⟩] ++ bodyRows m.body
  | .group x b => [⟨[], x.span, x.comments⟩, ⟨[1], x.name.span, {}⟩] ++ bodyRows b
  | .map .. => []

/-- The rows of a file: 2 is `package`, 3 `dependency`, 7 `extension`, 8 `options`, 10 `public_dependency`, 11
`weak_dependency`, 12 `syntax`. -/
def fileRows (f : File) : List Row :=
  [⟨[], f.span, {}⟩] ++ f.syntaxSpan.toList.map (fun s => ⟨[12], s.1, s.2⟩) ++
  f.package.toList.map (fun p => ⟨[2], p.span, p.comments⟩) ++
  indexed 3 f.imports (fun i => [⟨[], i.span, i.comments⟩]) ++
  indexed 10 (f.imports.filterMap fun i => i.kind.bind fun k => if k.1 = .publ then some k.2 else none)
    (fun s => [⟨[], s, {}⟩]) ++
  indexed 11 (f.imports.filterMap fun i => i.kind.bind fun k => if k.1 = .weak then some k.2 else none)
    (fun s => [⟨[], s, {}⟩]) ++
  (fileExtends f).map (fun e => ⟨[7], e.span, e.comments⟩) ++ (optionRows f.options).map (Row.below [8])

/-- The source locations of the file `f` whose descriptor is `fd`: those of each construct, below the path of its
descriptor. -/
inductive RowOf (f : File) (fd : FileDescriptorProto) : Row → Prop where
  | file {r} : r ∈ fileRows f → RowOf f fd r
  | message {p s d r} : MsgAt f fd p s d → r ∈ messageRows s → RowOf f fd (r.below p)
  | field {p pl x d r} : FieldAt f fd p pl x d → r ∈ fieldRows pl x → RowOf f fd (r.below p)
  | enum {p e d r} : EnumAt f fd p e d → r ∈ enumRows e → RowOf f fd (r.below p)
  | service {p s d r} : ServiceAt f fd p s d → r ∈ serviceRows s → RowOf f fd (r.below p)

/-- How a source location is written in the descriptor. -/
def Row.location (src : Bytes) (r : Row) : Location :=
  { path := r.path, span := spanNumbers src r.span.start r.span.stop, leadingComments := r.comments.leading
    trailingComments := r.comments.trailing, leadingDetachedComments := r.comments.leadingDetached }

end Verif.Spec
