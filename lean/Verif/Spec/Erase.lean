import Verif.Model.Ast
/-!
Forgetting the source positions and comments kept in a syntax tree: two trees are the same tree if they are equal after
`er`.
-/
namespace Verif.Ast

/-- Forgets source positions and comments. -/
class Erase (α : Type) where
  er : α → α
export Erase (er)

instance : Erase UInt8 := ⟨id⟩
instance : Erase Nat := ⟨id⟩
instance : Erase Bool := ⟨id⟩
instance : Erase Span := ⟨fun _ => ⟨0, 0⟩⟩
instance : Erase Comments := ⟨fun _ => {}⟩
instance : Erase Label := ⟨id⟩
instance : Erase ImportKind := ⟨id⟩
instance : Erase Syntax' := ⟨id⟩
instance {α : Type} [Erase α] : Erase (List α) := ⟨List.map er⟩
instance {α : Type} [Erase α] : Erase (Option α) := ⟨Option.map er⟩
instance {α β : Type} [Erase α] [Erase β] : Erase (α × β) := ⟨fun x => (er x.1, er x.2)⟩
instance : Erase Ident := ⟨fun i => { i with span := er i.span }⟩
instance : Erase FullIdent := ⟨fun f => ⟨er f.parts⟩⟩
instance : Erase TypeName := ⟨fun t => ⟨er t.leadingDot, er t.name⟩⟩
instance : Erase Int' := ⟨fun i => { i with span := er i.span }⟩
instance : Erase Float' := ⟨fun i => { i with span := er i.span }⟩
instance : Erase Str := ⟨fun i => { i with span := er i.span }⟩
instance : Erase OptionValue := ⟨fun v => match v with
  | .ident n i s => .ident n (er i) (er s)
  | .int i => .int (er i)
  | .float f => .float (er f)
  | .string s => .string (er s)
  | .aggregate t s => .aggregate t (er s)⟩
instance : Erase Import := ⟨fun i => ⟨er i.kind, i.value, er i.valueSpan, er i.comments, er i.span⟩⟩
instance : Erase Package := ⟨fun p => ⟨er p.name, er p.comments, er p.span⟩⟩
instance : Erase OptionNamePart := ⟨fun p => match p with
  | .ident i => .ident (er i)
  | .extension t s => .extension (er t) (er s)⟩
instance : Erase OptionBody := ⟨fun b => ⟨er b.name, er b.value⟩⟩
instance : Erase Opt := ⟨fun o => ⟨er o.body, er o.comments, er o.span⟩⟩
instance : Erase OptionList := ⟨fun o => ⟨er o.options, er o.span⟩⟩
instance : Erase Ty := ⟨fun t => match t with
  | .named n => .named (er n)
  | t => t⟩
instance : Erase ReservedRangeEnd := ⟨fun e => match e with
  | .none => .none
  | .int i => .int (er i)
  | .max s => .max (er s)⟩
instance : Erase ReservedRange := ⟨fun r => ⟨er r.start, er r.stop⟩⟩
instance : Erase ReservedKind := ⟨fun k => match k with
  | .ranges rs => .ranges (er rs)
  | .names ns => .names (er ns)⟩
instance : Erase Reserved := ⟨fun r => ⟨er r.kind, er r.comments, er r.span⟩⟩
instance : Erase Extensions := ⟨fun e => ⟨er e.ranges, er e.options, er e.comments, er e.span⟩⟩
instance : Erase EnumValue := ⟨fun e => ⟨er e.name, er e.number, er e.options, er e.comments, er e.span⟩⟩
instance : Erase Enum := ⟨fun e => ⟨er e.name, er e.options, er e.values, er e.reserved, er e.comments, er e.span⟩⟩
instance : Erase Method := ⟨fun x => ⟨er x.name, er x.inputTy, er x.outputTy, er x.options, er x.clientStreaming,
  er x.serverStreaming, er x.comments, er x.span⟩⟩
instance : Erase Service := ⟨fun s => ⟨er s.name, er s.options, er s.methods, er s.comments, er s.span⟩⟩

mutual
def erBody : MessageBody → MessageBody
  | ⟨items, exts, opts, res⟩ => ⟨erItems items, er exts, er opts, er res⟩
def erItems : List MessageItem → List MessageItem
  | [] => []
  | x :: xs => erItem x :: erItems xs
def erItem : MessageItem → MessageItem
  | .field f => .field (erField f)
  | .enum e => .enum (er e)
  | .message x => .message (erMessage x)
  | .extend e => .extend (erExtend e)
  | .oneof o => .oneof (erOneof o)
def erMessage : Message → Message
  | ⟨name, body, c, s⟩ => ⟨er name, erBody body, er c, er s⟩
def erExtend : Extend → Extend
  | ⟨t, fields, c, s⟩ => ⟨er t, erFields fields, er c, er s⟩
def erOneof : Oneof → Oneof
  | ⟨name, opts, fields, c, s⟩ => ⟨er name, er opts, erFields fields, er c, er s⟩
def erFields : List Field → List Field
  | [] => []
  | f :: fs => erField f :: erFields fs
def erField : Field → Field
  | ⟨label, name, kind, number, opts, c, s⟩ => ⟨er label, er name, erKind kind, er number, er opts, er c, er s⟩
def erKind : FieldKind → FieldKind
  | .normal t s => .normal (er t) (er s)
  | .group s b => .group (er s) (erBody b)
  | .map s k ks v vs => .map (er s) (er k) (er ks) (er v) (er vs)
end

instance : Erase MessageBody := ⟨erBody⟩
instance : Erase MessageItem := ⟨erItem⟩
instance : Erase Message := ⟨erMessage⟩
instance : Erase Extend := ⟨erExtend⟩
instance : Erase Oneof := ⟨erOneof⟩
instance : Erase Field := ⟨erField⟩
instance : Erase FieldKind := ⟨erKind⟩
instance : Erase FileItem := ⟨fun i => match i with
  | .enum e => .enum (er e)
  | .message x => .message (er x)
  | .extend e => .extend (er e)
  | .service s => .service (er s)⟩
instance : Erase File := ⟨fun f => ⟨er f.span, er f.syntax', er f.syntaxSpan, er f.package, er f.imports, er f.options,
  er f.items⟩⟩

end Verif.Ast
