import Verif.Proofs.Project
import Verif.Proofs.Gen5
/-!
Moving the source positions kept in a syntax tree; comments stay.
-/
namespace Verif.Ast

/-- Moves source positions. -/
class Move (α : Type) where
  mv : (Nat → Nat) → α → α
export Move (mv)

instance : Move UInt8 := ⟨fun _ => id⟩
instance : Move Nat := ⟨fun _ => id⟩
instance : Move Bool := ⟨fun _ => id⟩
instance : Move Span := ⟨fun g s => ⟨g s.start, g s.stop⟩⟩
instance : Move Comments := ⟨fun _ => id⟩
instance : Move Label := ⟨fun _ => id⟩
instance : Move ImportKind := ⟨fun _ => id⟩
instance : Move Syntax' := ⟨fun _ => id⟩
instance {α : Type} [Move α] : Move (List α) := ⟨fun g => List.map (mv g)⟩
instance {α : Type} [Move α] : Move (Option α) := ⟨fun g => Option.map (mv g)⟩
instance {α β : Type} [Move α] [Move β] : Move (α × β) := ⟨fun g x => (mv g x.1, mv g x.2)⟩
instance : Move Ident := ⟨fun g i => { i with span := mv g i.span }⟩
instance : Move FullIdent := ⟨fun g f => ⟨mv g f.parts⟩⟩
instance : Move TypeName := ⟨fun g t => ⟨mv g t.leadingDot, mv g t.name⟩⟩
instance : Move Int' := ⟨fun g i => { i with span := mv g i.span }⟩
instance : Move Float' := ⟨fun g i => { i with span := mv g i.span }⟩
instance : Move Str := ⟨fun g i => { i with span := mv g i.span }⟩
instance : Move OptionValue := ⟨fun g v => match v with
  | .ident n i s => .ident n (mv g i) (mv g s)
  | .int i => .int (mv g i)
  | .float f => .float (mv g f)
  | .string s => .string (mv g s)
  | .aggregate t s => .aggregate t (mv g s)⟩
instance : Move Import := ⟨fun g i => ⟨mv g i.kind, i.value, mv g i.valueSpan, mv g i.comments, mv g i.span⟩⟩
instance : Move Package := ⟨fun g p => ⟨mv g p.name, mv g p.comments, mv g p.span⟩⟩
instance : Move OptionNamePart := ⟨fun g p => match p with
  | .ident i => .ident (mv g i)
  | .extension t s => .extension (mv g t) (mv g s)⟩
instance : Move OptionBody := ⟨fun g b => ⟨mv g b.name, mv g b.value⟩⟩
instance : Move Opt := ⟨fun g o => ⟨mv g o.body, mv g o.comments, mv g o.span⟩⟩
instance : Move OptionList := ⟨fun g o => ⟨mv g o.options, mv g o.span⟩⟩
instance : Move Ty := ⟨fun g t => match t with
  | .named n => .named (mv g n)
  | t => t⟩
instance : Move ReservedRangeEnd := ⟨fun g e => match e with
  | .none => .none
  | .int i => .int (mv g i)
  | .max s => .max (mv g s)⟩
instance : Move ReservedRange := ⟨fun g r => ⟨mv g r.start, mv g r.stop⟩⟩
instance : Move ReservedKind := ⟨fun g k => match k with
  | .ranges rs => .ranges (mv g rs)
  | .names ns => .names (mv g ns)⟩
instance : Move Reserved := ⟨fun g r => ⟨mv g r.kind, mv g r.comments, mv g r.span⟩⟩
instance : Move Extensions := ⟨fun g e => ⟨mv g e.ranges, mv g e.options, mv g e.comments, mv g e.span⟩⟩
instance : Move EnumValue := ⟨fun g e => ⟨mv g e.name, mv g e.number, mv g e.options, mv g e.comments, mv g e.span⟩⟩
instance : Move Enum := ⟨fun g e => ⟨mv g e.name, mv g e.options, mv g e.values, mv g e.reserved, mv g e.comments, mv g e.span⟩⟩
instance : Move Method := ⟨fun g x => ⟨mv g x.name, mv g x.inputTy, mv g x.outputTy, mv g x.options, mv g x.clientStreaming,
  mv g x.serverStreaming, mv g x.comments, mv g x.span⟩⟩
instance : Move Service := ⟨fun g s => ⟨mv g s.name, mv g s.options, mv g s.methods, mv g s.comments, mv g s.span⟩⟩

mutual
def mvBody (g : Nat → Nat) : MessageBody → MessageBody
  | ⟨items, exts, opts, res⟩ => ⟨mvItems g items, mv g exts, mv g opts, mv g res⟩
def mvItems (g : Nat → Nat) : List MessageItem → List MessageItem
  | [] => []
  | x :: xs => mvItem g x :: mvItems g xs
def mvItem (g : Nat → Nat) : MessageItem → MessageItem
  | .field f => .field (mvField g f)
  | .enum e => .enum (mv g e)
  | .message x => .message (mvMessage g x)
  | .extend e => .extend (mvExtend g e)
  | .oneof o => .oneof (mvOneof g o)
def mvMessage (g : Nat → Nat) : Message → Message
  | ⟨name, body, c, s⟩ => ⟨mv g name, mvBody g body, mv g c, mv g s⟩
def mvExtend (g : Nat → Nat) : Extend → Extend
  | ⟨t, fields, c, s⟩ => ⟨mv g t, mvFields g fields, mv g c, mv g s⟩
def mvOneof (g : Nat → Nat) : Oneof → Oneof
  | ⟨name, opts, fields, c, s⟩ => ⟨mv g name, mv g opts, mvFields g fields, mv g c, mv g s⟩
def mvFields (g : Nat → Nat) : List Field → List Field
  | [] => []
  | f :: fs => mvField g f :: mvFields g fs
def mvField (g : Nat → Nat) : Field → Field
  | ⟨label, name, kind, number, opts, c, s⟩ => ⟨mv g label, mv g name, mvKind g kind, mv g number, mv g opts, mv g c, mv g s⟩
def mvKind (g : Nat → Nat) : FieldKind → FieldKind
  | .normal t s => .normal (mv g t) (mv g s)
  | .group s b => .group (mv g s) (mvBody g b)
  | .map s k ks v vs => .map (mv g s) (mv g k) (mv g ks) (mv g v) (mv g vs)
end

instance : Move MessageBody := ⟨mvBody⟩
instance : Move MessageItem := ⟨mvItem⟩
instance : Move Message := ⟨mvMessage⟩
instance : Move Extend := ⟨mvExtend⟩
instance : Move Oneof := ⟨mvOneof⟩
instance : Move Field := ⟨mvField⟩
instance : Move FieldKind := ⟨mvKind⟩
instance : Move FileItem := ⟨fun g i => match i with
  | .enum e => .enum (mv g e)
  | .message x => .message (mv g x)
  | .extend e => .extend (mv g e)
  | .service s => .service (mv g s)⟩
instance : Move File := ⟨fun g f => ⟨mv g f.span, mv g f.syntax', mv g f.syntaxSpan, mv g f.package, mv g f.imports, mv g f.options,
  mv g f.items⟩⟩

end Verif.Ast
