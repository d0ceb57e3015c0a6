import Verif.Spec.Comments
import Verif.Spec.Grammar
/-!
The grammar accepted by `protox_parse::parse` with places and comments: a relation between sequences of significant
tokens, each with its span and its comments (Spec/Comments.lean), and syntax trees in which every span and every comment
is determined by the tokens.  It is written without reference to the parser's methods.

The span of a node runs from the start of its first token to the end of its last token.  The detached and leading comments
of a node are those of its first token; its trailing comment is that of the semicolon that ends it, of its opening brace
(messages, groups, enums, oneofs, services, extend blocks), or of the closing brace (methods with options).
-/
namespace Verif.Places
open Verif.Ast Verif.Spec
open Verif.Grammar (kw balanced aggText scalars bodyKeywords GroupName ImportPath Parts)

/-- From the start of the first token to the end of the last one. -/
def extent (ts : List ATok) : Span :=
  match ts.head?, ts.getLast? with
  | some a, some z => ⟨a.span.start, z.span.stop⟩
  | _, _ => ⟨0, 0⟩

/-- The comments in front of the first token, and the trailing comment of `z`. -/
def comments (ts : List ATok) (z : ATok) : Comments :=
  match ts.head? with
  | some a => ⟨a.detached, a.leading, z.trailing⟩
  | none => {}

/-- `items` separated by a token; at least one. -/
inductive SepBy {α : Type} (sep : Token) (item : List ATok → α → Prop) : List ATok → List α → Prop where
  | one {t a} : item t a → SepBy sep item t [a]
  | cons {t a c ts as} : item t a → c.tok = sep → SepBy sep item ts as → SepBy sep item (t ++ c :: ts) (a :: as)

/-- A sequence of elements, each of which turns what has been collected so far into something new. -/
inductive Many {σ : Type} (elem : List ATok → σ → σ → Prop) : List ATok → σ → σ → Prop where
  | nil {s} : Many elem [] s s
  | cons {t ts s s' s''} : elem t s s' → Many elem ts s' s'' → Many elem (t ++ ts) s s''

/-- An identifier. -/
def IdentG (ts : List ATok) (i : Ident) : Prop := ∃ a, ts = [a] ∧ a.tok = .ident i.value ∧ i.span = a.span

/-- An integer with an optional minus sign. -/
inductive IntG : List ATok → Int' → Prop where
  | pos {a v} : a.tok = .int v → IntG [a] ⟨false, v, extent [a]⟩
  | neg {m a v} : m.tok = .minus → a.tok = .int v → IntG [m, a] ⟨true, v, extent [m, a]⟩

/-- One or more adjacent string literals. -/
def StrG (ts : List ATok) (s : Str) : Prop :=
  ∃ pieces : List Bytes, pieces ≠ [] ∧ ts.map (·.tok) = pieces.map .string ∧ s.value = pieces.flatten ∧ s.span = extent ts

/-- String literals that form valid UTF-8. -/
def Utf8G (ts : List ATok) (v : Bytes) (sp : Span) : Prop := StrG ts ⟨v, sp⟩ ∧ utf8Valid v = true

/-- Identifiers separated by dots. -/
def FullIdentG (ts : List ATok) (f : FullIdent) : Prop := SepBy .dot IdentG ts f.parts

/-- A type name with an optional leading dot. -/
inductive TypeNameG : List ATok → TypeName → Prop where
  | relative {ts f} : FullIdentG ts f → TypeNameG ts ⟨none, f⟩
  | absolute {d ts f} : d.tok = .dot → FullIdentG ts f → TypeNameG (d :: ts) ⟨some d.span, f⟩

/-- A part of an option name. -/
inductive NamePartG : List ATok → OptionNamePart → Prop where
  | ident {ts i} : IdentG ts i → NamePartG ts (.ident i)
  | ext {l ts r t} : l.tok = .leftParen → TypeNameG ts t → r.tok = .rightParen →
      NamePartG (l :: ts ++ [r]) (.extension t (extent (l :: ts ++ [r])))

/-- The value of an option. -/
inductive ValueG [FloatFmt] : List ATok → OptionValue → Prop where
  | ident {ts i} : IdentG ts i → ValueG ts (.ident false i (extent ts))
  | negIdent {m ts i} : m.tok = .minus → IdentG ts i → ValueG (m :: ts) (.ident true i (extent (m :: ts)))
  | int {ts i} : IntG ts i → ValueG ts (.int i)
  | float {a t} : a.tok = .float t → ValueG [a] (.float ⟨.lit false t, extent [a]⟩)
  | negFloat {m a t} : m.tok = .minus → a.tok = .float t → ValueG [m, a] (.float ⟨.lit true t, extent [m, a]⟩)
  | string {ts s} : StrG ts s → ValueG ts (.string s)
  | aggregate {l ts r} : l.tok = .leftBrace → balanced 0 (ts.map (·.tok)) = true → r.tok = .rightBrace →
      ValueG (l :: ts ++ [r]) (.aggregate (aggText (ts.map (·.tok))) (extent (l :: ts ++ [r])))

/-- `name = value`. -/
inductive OptionBodyG [FloatFmt] : List ATok → OptionBody → Prop where
  | mk {ns name e vs value} : SepBy .dot NamePartG ns name → e.tok = .equals → ValueG vs value →
      OptionBodyG (ns ++ e :: vs) ⟨name, value⟩

/-- `option name = value;` -/
inductive OptionG [FloatFmt] : List ATok → Opt → Prop where
  | mk {k ts z body} : k.tok = kw b!"option" → OptionBodyG ts body → z.tok = .semicolon →
      OptionG (k :: ts ++ [z]) ⟨body, comments (k :: ts) z, extent (k :: ts ++ [z])⟩

/-- `[name = value, ..]`, possibly absent. -/
inductive OptListG [FloatFmt] : List ATok → Option OptionList → Prop where
  | none : OptListG [] none
  | some {l ts r os} : l.tok = .leftBracket → SepBy .comma OptionBodyG ts os → r.tok = .rightBracket →
      OptListG (l :: ts ++ [r]) (some ⟨os, extent (l :: ts ++ [r])⟩)

/-- `a`, `a to b` or `a to max`. -/
inductive RangeG : List ATok → ReservedRange → Prop where
  | single {ts i} : IntG ts i → RangeG ts ⟨i, .none⟩
  | to {ts i k us j} : IntG ts i → k.tok = kw b!"to" → IntG us j → RangeG (ts ++ k :: us) ⟨i, .int j⟩
  | max {ts i k m} : IntG ts i → k.tok = kw b!"to" → m.tok = kw b!"max" → RangeG (ts ++ [k, m]) ⟨i, .max m.span⟩

/-- A string literal holding an identifier. -/
def IdentStrG (ts : List ATok) (i : Ident) : Prop :=
  Utf8G ts i.value i.span ∧ ∃ b r, i.value = b :: r ∧ isAlpha b = true ∧ ∀ c ∈ r, isAlnum c = true ∨ c = 95

/-- `reserved` ranges or names. -/
inductive ReservedG : List ATok → Reserved → Prop where
  | ranges {k ts z rs} : k.tok = kw b!"reserved" → SepBy .comma RangeG ts rs → z.tok = .semicolon →
      ReservedG (k :: ts ++ [z]) ⟨.ranges rs, comments (k :: ts) z, extent (k :: ts ++ [z])⟩
  | names {k ts z ns} : k.tok = kw b!"reserved" → SepBy .comma IdentStrG ts ns → z.tok = .semicolon →
      ReservedG (k :: ts ++ [z]) ⟨.names ns, comments (k :: ts) z, extent (k :: ts ++ [z])⟩

/-- `extensions` with optional options. As implemented, options may not follow a range that is a single number. -/
inductive ExtensionsG [FloatFmt] : List ATok → Extensions → Prop where
  | mk {k ts rs us os z} : k.tok = kw b!"extensions" → SepBy .comma RangeG ts rs → OptListG us os →
      (os.isSome = true → ∀ r, rs.getLast? = some r → r.stop ≠ .none) → z.tok = .semicolon →
      ExtensionsG (k :: ts ++ us ++ [z]) ⟨rs, os, comments (k :: ts) z, extent (k :: ts ++ us ++ [z])⟩

/-- The sequence does not start with one of these keywords. -/
def NoKw (names : List Bytes) (ts : List ATok) : Prop := ∀ n ∈ names, ts.head?.map (·.tok) ≠ some (kw n)

/-- A scalar type or a type name; a name starting with a scalar keyword is not a type name. -/
inductive TyG : List ATok → Ty → Span → Prop where
  | scalar {a n ty} : (n, ty) ∈ scalars → a.tok = kw n → TyG [a] ty (extent [a])
  | named {ts t} : TypeNameG ts t → NoKw (scalars.map (·.1)) ts → TyG ts (.named t) (extent ts)

/-- An optional label. -/
inductive LabelG : List ATok → Option (FieldLabel × Span) → Prop where
  | none : LabelG [] none
  | optional {a} : a.tok = kw b!"optional" → LabelG [a] (some (.optional, a.span))
  | required {a} : a.tok = kw b!"required" → LabelG [a] (some (.required, a.span))
  | repeated {a} : a.tok = kw b!"repeated" → LabelG [a] (some (.repeated, a.span))

/-- A field of a message, oneof or extend block; `body` is the grammar of group bodies. -/
inductive FieldG [FloatFmt] (body : List ATok → MessageBody → Prop) : List ATok → Field → Prop where
  | normal {ls label ts ty tsp is name e ns number us os z} :
      LabelG ls label → TyG ts ty tsp → IdentG is name → e.tok = .equals → IntG ns number → OptListG us os →
      z.tok = .semicolon →
      NoKw [b!"map", b!"group"] ts → (ls = [] → NoKw [b!"optional", b!"required", b!"repeated"] ts) →
      FieldG body (ls ++ ts ++ is ++ e :: ns ++ us ++ [z])
        ⟨label, name, .normal ty tsp, number, os, comments (ls ++ ts) z, extent (ls ++ ts ++ is ++ e :: ns ++ us ++ [z])⟩
  | map {ls label m l ks kty ksp c vs vty vsp r is name e ns number us os z} :
      LabelG ls label → m.tok = kw b!"map" → l.tok = .leftAngle → TyG ks kty ksp → c.tok = .comma → TyG vs vty vsp →
      r.tok = .rightAngle → IdentG is name → e.tok = .equals → IntG ns number → OptListG us os → z.tok = .semicolon →
      FieldG body (ls ++ m :: l :: ks ++ c :: vs ++ r :: is ++ e :: ns ++ us ++ [z])
        ⟨label, name, .map (extent (m :: l :: ks ++ c :: vs ++ [r])) kty ksp vty vsp, number, os, comments (ls ++ [m]) z,
          extent (ls ++ m :: l :: ks ++ c :: vs ++ r :: is ++ e :: ns ++ us ++ [z])⟩
  | group {ls label g is name e ns number us os o bs b z} :
      LabelG ls label → g.tok = kw b!"group" → IdentG is name → GroupName name.value → e.tok = .equals → IntG ns number →
      OptListG us os → o.tok = .leftBrace → body bs b → z.tok = .rightBrace →
      FieldG body (ls ++ g :: is ++ e :: ns ++ us ++ o :: bs ++ [z])
        ⟨label, name, .group g.span b, number, os, comments (ls ++ [g]) o,
          extent (ls ++ g :: is ++ e :: ns ++ us ++ o :: bs ++ [z])⟩

/-- An enum value. -/
inductive EnumValueG [FloatFmt] : List ATok → EnumValue → Prop where
  | mk {is name e ns number us os z} : IdentG is name → e.tok = .equals → IntG ns number → OptListG us os →
      z.tok = .semicolon →
      EnumValueG (is ++ e :: ns ++ us ++ [z])
        ⟨name, number, os, comments is z, extent (is ++ e :: ns ++ us ++ [z])⟩

/-- An element of an enum body. -/
inductive EnumElem [FloatFmt] : List ATok → List Opt × List EnumValue × List Reserved →
    List Opt × List EnumValue × List Reserved → Prop where
  | option {ts o os vs rs} : OptionG ts o → EnumElem ts (os, vs, rs) (os ++ [o], vs, rs)
  | reserved {ts r os vs rs} : ReservedG ts r → EnumElem ts (os, vs, rs) (os, vs, rs ++ [r])
  | value {ts v os vs rs} : EnumValueG ts v → NoKw [b!"option", b!"reserved"] ts →
      EnumElem ts (os, vs, rs) (os, vs ++ [v], rs)
  | empty {a acc} : a.tok = .semicolon → EnumElem [a] acc acc

/-- An enum. -/
inductive EnumG [FloatFmt] : List ATok → Enum → Prop where
  | mk {k is name o ts os vs rs z} : k.tok = kw b!"enum" → IdentG is name → o.tok = .leftBrace →
      Many EnumElem ts ([], [], []) (os, vs, rs) → z.tok = .rightBrace →
      EnumG (k :: is ++ o :: ts ++ [z])
        ⟨name, os, vs, rs, comments (k :: is) o, extent (k :: is ++ o :: ts ++ [z])⟩

/-- An element of a oneof body. -/
inductive OneofElem [FloatFmt] (body : List ATok → MessageBody → Prop) :
    List ATok → List Opt × List Field → List Opt × List Field → Prop where
  | option {ts o os fs} : OptionG ts o → OneofElem body ts (os, fs) (os ++ [o], fs)
  | field {ts f os fs} : FieldG body ts f → NoKw [b!"option"] ts → OneofElem body ts (os, fs) (os, fs ++ [f])
  | empty {a acc} : a.tok = .semicolon → OneofElem body [a] acc acc

/-- A oneof. -/
inductive OneofG [FloatFmt] (body : List ATok → MessageBody → Prop) : List ATok → Oneof → Prop where
  | mk {k is name o ts os fs z} : k.tok = kw b!"oneof" → IdentG is name → o.tok = .leftBrace →
      Many (OneofElem body) ts ([], []) (os, fs) → z.tok = .rightBrace →
      OneofG body (k :: is ++ o :: ts ++ [z])
        ⟨name, os, fs, comments (k :: is) o, extent (k :: is ++ o :: ts ++ [z])⟩

/-- An element of an extend block. -/
inductive ExtendElem [FloatFmt] (body : List ATok → MessageBody → Prop) :
    List ATok → List Field → List Field → Prop where
  | field {ts f fs} : FieldG body ts f → ExtendElem body ts fs (fs ++ [f])
  | empty {a fs} : a.tok = .semicolon → ExtendElem body [a] fs fs

/-- An extend block. -/
inductive ExtendG [FloatFmt] (body : List ATok → MessageBody → Prop) : List ATok → Extend → Prop where
  | mk {k ns t o ts fs z} : k.tok = kw b!"extend" → TypeNameG ns t → o.tok = .leftBrace →
      Many (ExtendElem body) ts [] fs → z.tok = .rightBrace →
      ExtendG body (k :: ns ++ o :: ts ++ [z]) ⟨t, fs, comments (k :: ns) o, extent (k :: ns ++ o :: ts ++ [z])⟩

/-- A message. -/
inductive MessageG (body : List ATok → MessageBody → Prop) : List ATok → Message → Prop where
  | mk {k is name o ts b z} : k.tok = kw b!"message" → IdentG is name → o.tok = .leftBrace → body ts b →
      z.tok = .rightBrace →
      MessageG body (k :: is ++ o :: ts ++ [z]) ⟨name, b, comments (k :: is) o, extent (k :: is ++ o :: ts ++ [z])⟩

/-- An element of a message body; `body` is the grammar of nested bodies. -/
inductive BodyElem [FloatFmt] (body : List ATok → MessageBody → Prop) :
    List ATok → MessageBody → MessageBody → Prop where
  | field {ts f b} : FieldG body ts f → NoKw bodyKeywords ts →
      BodyElem body ts b { b with items := b.items ++ [.field f] }
  | oneof {ts o b} : OneofG body ts o → BodyElem body ts b { b with items := b.items ++ [.oneof o] }
  | enum {ts e b} : EnumG ts e → BodyElem body ts b { b with items := b.items ++ [.enum e] }
  | message {ts x b} : MessageG body ts x → BodyElem body ts b { b with items := b.items ++ [.message x] }
  | extend {ts e b} : ExtendG body ts e → BodyElem body ts b { b with items := b.items ++ [.extend e] }
  | option {ts o b} : OptionG ts o → BodyElem body ts b { b with options := b.options ++ [o] }
  | reserved {ts r b} : ReservedG ts r → BodyElem body ts b { b with reserved := b.reserved ++ [r] }
  | extensions {ts e b} : ExtensionsG ts e → BodyElem body ts b { b with extensions := b.extensions ++ [e] }
  | empty {a b} : a.tok = .semicolon → BodyElem body [a] b b

/-- The body of a message or group with fewer than `d` levels of nesting. -/
def BodyG [FloatFmt] : Nat → List ATok → MessageBody → Prop
  | 0 => fun _ _ => False
  | d + 1 => fun ts b => Many (BodyElem (BodyG d)) ts ⟨[], [], [], []⟩ b

/-- The body of a message or group. -/
def AnyBodyG [FloatFmt] (ts : List ATok) (b : MessageBody) : Prop := ∃ d, BodyG d ts b

/-- An optional `stream` keyword; a type name after an absent one does not start with `stream`. -/
inductive StreamG : List ATok → TypeName → Option Span → Prop where
  | no {ts t} : TypeNameG ts t → NoKw [b!"stream"] ts → StreamG ts t none
  | yes {k ts t} : k.tok = kw b!"stream" → TypeNameG ts t → StreamG (k :: ts) t (some k.span)

/-- An element of a method body. -/
inductive MethodElem [FloatFmt] : List ATok → List Opt → List Opt → Prop where
  | option {ts o os} : OptionG ts o → MethodElem ts os (os ++ [o])
  | empty {a os} : a.tok = .semicolon → MethodElem [a] os os

/-- The end of a method: a semicolon or options in braces; `z` is its last token. -/
inductive MethodEndG [FloatFmt] : List ATok → List Opt → ATok → Prop where
  | semi {z} : z.tok = .semicolon → MethodEndG [z] [] z
  | body {o ts os z} : o.tok = .leftBrace → Many MethodElem ts [] os → z.tok = .rightBrace →
      MethodEndG (o :: ts ++ [z]) os z

/-- A method. -/
inductive MethodG [FloatFmt] : List ATok → Method → Prop where
  | mk {k is name l ins i cs r k' l' outs o ss r' es os z} :
      k.tok = kw b!"rpc" → IdentG is name → l.tok = .leftParen → StreamG ins i cs → r.tok = .rightParen →
      k'.tok = kw b!"returns" → l'.tok = .leftParen → StreamG outs o ss → r'.tok = .rightParen → MethodEndG es os z →
      MethodG (k :: is ++ l :: ins ++ [r, k', l'] ++ outs ++ r' :: es)
        ⟨name, i, o, os, cs, ss, comments (k :: is) z, extent (k :: is ++ l :: ins ++ [r, k', l'] ++ outs ++ r' :: es)⟩

/-- An element of a service body. -/
inductive ServiceElem [FloatFmt] : List ATok → List Opt × List Method → List Opt × List Method → Prop where
  | option {ts o os ms} : OptionG ts o → ServiceElem ts (os, ms) (os ++ [o], ms)
  | method {ts x os ms} : MethodG ts x → ServiceElem ts (os, ms) (os, ms ++ [x])
  | empty {a acc} : a.tok = .semicolon → ServiceElem [a] acc acc

/-- A service. -/
inductive ServiceG [FloatFmt] : List ATok → Service → Prop where
  | mk {k is name o ts os ms z} : k.tok = kw b!"service" → IdentG is name → o.tok = .leftBrace →
      Many ServiceElem ts ([], []) (os, ms) → z.tok = .rightBrace →
      ServiceG (k :: is ++ o :: ts ++ [z])
        ⟨name, os, ms, comments (k :: is) o, extent (k :: is ++ o :: ts ++ [z])⟩

/-- `package name;` -/
inductive PackageG : List ATok → Package → Prop where
  | mk {k ts f z} : k.tok = kw b!"package" → FullIdentG ts f → z.tok = .semicolon →
      PackageG (k :: ts ++ [z]) ⟨f, comments (k :: ts) z, extent (k :: ts ++ [z])⟩

/-- The optional `weak` or `public` of an import. -/
inductive ImportKindG : List ATok → Option (ImportKind × Span) → Prop where
  | none : ImportKindG [] none
  | weak {a} : a.tok = kw b!"weak" → ImportKindG [a] (some (.weak, a.span))
  | publ {a} : a.tok = kw b!"public" → ImportKindG [a] (some (.publ, a.span))

/-- `import "path";` -/
inductive ImportG : List ATok → Import → Prop where
  | mk {k ks kind ts v vsp z} : k.tok = kw b!"import" → ImportKindG ks kind → Utf8G ts v vsp → ImportPath v →
      z.tok = .semicolon →
      ImportG (k :: ks ++ ts ++ [z]) ⟨kind, v, vsp, comments (k :: ks) z, extent (k :: ks ++ ts ++ [z])⟩

/-- `syntax = "proto2";` or `syntax = "proto3";` with its place and comments. -/
inductive SyntaxG : List ATok → Syntax' → Span × Comments → Prop where
  | proto2 {k e ts z sp} : k.tok = kw b!"syntax" → e.tok = .equals → StrG ts ⟨b!"proto2", sp⟩ → z.tok = .semicolon →
      SyntaxG (k :: e :: ts ++ [z]) .proto2 (extent (k :: e :: ts ++ [z]), comments [k] z)
  | proto3 {k e ts z sp} : k.tok = kw b!"syntax" → e.tok = .equals → StrG ts ⟨b!"proto3", sp⟩ → z.tok = .semicolon →
      SyntaxG (k :: e :: ts ++ [z]) .proto3 (extent (k :: e :: ts ++ [z]), comments [k] z)

/-- A statement at file level; at most one `package`. -/
inductive StatementG [FloatFmt] : List ATok → Parts → Parts → Prop where
  | package {ts x p} : PackageG ts x → p.package = none → StatementG ts p { p with package := some x }
  | import' {ts x p} : ImportG ts x → StatementG ts p { p with imports := p.imports ++ [x] }
  | option {ts x p} : OptionG ts x → StatementG ts p { p with options := p.options ++ [x] }
  | message {ts x p} : MessageG AnyBodyG ts x → StatementG ts p { p with items := p.items ++ [.message x] }
  | enum {ts x p} : EnumG ts x → StatementG ts p { p with items := p.items ++ [.enum x] }
  | extend {ts x p} : ExtendG AnyBodyG ts x → StatementG ts p { p with items := p.items ++ [.extend x] }
  | service {ts x p} : ServiceG ts x → StatementG ts p { p with items := p.items ++ [.service x] }
  | empty {a p} : a.tok = .semicolon → StatementG [a] p p

/-- The span of a file of `len` bytes: that of its tokens; as implemented, a file without tokens has an inverted span. -/
def fileSpan (len : Nat) (ts : List ATok) : Span := if ts = [] then ⟨len, 0⟩ else extent ts

/-- A file of `len` bytes: an optional `syntax` statement followed by statements. -/
inductive FileG [FloatFmt] (len : Nat) : List ATok → File → Prop where
  | noSyntax {ts p} : Many StatementG ts {} p → NoKw [b!"syntax"] ts →
      FileG len ts ⟨fileSpan len ts, .proto2, none, p.package, p.imports, p.options, p.items⟩
  | withSyntax {ss s ssp ts p} : SyntaxG ss s ssp → Many StatementG ts {} p →
      FileG len (ss ++ ts) ⟨fileSpan len (ss ++ ts), s, some ssp, p.package, p.imports, p.options, p.items⟩

end Verif.Places

namespace Verif.Spec

/-- `f` is the syntax tree of the source: everything in the source is a token, the tokens are generated by the grammar,
and the spans and comments of the tree are those of the tokens. -/
def PlacedTree [FloatFmt] (src : Bytes) (f : Ast.File) : Prop :=
  (∀ x ∈ rawToks 0 src, x.1 ≠ none) ∧ Places.FileG src.length (annotated src) f

/-- The source has exactly one syntax tree with places and comments, and `P` holds of it. -/
def ForPlaced [FloatFmt] (src : Bytes) (P : Ast.File → Prop) : Prop :=
  ∃ f, PlacedTree src f ∧ (∀ g, PlacedTree src g → g = f) ∧ P f

end Verif.Spec
