import Verif.Model.Parser
/-!
The grammar accepted by `protox_parse::parse`, as a relation between sequences of significant tokens and syntax
trees.  It is written without reference to the parser's methods.  Source positions and comments stored in a
tree are left unconstrained.
-/
namespace Verif.Grammar
open Verif.Ast

/-- `items` separated by a token; at least one. -/
inductive SepBy {α : Type} (sep : Token) (item : List Token → α → Prop) : List Token → List α → Prop where
  | one {t a} : item t a → SepBy sep item t [a]
  | cons {t a ts as} : item t a → SepBy sep item ts as → SepBy sep item (t ++ sep :: ts) (a :: as)

/-- A sequence of elements, each of which turns what has been collected so far into something new. -/
inductive Many {σ : Type} (elem : List Token → σ → σ → Prop) : List Token → σ → σ → Prop where
  | nil {s} : Many elem [] s s
  | cons {t ts s s' s''} : elem t s s' → Many elem ts s' s'' → Many elem (t ++ ts) s s''

/-- The keyword `s`. -/
abbrev kw (s : Bytes) : Token := .ident s

/-- An identifier. -/
def IdentG (ts : List Token) (i : Ident) : Prop := ts = [.ident i.value]

/-- An integer with an optional minus sign. -/
inductive IntG : List Token → Int' → Prop where
  | pos {v sp} : IntG [.int v] ⟨false, v, sp⟩
  | neg {v sp} : IntG [.minus, .int v] ⟨true, v, sp⟩

/-- One or more adjacent string literals. -/
def StrG (ts : List Token) (s : Str) : Prop :=
  ∃ pieces : List Bytes, pieces ≠ [] ∧ ts = pieces.map .string ∧ s.value = pieces.flatten

/-- String literals that form valid UTF-8. -/
def Utf8G (ts : List Token) (v : Bytes) : Prop := (∃ sp, StrG ts ⟨v, sp⟩) ∧ utf8Valid v = true

/-- Identifiers separated by dots. -/
def FullIdentG (ts : List Token) (f : FullIdent) : Prop := SepBy .dot IdentG ts f.parts

/-- A type name with an optional leading dot. -/
inductive TypeNameG : List Token → TypeName → Prop where
  | relative {ts f} : FullIdentG ts f → TypeNameG ts ⟨none, f⟩
  | absolute {ts f sp} : FullIdentG ts f → TypeNameG (.dot :: ts) ⟨some sp, f⟩

/-- A part of an option name. -/
inductive NamePartG : List Token → OptionNamePart → Prop where
  | ident {ts i} : IdentG ts i → NamePartG ts (.ident i)
  | ext {ts t sp} : TypeNameG ts t → NamePartG (.leftParen :: ts ++ [.rightParen]) (.extension t sp)

/-- Braces in a token sequence are balanced, starting inside `n` open braces. -/
def balanced : Nat → List Token → Bool
  | n, [] => n = 0
  | n, .leftBrace :: ts => balanced (n + 1) ts
  | 0, .rightBrace :: _ => false
  | n + 1, .rightBrace :: ts => balanced n ts
  | n, _ :: ts => balanced n ts

/-- The text kept for an aggregate value: the tokens separated by single spaces. -/
def aggText [FloatFmt] (ts : List Token) : Bytes :=
  ts.foldl (fun text t => (if text = [] then text else text ++ [32]) ++ t.display) []

/-- The value of an option. -/
inductive ValueG [FloatFmt] : List Token → OptionValue → Prop where
  | ident {ts i sp} : IdentG ts i → ValueG ts (.ident false i sp)
  | negIdent {ts i sp} : IdentG ts i → ValueG (.minus :: ts) (.ident true i sp)
  | int {ts i} : IntG ts i → ValueG ts (.int i)
  | float {t sp} : ValueG [.float t] (.float ⟨.lit false t, sp⟩)
  | negFloat {t sp} : ValueG [.minus, .float t] (.float ⟨.lit true t, sp⟩)
  | string {ts s} : StrG ts s → ValueG ts (.string s)
  | aggregate {ts sp} : balanced 0 ts = true →
      ValueG (.leftBrace :: ts ++ [.rightBrace]) (.aggregate (aggText ts) sp)

/-- `name = value`. -/
inductive OptionBodyG [FloatFmt] : List Token → OptionBody → Prop where
  | mk {ns name vs value} : SepBy .dot NamePartG ns name → ValueG vs value →
      OptionBodyG (ns ++ .equals :: vs) ⟨name, value⟩

/-- `option name = value;` -/
inductive OptionG [FloatFmt] : List Token → Opt → Prop where
  | mk {ts body c sp} : OptionBodyG ts body → OptionG (kw b!"option" :: ts ++ [.semicolon]) ⟨body, c, sp⟩

/-- `[name = value, ..]`, possibly absent. -/
inductive OptListG [FloatFmt] : List Token → Option OptionList → Prop where
  | none : OptListG [] none
  | some {ts os sp} : SepBy .comma OptionBodyG ts os →
      OptListG (.leftBracket :: ts ++ [.rightBracket]) (some ⟨os, sp⟩)

/-- `a`, `a to b` or `a to max`. -/
inductive RangeG : List Token → ReservedRange → Prop where
  | single {ts i} : IntG ts i → RangeG ts ⟨i, .none⟩
  | to {ts i us j} : IntG ts i → IntG us j → RangeG (ts ++ kw b!"to" :: us) ⟨i, .int j⟩
  | max {ts i sp} : IntG ts i → RangeG (ts ++ [kw b!"to", kw b!"max"]) ⟨i, .max sp⟩

/-- A string literal holding an identifier. -/
def IdentStrG (ts : List Token) (i : Ident) : Prop :=
  Utf8G ts i.value ∧ ∃ b r, i.value = b :: r ∧ isAlpha b = true ∧ ∀ c ∈ r, isAlnum c = true ∨ c = 95

/-- `reserved` ranges or names. -/
inductive ReservedG : List Token → Reserved → Prop where
  | ranges {ts rs c sp} : SepBy .comma RangeG ts rs →
      ReservedG (kw b!"reserved" :: ts ++ [.semicolon]) ⟨.ranges rs, c, sp⟩
  | names {ts ns c sp} : SepBy .comma IdentStrG ts ns →
      ReservedG (kw b!"reserved" :: ts ++ [.semicolon]) ⟨.names ns, c, sp⟩

/-- `extensions` with optional options. As implemented, options may not follow a range that is a single number. -/
inductive ExtensionsG [FloatFmt] : List Token → Extensions → Prop where
  | mk {ts rs us os c sp} : SepBy .comma RangeG ts rs → OptListG us os →
      (os.isSome = true → ∀ r, rs.getLast? = some r → r.stop ≠ .none) →
      ExtensionsG (kw b!"extensions" :: ts ++ us ++ [.semicolon]) ⟨rs, os, c, sp⟩

/-- The keywords of the scalar types. -/
def scalars : List (Bytes × Ty) :=
  [(b!"double", .double), (b!"float", .float), (b!"int32", .int32), (b!"int64", .int64), (b!"uint32", .uint32),
   (b!"uint64", .uint64), (b!"sint32", .sint32), (b!"sint64", .sint64), (b!"fixed32", .fixed32),
   (b!"fixed64", .fixed64), (b!"sfixed32", .sfixed32), (b!"sfixed64", .sfixed64), (b!"bool", .bool),
   (b!"string", .string), (b!"bytes", .bytes)]

/-- The sequence does not start with one of these keywords. -/
def NoKw (names : List Bytes) (ts : List Token) : Prop := ∀ n ∈ names, ts.head? ≠ some (kw n)

/-- A scalar type or a type name; a name starting with a scalar keyword is not a type name. -/
inductive TyG : List Token → Ty → Prop where
  | scalar {n ty} : (n, ty) ∈ scalars → TyG [kw n] ty
  | named {ts t} : TypeNameG ts t → NoKw (scalars.map (·.1)) ts → TyG ts (.named t)

/-- An optional label. -/
inductive LabelG : List Token → Option (FieldLabel × Span) → Prop where
  | none : LabelG [] none
  | optional {sp} : LabelG [kw b!"optional"] (some (.optional, sp))
  | required {sp} : LabelG [kw b!"required"] (some (.required, sp))
  | repeated {sp} : LabelG [kw b!"repeated"] (some (.repeated, sp))

/-- An ASCII upper-case letter followed by letters, digits and underscores. -/
def GroupName (s : Bytes) : Prop :=
  ∃ b r, s = b :: r ∧ isUpper b = true ∧ ∀ c ∈ r, isAlnum c = true ∨ c = 95

/-- A field of a message, oneof or extend block; `body` is the grammar of group bodies. -/
inductive FieldG [FloatFmt] (body : List Token → MessageBody → Prop) : List Token → Field → Prop where
  | normal {ls label ts ty tsp is name ns number us os c sp} :
      LabelG ls label → TyG ts ty → IdentG is name → IntG ns number → OptListG us os →
      NoKw [b!"map", b!"group"] ts → (ls = [] → NoKw [b!"optional", b!"required", b!"repeated"] ts) →
      FieldG body (ls ++ ts ++ is ++ .equals :: ns ++ us ++ [.semicolon])
        ⟨label, name, .normal ty tsp, number, os, c, sp⟩
  | map {ls label ks kty vs vty is name ns number us os c sp sp1 sp2 sp3} :
      LabelG ls label → TyG ks kty → TyG vs vty → IdentG is name → IntG ns number → OptListG us os →
      FieldG body (ls ++ kw b!"map" :: .leftAngle :: ks ++ .comma :: vs ++ .rightAngle :: is ++ .equals :: ns ++
          us ++ [.semicolon])
        ⟨label, name, .map sp1 kty sp2 vty sp3, number, os, c, sp⟩
  | group {ls label is name ns number us os bs b c sp sp1} :
      LabelG ls label → IdentG is name → GroupName name.value → IntG ns number → OptListG us os → body bs b →
      FieldG body (ls ++ kw b!"group" :: is ++ .equals :: ns ++ us ++ .leftBrace :: bs ++ [.rightBrace])
        ⟨label, name, .group sp1 b, number, os, c, sp⟩

/-- An enum value. -/
inductive EnumValueG [FloatFmt] : List Token → EnumValue → Prop where
  | mk {is name ns number us os c sp} : IdentG is name → IntG ns number → OptListG us os →
      EnumValueG (is ++ .equals :: ns ++ us ++ [.semicolon]) ⟨name, number, os, c, sp⟩

/-- An element of an enum body. -/
inductive EnumElem [FloatFmt] : List Token → List Opt × List EnumValue × List Reserved →
    List Opt × List EnumValue × List Reserved → Prop where
  | option {ts o os vs rs} : OptionG ts o → EnumElem ts (os, vs, rs) (os ++ [o], vs, rs)
  | reserved {ts r os vs rs} : ReservedG ts r → EnumElem ts (os, vs, rs) (os, vs, rs ++ [r])
  | value {ts v os vs rs} : EnumValueG ts v → NoKw [b!"option", b!"reserved"] ts →
      EnumElem ts (os, vs, rs) (os, vs ++ [v], rs)
  | empty {acc} : EnumElem [.semicolon] acc acc

/-- An enum. -/
inductive EnumG [FloatFmt] : List Token → Enum → Prop where
  | mk {is name ts os vs rs c sp} : IdentG is name → Many EnumElem ts ([], [], []) (os, vs, rs) →
      EnumG (kw b!"enum" :: is ++ .leftBrace :: ts ++ [.rightBrace]) ⟨name, os, vs, rs, c, sp⟩

/-- An element of a oneof body. -/
inductive OneofElem [FloatFmt] (body : List Token → MessageBody → Prop) :
    List Token → List Opt × List Field → List Opt × List Field → Prop where
  | option {ts o os fs} : OptionG ts o → OneofElem body ts (os, fs) (os ++ [o], fs)
  | field {ts f os fs} : FieldG body ts f → NoKw [b!"option"] ts → OneofElem body ts (os, fs) (os, fs ++ [f])
  | empty {acc} : OneofElem body [.semicolon] acc acc

/-- A oneof. -/
inductive OneofG [FloatFmt] (body : List Token → MessageBody → Prop) : List Token → Oneof → Prop where
  | mk {is name ts os fs c sp} : IdentG is name → Many (OneofElem body) ts ([], []) (os, fs) →
      OneofG body (kw b!"oneof" :: is ++ .leftBrace :: ts ++ [.rightBrace]) ⟨name, os, fs, c, sp⟩

/-- An element of an extend block. -/
inductive ExtendElem [FloatFmt] (body : List Token → MessageBody → Prop) :
    List Token → List Field → List Field → Prop where
  | field {ts f fs} : FieldG body ts f → ExtendElem body ts fs (fs ++ [f])
  | empty {fs} : ExtendElem body [.semicolon] fs fs

/-- An extend block. -/
inductive ExtendG [FloatFmt] (body : List Token → MessageBody → Prop) : List Token → Extend → Prop where
  | mk {ns t ts fs c sp} : TypeNameG ns t → Many (ExtendElem body) ts [] fs →
      ExtendG body (kw b!"extend" :: ns ++ .leftBrace :: ts ++ [.rightBrace]) ⟨t, fs, c, sp⟩

/-- A message. -/
inductive MessageG (body : List Token → MessageBody → Prop) : List Token → Message → Prop where
  | mk {is name ts b c sp} : IdentG is name → body ts b →
      MessageG body (kw b!"message" :: is ++ .leftBrace :: ts ++ [.rightBrace]) ⟨name, b, c, sp⟩

/-- The keywords that start an element of a message body other than a field. -/
def bodyKeywords : List Bytes :=
  [b!"oneof", b!"enum", b!"message", b!"extend", b!"option", b!"reserved", b!"extensions"]

/-- An element of a message body; `body` is the grammar of nested bodies. -/
inductive BodyElem [FloatFmt] (body : List Token → MessageBody → Prop) :
    List Token → MessageBody → MessageBody → Prop where
  | field {ts f b} : FieldG body ts f → NoKw bodyKeywords ts →
      BodyElem body ts b { b with items := b.items ++ [.field f] }
  | oneof {ts o b} : OneofG body ts o → BodyElem body ts b { b with items := b.items ++ [.oneof o] }
  | enum {ts e b} : EnumG ts e → BodyElem body ts b { b with items := b.items ++ [.enum e] }
  | message {ts x b} : MessageG body ts x → BodyElem body ts b { b with items := b.items ++ [.message x] }
  | extend {ts e b} : ExtendG body ts e → BodyElem body ts b { b with items := b.items ++ [.extend e] }
  | option {ts o b} : OptionG ts o → BodyElem body ts b { b with options := b.options ++ [o] }
  | reserved {ts r b} : ReservedG ts r → BodyElem body ts b { b with reserved := b.reserved ++ [r] }
  | extensions {ts e b} : ExtensionsG ts e → BodyElem body ts b { b with extensions := b.extensions ++ [e] }
  | empty {b} : BodyElem body [.semicolon] b b

/-- The body of a message or group with fewer than `d` levels of nesting. -/
def BodyG [FloatFmt] : Nat → List Token → MessageBody → Prop
  | 0 => fun _ _ => False
  | d + 1 => fun ts b => Many (BodyElem (BodyG d)) ts ⟨[], [], [], []⟩ b

/-- The body of a message or group. -/
def AnyBodyG [FloatFmt] (ts : List Token) (b : MessageBody) : Prop := ∃ d, BodyG d ts b

/-- An optional `stream` keyword; a type name after an absent one does not start with `stream`. -/
inductive StreamG : List Token → TypeName → Option Span → Prop where
  | no {ts t} : TypeNameG ts t → NoKw [b!"stream"] ts → StreamG ts t none
  | yes {ts t sp} : TypeNameG ts t → StreamG (kw b!"stream" :: ts) t (some sp)

/-- An element of a method body. -/
inductive MethodElem [FloatFmt] : List Token → List Opt → List Opt → Prop where
  | option {ts o os} : OptionG ts o → MethodElem ts os (os ++ [o])
  | empty {os} : MethodElem [.semicolon] os os

/-- The end of a method: a semicolon or options in braces. -/
inductive MethodEndG [FloatFmt] : List Token → List Opt → Prop where
  | semi : MethodEndG [.semicolon] []
  | body {ts os} : Many MethodElem ts [] os → MethodEndG (.leftBrace :: ts ++ [.rightBrace]) os

/-- A method. -/
inductive MethodG [FloatFmt] : List Token → Method → Prop where
  | mk {is name ins i cs outs o ss es os c sp} :
      IdentG is name → StreamG ins i cs → StreamG outs o ss → MethodEndG es os →
      MethodG (kw b!"rpc" :: is ++ .leftParen :: ins ++ [.rightParen, kw b!"returns", .leftParen] ++ outs ++
        .rightParen :: es) ⟨name, i, o, os, cs, ss, c, sp⟩

/-- An element of a service body. -/
inductive ServiceElem [FloatFmt] : List Token → List Opt × List Method → List Opt × List Method → Prop where
  | option {ts o os ms} : OptionG ts o → ServiceElem ts (os, ms) (os ++ [o], ms)
  | method {ts x os ms} : MethodG ts x → ServiceElem ts (os, ms) (os, ms ++ [x])
  | empty {acc} : ServiceElem [.semicolon] acc acc

/-- A service. -/
inductive ServiceG [FloatFmt] : List Token → Service → Prop where
  | mk {is name ts os ms c sp} : IdentG is name → Many ServiceElem ts ([], []) (os, ms) →
      ServiceG (kw b!"service" :: is ++ .leftBrace :: ts ++ [.rightBrace]) ⟨name, os, ms, c, sp⟩

/-- `package name;` -/
inductive PackageG : List Token → Package → Prop where
  | mk {ts f c sp} : FullIdentG ts f → PackageG (kw b!"package" :: ts ++ [.semicolon]) ⟨f, c, sp⟩

/-- The optional `weak` or `public` of an import. -/
inductive ImportKindG : List Token → Option (ImportKind × Span) → Prop where
  | none : ImportKindG [] none
  | weak {sp} : ImportKindG [kw b!"weak"] (some (.weak, sp))
  | publ {sp} : ImportKindG [kw b!"public"] (some (.publ, sp))

/-- Import paths: non-empty components separated by `/`, none of them `.` or `..` or containing a backslash. -/
def ImportPath (s : Bytes) : Prop :=
  ∃ cs : List Bytes, cs ≠ [] ∧ s = joinWith 47 cs ∧
    ∀ c ∈ cs, c ≠ [] ∧ c ≠ b!"." ∧ c ≠ b!".." ∧ (92 : UInt8) ∉ c ∧ (47 : UInt8) ∉ c

/-- `import "path";` -/
inductive ImportG : List Token → Import → Prop where
  | mk {ks k ts v vsp c sp} : ImportKindG ks k → Utf8G ts v → ImportPath v →
      ImportG (kw b!"import" :: ks ++ ts ++ [.semicolon]) ⟨k, v, vsp, c, sp⟩

/-- `syntax = "proto2";` or `syntax = "proto3";` -/
inductive SyntaxG : List Token → Syntax' → Prop where
  | proto2 {ts sp} : StrG ts ⟨b!"proto2", sp⟩ → SyntaxG (kw b!"syntax" :: .equals :: ts ++ [.semicolon]) .proto2
  | proto3 {ts sp} : StrG ts ⟨b!"proto3", sp⟩ → SyntaxG (kw b!"syntax" :: .equals :: ts ++ [.semicolon]) .proto3

/-- What the statements of a file contribute to its tree. -/
structure Parts where
  package : Option Package := none
  imports : List Import := []
  options : List Opt := []
  items : List FileItem := []

/-- A statement at file level; at most one `package`. -/
inductive StatementG [FloatFmt] : List Token → Parts → Parts → Prop where
  | package {ts x p} : PackageG ts x → p.package = none → StatementG ts p { p with package := some x }
  | import' {ts x p} : ImportG ts x → StatementG ts p { p with imports := p.imports ++ [x] }
  | option {ts x p} : OptionG ts x → StatementG ts p { p with options := p.options ++ [x] }
  | message {ts x p} : MessageG AnyBodyG ts x → StatementG ts p { p with items := p.items ++ [.message x] }
  | enum {ts x p} : EnumG ts x → StatementG ts p { p with items := p.items ++ [.enum x] }
  | extend {ts x p} : ExtendG AnyBodyG ts x → StatementG ts p { p with items := p.items ++ [.extend x] }
  | service {ts x p} : ServiceG ts x → StatementG ts p { p with items := p.items ++ [.service x] }
  | empty {p} : StatementG [.semicolon] p p

/-- A file: an optional `syntax` statement followed by statements. -/
inductive FileG [FloatFmt] : List Token → File → Prop where
  | noSyntax {ts p sp} : Many StatementG ts {} p →
      FileG ts ⟨sp, .proto2, none, p.package, p.imports, p.options, p.items⟩
  | withSyntax {ss s ts p sp ssp} : SyntaxG ss s → Many StatementG ts {} p →
      FileG (ss ++ ts) ⟨sp, s, some ssp, p.package, p.imports, p.options, p.items⟩

end Verif.Grammar
