import Verif.Proofs.LexText
import Verif.Model.Parser
/-! Syntax trees whose spans begin and end where `P` holds and whose comments are text. -/
namespace Verif.Text
open Ast

section
variable (P : Nat → Prop)

def Sp (s : Span) : Prop := P s.start ∧ P s.stop

variable {P} in
theorem Sp.join {s t : Span} (h : Sp P s) (h' : Sp P t) : Sp P (joinSpan s t) := ⟨h.1, h'.2⟩

def CommB (c : Comments) : Prop := (∀ x ∈ c.leadingDetached, V x) ∧ (∀ x, c.leading = some x → V x) ∧ (∀ x, c.trailing = some x → V x)

def FullIdentB (f : FullIdent) : Prop := ∀ i ∈ f.parts, Sp P i.span
def TypeNameB (t : Ast.TypeName) : Prop := (∀ d, t.leadingDot = some d → Sp P d) ∧ FullIdentB P t.name
def OptionNamePartB : OptionNamePart → Prop
  | .ident i => Sp P i.span
  | .extension t sp => TypeNameB P t ∧ Sp P sp
def OptionValueB : OptionValue → Prop
  | .ident _ i sp => Sp P i.span ∧ Sp P sp
  | .int i => Sp P i.span
  | .float f => Sp P f.span
  | .string s => Sp P s.span
  | .aggregate _ sp => Sp P sp
def OptionBodyB (o : OptionBody) : Prop := (∀ x ∈ o.name, OptionNamePartB P x) ∧ OptionValueB P o.value
def OptB (o : Opt) : Prop := OptionBodyB P o.body ∧ CommB o.comments ∧ Sp P o.span
def OptionListB (o : OptionList) : Prop := (∀ x ∈ o.options, OptionBodyB P x) ∧ Sp P o.span
def optListB (o : Option OptionList) : Prop := ∀ l, o = some l → OptionListB P l
def optSpB (o : Option Span) : Prop := ∀ l, o = some l → Sp P l
def RangeEndB : ReservedRangeEnd → Prop
  | .none => True
  | .int i => Sp P i.span
  | .max sp => Sp P sp
def RangeB (r : ReservedRange) : Prop := Sp P r.start.span ∧ RangeEndB P r.stop
def ReservedKindB : ReservedKind → Prop
  | .ranges rs => ∀ r ∈ rs, RangeB P r
  | .names ns => ∀ n ∈ ns, Sp P n.span
def ReservedB (r : Reserved) : Prop := ReservedKindB P r.kind ∧ CommB r.comments ∧ Sp P r.span
def ExtensionsB (e : Extensions) : Prop :=
  (∀ r ∈ e.ranges, RangeB P r) ∧ optListB P e.options ∧ CommB e.comments ∧ Sp P e.span
def EnumValueB (v : EnumValue) : Prop :=
  Sp P v.name.span ∧ Sp P v.number.span ∧ optListB P v.options ∧ CommB v.comments ∧ Sp P v.span
def EnumB (e : Enum) : Prop :=
  Sp P e.name.span ∧ (∀ o ∈ e.options, OptB P o) ∧ (∀ v ∈ e.values, EnumValueB P v) ∧ (∀ r ∈ e.reserved, ReservedB P r) ∧
    CommB e.comments ∧ Sp P e.span
def MethodB (x : Method) : Prop :=
  Sp P x.name.span ∧ TypeNameB P x.inputTy ∧ TypeNameB P x.outputTy ∧ (∀ o ∈ x.options, OptB P o) ∧
    optSpB P x.clientStreaming ∧ optSpB P x.serverStreaming ∧ CommB x.comments ∧ Sp P x.span
def ServiceB (s : Service) : Prop :=
  Sp P s.name.span ∧ (∀ o ∈ s.options, OptB P o) ∧ (∀ x ∈ s.methods, MethodB P x) ∧ CommB s.comments ∧ Sp P s.span
def TyB : Ty → Prop
  | .named t => TypeNameB P t
  | _ => True
def labelB (l : Option (FieldLabel × Span)) : Prop := ∀ x, l = some x → Sp P x.2

mutual
def MessageBodyB : MessageBody → Prop
  | ⟨items, exts, opts, res⟩ => itemsB items ∧ (∀ e ∈ exts, ExtensionsB P e) ∧ (∀ o ∈ opts, OptB P o) ∧
      (∀ r ∈ res, ReservedB P r)
def itemsB : List MessageItem → Prop
  | [] => True
  | x :: xs => MessageItemB x ∧ itemsB xs
def fieldsB : List Field → Prop
  | [] => True
  | x :: xs => FieldB x ∧ fieldsB xs
def MessageItemB : MessageItem → Prop
  | .field f => FieldB f
  | .enum e => EnumB P e
  | .message m => MessageB m
  | .extend e => ExtendB e
  | .oneof o => OneofB o
def MessageB : Message → Prop
  | ⟨name, body, c, sp⟩ => Sp P name.span ∧ MessageBodyB body ∧ CommB c ∧ Sp P sp
def ExtendB : Extend → Prop
  | ⟨t, fields, c, sp⟩ => TypeNameB P t ∧ fieldsB fields ∧ CommB c ∧ Sp P sp
def OneofB : Oneof → Prop
  | ⟨name, opts, fields, c, sp⟩ => Sp P name.span ∧ (∀ o ∈ opts, OptB P o) ∧ fieldsB fields ∧ CommB c ∧ Sp P sp
def FieldB : Field → Prop
  | ⟨label, name, kind, number, opts, c, sp⟩ => labelB P label ∧ Sp P name.span ∧ FieldKindB kind ∧
      Sp P number.span ∧ optListB P opts ∧ CommB c ∧ Sp P sp
def FieldKindB : FieldKind → Prop
  | .normal ty sp => TyB P ty ∧ Sp P sp
  | .group sp body => Sp P sp ∧ MessageBodyB body
  | .map sp k ksp v vsp => Sp P sp ∧ TyB P k ∧ Sp P ksp ∧ TyB P v ∧ Sp P vsp
end

def PackageB (p : Package) : Prop := FullIdentB P p.name ∧ CommB p.comments ∧ Sp P p.span
def ImportB (i : Import) : Prop :=
  (∀ k, i.kind = some k → Sp P k.2) ∧ Sp P i.valueSpan ∧ CommB i.comments ∧ Sp P i.span
def FileItemB : FileItem → Prop
  | .enum e => EnumB P e
  | .message x => MessageB P x
  | .extend e => ExtendB P e
  | .service s => ServiceB P s

structure FileB (f : Ast.File) : Prop where
  span : Sp P f.span
  syn : ∀ s, f.syntaxSpan = some s → Sp P s.1 ∧ CommB s.2
  pkg : ∀ p, f.package = some p → PackageB P p
  imports : ∀ i ∈ f.imports, ImportB P i
  options : ∀ i ∈ f.options, OptB P i
  items : ∀ i ∈ f.items, FileItemB P i
end

variable {P : Nat → Prop}

theorem itemsB_iff {l : List MessageItem} : itemsB P l ↔ ∀ x ∈ l, MessageItemB P x := by
  induction l with
  | nil => simp [itemsB]
  | cons x xs ih => simp [itemsB, ih]

theorem fieldsB_iff {l : List Field} : fieldsB P l ↔ ∀ x ∈ l, FieldB P x := by
  induction l with
  | nil => simp [fieldsB]
  | cons x xs ih => simp [fieldsB, ih]

theorem all_snoc {α : Type} {Q : α → Prop} {l : List α} {x : α} (h : ∀ y ∈ l, Q y) (hx : Q x) : ∀ y ∈ l ++ [x], Q y := by
  intro y hy
  rcases List.mem_append.1 hy with h1 | h1
  · exact h y h1
  · rw [List.mem_singleton] at h1; exact h1 ▸ hx

theorem all_one {α : Type} {Q : α → Prop} {x : α} (hx : Q x) : ∀ y ∈ [x], Q y := by
  intro y hy; rw [List.mem_singleton] at hy; exact hy ▸ hx

theorem all_nil {α : Type} {Q : α → Prop} : ∀ y ∈ ([] : List α), Q y := nofun

theorem opt_some {α : Type} {Q : α → Prop} {x : α} (hx : Q x) : ∀ y, some x = some y → Q y := by
  rintro _ ⟨⟩; exact hx
theorem opt_none {α : Type} {Q : α → Prop} : ∀ y, (none : Option α) = some y → Q y := nofun

theorem fullIdent_spB {f : FullIdent} (h : FullIdentB P f) {sp} (hs : f.span = some sp) : Sp P sp := by
  obtain ⟨parts⟩ := f
  unfold FullIdent.span at hs
  split at hs
  · rename_i a b ha hb
    injection hs with hs
    subst hs
    exact ⟨(h a (List.mem_of_mem_head? ha)).1, (h b (List.mem_of_mem_getLast? hb)).2⟩
  · cases hs

theorem typeName_spB {t : Ast.TypeName} (h : TypeNameB P t) {sp} (hs : t.span = some sp) : Sp P sp := by
  obtain ⟨dot, name⟩ := t
  unfold TypeName.span at hs
  cases dot with
  | none => exact fullIdent_spB h.2 hs
  | some d =>
    simp only at hs
    cases hn : name.span with
    | none => rw [hn] at hs; cases hs
    | some s2 =>
      rw [hn] at hs
      injection hs with hs
      subst hs
      exact Sp.join (h.1 d rfl) (fullIdent_spB h.2 hn)

end Verif.Text
