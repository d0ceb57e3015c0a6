import Verif.Model.AstFns
/-!
Well-placed syntax trees: every span stored in the tree is non-empty and lies in `[a, b]`, spans that the
generator joins are in order, and names have at least one part.
-/
namespace Verif.Ast

/-- A non-empty span inside `[a, b]`. -/
def SpIn (a b : Nat) (s : Span) : Prop := a ≤ s.start ∧ s.start < s.stop ∧ s.stop ≤ b

theorem SpIn.mono {a b a' b' s} (h : SpIn a b s) (ha : a' ≤ a) (hb : b ≤ b') : SpIn a' b' s :=
  ⟨Nat.le_trans ha h.1, h.2.1, Nat.le_trans h.2.2 hb⟩

theorem SpIn.join {a b c s t} (h : SpIn a b s) (h' : SpIn b c t) : SpIn a c (joinSpan s t) := by
  simp only [SpIn, joinSpan] at *; omega

/-- Elements in order between `a` and `b`. -/
def ChainIn {α : Type} (P : Nat → Nat → α → Prop) (a : Nat) : List α → Nat → Prop
  | [], b => a ≤ b
  | x :: xs, b => ∃ c, P a c x ∧ ChainIn P c xs b

def Ident.In (a b : Nat) (i : Ident) : Prop := SpIn a b i.span
def FullIdent.In (a b : Nat) (f : FullIdent) : Prop := f.parts ≠ [] ∧ ChainIn Ident.In a f.parts b
def TypeName.In (a b : Nat) (t : TypeName) : Prop :=
  match t.leadingDot with
  | none => t.name.In a b
  | some d => ∃ c, SpIn a c d ∧ t.name.In c b
def Int'.In (a b : Nat) (i : Int') : Prop := SpIn a b i.span
def Float'.In (a b : Nat) (i : Float') : Prop := SpIn a b i.span
def Str.In (a b : Nat) (i : Str) : Prop := SpIn a b i.span
def OptionNamePart.In (a b : Nat) : OptionNamePart → Prop
  | .ident i => i.In a b
  | .extension t sp => t.In a b ∧ SpIn a b sp
def OptionValue.In (a b : Nat) : OptionValue → Prop
  | .ident _ i sp => i.In a b ∧ SpIn a b sp
  | .int i => i.In a b
  | .float f => f.In a b
  | .string s => s.In a b
  | .aggregate _ sp => SpIn a b sp
def OptionBody.In (a b : Nat) (o : OptionBody) : Prop :=
  o.name ≠ [] ∧ ∃ c, ChainIn OptionNamePart.In a o.name c ∧ o.value.In c b
def Opt.In (a b : Nat) (o : Opt) : Prop := o.body.In a b ∧ SpIn a b o.span
def OptionList.In (a b : Nat) (o : OptionList) : Prop := (∀ x ∈ o.options, x.In a b) ∧ SpIn a b o.span
def optListIn (a b : Nat) (o : Option OptionList) : Prop := ∀ l, o = some l → l.In a b
def optSpIn (a b : Nat) (o : Option Span) : Prop := ∀ l, o = some l → SpIn a b l
def ReservedRangeEnd.In (a b : Nat) : ReservedRangeEnd → Prop
  | .none => a ≤ b
  | .int i => i.In a b
  | .max sp => SpIn a b sp
def ReservedRange.In (a b : Nat) (r : ReservedRange) : Prop := ∃ c, r.start.In a c ∧ r.stop.In c b
def ReservedKind.In (a b : Nat) : ReservedKind → Prop
  | .ranges rs => ∀ r ∈ rs, r.In a b
  | .names ns => ∀ n ∈ ns, n.In a b
def Reserved.In (a b : Nat) (r : Reserved) : Prop := r.kind.In a b ∧ SpIn a b r.span
def Extensions.In (a b : Nat) (e : Extensions) : Prop :=
  (∀ r ∈ e.ranges, r.In a b) ∧ optListIn a b e.options ∧ SpIn a b e.span
def EnumValue.In (a b : Nat) (v : EnumValue) : Prop :=
  v.name.In a b ∧ v.number.In a b ∧ optListIn a b v.options ∧ SpIn a b v.span
def Enum.In (a b : Nat) (e : Enum) : Prop :=
  e.name.In a b ∧ (∀ o ∈ e.options, o.In a b) ∧ (∀ v ∈ e.values, v.In a b) ∧ (∀ r ∈ e.reserved, r.In a b) ∧
    SpIn a b e.span
def Method.In (a b : Nat) (x : Method) : Prop :=
  x.name.In a b ∧ x.inputTy.In a b ∧ x.outputTy.In a b ∧ (∀ o ∈ x.options, o.In a b) ∧
    optSpIn a b x.clientStreaming ∧ optSpIn a b x.serverStreaming ∧ SpIn a b x.span
def Service.In (a b : Nat) (s : Service) : Prop :=
  s.name.In a b ∧ (∀ o ∈ s.options, o.In a b) ∧ (∀ x ∈ s.methods, x.In a b) ∧ SpIn a b s.span
def Ty.In (a b : Nat) : Ty → Prop
  | .named t => t.In a b
  | _ => True
def labelIn (a b : Nat) (l : Option (FieldLabel × Span)) : Prop := ∀ x, l = some x → SpIn a b x.2

mutual
def MessageBody.In (a b : Nat) : MessageBody → Prop
  | ⟨items, exts, opts, res⟩ => itemsIn a b items ∧ (∀ e ∈ exts, e.In a b) ∧ (∀ o ∈ opts, o.In a b) ∧
      (∀ r ∈ res, r.In a b)
def itemsIn (a b : Nat) : List MessageItem → Prop
  | [] => True
  | x :: xs => x.In a b ∧ itemsIn a b xs
def fieldsIn (a b : Nat) : List Field → Prop
  | [] => True
  | x :: xs => x.In a b ∧ fieldsIn a b xs
def MessageItem.In (a b : Nat) : MessageItem → Prop
  | .field f => f.In a b
  | .enum e => e.In a b
  | .message m => m.In a b
  | .extend e => e.In a b
  | .oneof o => o.In a b
def Message.In (a b : Nat) : Message → Prop
  | ⟨name, body, _, sp⟩ => name.In a b ∧ body.In a b ∧ SpIn a b sp
def Extend.In (a b : Nat) : Extend → Prop
  | ⟨t, fields, _, sp⟩ => t.In a b ∧ fieldsIn a b fields ∧ SpIn a b sp
def Oneof.In (a b : Nat) : Oneof → Prop
  | ⟨name, opts, fields, _, sp⟩ => name.In a b ∧ (∀ o ∈ opts, o.In a b) ∧ fieldsIn a b fields ∧ SpIn a b sp
def Field.In (a b : Nat) : Field → Prop
  | ⟨label, name, kind, number, opts, _, sp⟩ => labelIn a b label ∧ name.In a b ∧ kind.In a b ∧
      number.In a b ∧ optListIn a b opts ∧ SpIn a b sp
def FieldKind.In (a b : Nat) : FieldKind → Prop
  | .normal ty sp => ty.In a b ∧ SpIn a b sp
  | .group sp body => SpIn a b sp ∧ body.In a b
  | .map sp k ksp v vsp => SpIn a b sp ∧ k.In a b ∧ SpIn a b ksp ∧ v.In a b ∧ SpIn a b vsp
end

def Package.In (a b : Nat) (p : Package) : Prop := p.name.In a b ∧ SpIn a b p.span
def Import.In (a b : Nat) (i : Import) : Prop :=
  (∀ k, i.kind = some k → SpIn a b k.2) ∧ SpIn a b i.valueSpan ∧ SpIn a b i.span
def FileItem.In (a b : Nat) : FileItem → Prop
  | .enum e => e.In a b
  | .message x => x.In a b
  | .extend e => e.In a b
  | .service s => s.In a b

/-! Widening. -/

theorem ChainIn.mono {α : Type} {P : Nat → Nat → α → Prop} {a a' : Nat} {b b' : Nat} {l : List α}
    (hP : ∀ {a a' b b' x}, P a b x → a' ≤ a → b ≤ b' → P a' b' x)
    (h : ChainIn P a l b) (ha : a' ≤ a) (hb : b ≤ b') : ChainIn P a' l b' := by
  induction l generalizing a a' with
  | nil => simp only [ChainIn] at *; omega
  | cons x xs ih =>
    obtain ⟨c, h1, h2⟩ := h
    exact ⟨c, hP h1 ha (Nat.le_refl _), ih h2 (Nat.le_refl _)⟩

theorem ChainIn.append {α : Type} {P : Nat → Nat → α → Prop}
    (hP : ∀ {a a' b b' x}, P a b x → a' ≤ a → b ≤ b' → P a' b' x) {a b c : Nat} {l l' : List α}
    (h : ChainIn P a l b) (h' : ChainIn P b l' c) : ChainIn P a (l ++ l') c := by
  induction l generalizing a with
  | nil => exact h'.mono hP h (Nat.le_refl _)
  | cons x xs ih =>
    obtain ⟨d, h1, h2⟩ := h
    exact ⟨d, h1, ih h2⟩

theorem Ident.In.mono {a b a' b' : Nat} {i : Ident} (h : i.In a b) (ha : a' ≤ a) (hb : b ≤ b') : i.In a' b' :=
  SpIn.mono h ha hb
theorem Int'.In.mono {a b a' b' : Nat} {i : Int'} (h : i.In a b) (ha : a' ≤ a) (hb : b ≤ b') : i.In a' b' :=
  SpIn.mono h ha hb
theorem Float'.In.mono {a b a' b' : Nat} {i : Float'} (h : i.In a b) (ha : a' ≤ a) (hb : b ≤ b') : i.In a' b' :=
  SpIn.mono h ha hb
theorem Str.In.mono {a b a' b' : Nat} {i : Str} (h : i.In a b) (ha : a' ≤ a) (hb : b ≤ b') : i.In a' b' :=
  SpIn.mono h ha hb
theorem FullIdent.In.mono {a b a' b' : Nat} {i : FullIdent} (h : i.In a b) (ha : a' ≤ a) (hb : b ≤ b') :
    i.In a' b' := ⟨h.1, h.2.mono Ident.In.mono ha hb⟩
theorem TypeName.In.mono {a b a' b' : Nat} {i : TypeName} (h : i.In a b) (ha : a' ≤ a) (hb : b ≤ b') :
    i.In a' b' := by
  unfold TypeName.In at *
  split
  · rename_i heq; rw [heq] at h; exact h.mono ha hb
  · rename_i heq; rw [heq] at h
    obtain ⟨c, h1, h2⟩ := h
    exact ⟨c, h1.mono ha (Nat.le_refl _), h2.mono (Nat.le_refl _) hb⟩
theorem OptionNamePart.In.mono {a b a' b' : Nat} {i : OptionNamePart} (h : i.In a b) (ha : a' ≤ a) (hb : b ≤ b') :
    i.In a' b' := by
  cases i with
  | ident i => exact Ident.In.mono h ha hb
  | extension t sp => exact ⟨h.1.mono ha hb, h.2.mono ha hb⟩
theorem OptionValue.In.mono {a b a' b' : Nat} {i : OptionValue} (h : i.In a b) (ha : a' ≤ a) (hb : b ≤ b') :
    i.In a' b' := by
  cases i with
  | ident _ i sp => exact ⟨h.1.mono ha hb, h.2.mono ha hb⟩
  | int i => exact Int'.In.mono h ha hb
  | float i => exact Float'.In.mono h ha hb
  | string i => exact Str.In.mono h ha hb
  | aggregate t sp => exact SpIn.mono h ha hb
theorem OptionBody.In.mono {a b a' b' : Nat} {i : OptionBody} (h : i.In a b) (ha : a' ≤ a) (hb : b ≤ b') :
    i.In a' b' := by
  obtain ⟨h0, c, h1, h2⟩ := h
  exact ⟨h0, c, h1.mono OptionNamePart.In.mono ha (Nat.le_refl _), h2.mono (Nat.le_refl _) hb⟩
theorem Opt.In.mono {a b a' b' : Nat} {i : Opt} (h : i.In a b) (ha : a' ≤ a) (hb : b ≤ b') : i.In a' b' :=
  ⟨h.1.mono ha hb, h.2.mono ha hb⟩
theorem OptionList.In.mono {a b a' b' : Nat} {i : OptionList} (h : i.In a b) (ha : a' ≤ a) (hb : b ≤ b') :
    i.In a' b' := ⟨fun x hx => (h.1 x hx).mono ha hb, h.2.mono ha hb⟩
theorem optListIn.mono {a b a' b' : Nat} {i : Option OptionList} (h : optListIn a b i) (ha : a' ≤ a) (hb : b ≤ b') :
    optListIn a' b' i := fun l hl => (h l hl).mono ha hb
theorem optSpIn.mono {a b a' b' : Nat} {i : Option Span} (h : optSpIn a b i) (ha : a' ≤ a) (hb : b ≤ b') :
    optSpIn a' b' i := fun l hl => (h l hl).mono ha hb
theorem labelIn.mono {a b a' b' : Nat} {i : Option (FieldLabel × Span)} (h : labelIn a b i) (ha : a' ≤ a)
    (hb : b ≤ b') : labelIn a' b' i := fun l hl => (h l hl).mono ha hb
theorem ReservedRangeEnd.In.mono {a b a' b' : Nat} {i : ReservedRangeEnd} (h : i.In a b) (ha : a' ≤ a) (hb : b ≤ b') :
    i.In a' b' := by
  cases i with
  | none => exact Nat.le_trans ha (Nat.le_trans h hb)
  | int i => exact Int'.In.mono h ha hb
  | max sp => exact SpIn.mono h ha hb
theorem ReservedRange.In.mono {a b a' b' : Nat} {i : ReservedRange} (h : i.In a b) (ha : a' ≤ a) (hb : b ≤ b') :
    i.In a' b' := by
  obtain ⟨c, h1, h2⟩ := h
  exact ⟨c, h1.mono ha (Nat.le_refl _), h2.mono (Nat.le_refl _) hb⟩
theorem ReservedKind.In.mono {a b a' b' : Nat} {i : ReservedKind} (h : i.In a b) (ha : a' ≤ a) (hb : b ≤ b') :
    i.In a' b' := by
  cases i with
  | ranges rs => exact fun r hr => (h r hr).mono ha hb
  | names ns => exact fun r hr => (h r hr).mono ha hb
theorem Reserved.In.mono {a b a' b' : Nat} {i : Reserved} (h : i.In a b) (ha : a' ≤ a) (hb : b ≤ b') : i.In a' b' :=
  ⟨h.1.mono ha hb, h.2.mono ha hb⟩
theorem Extensions.In.mono {a b a' b' : Nat} {i : Extensions} (h : i.In a b) (ha : a' ≤ a) (hb : b ≤ b') :
    i.In a' b' := ⟨fun r hr => (h.1 r hr).mono ha hb, h.2.1.mono ha hb, h.2.2.mono ha hb⟩
theorem EnumValue.In.mono {a b a' b' : Nat} {i : EnumValue} (h : i.In a b) (ha : a' ≤ a) (hb : b ≤ b') :
    i.In a' b' := ⟨h.1.mono ha hb, h.2.1.mono ha hb, h.2.2.1.mono ha hb, h.2.2.2.mono ha hb⟩
theorem Enum.In.mono {a b a' b' : Nat} {i : Enum} (h : i.In a b) (ha : a' ≤ a) (hb : b ≤ b') : i.In a' b' :=
  ⟨h.1.mono ha hb, fun r hr => (h.2.1 r hr).mono ha hb, fun r hr => (h.2.2.1 r hr).mono ha hb,
    fun r hr => (h.2.2.2.1 r hr).mono ha hb, h.2.2.2.2.mono ha hb⟩
theorem Method.In.mono {a b a' b' : Nat} {i : Method} (h : i.In a b) (ha : a' ≤ a) (hb : b ≤ b') : i.In a' b' :=
  ⟨h.1.mono ha hb, h.2.1.mono ha hb, h.2.2.1.mono ha hb, fun r hr => (h.2.2.2.1 r hr).mono ha hb,
    h.2.2.2.2.1.mono ha hb, h.2.2.2.2.2.1.mono ha hb, h.2.2.2.2.2.2.mono ha hb⟩
theorem Service.In.mono {a b a' b' : Nat} {i : Service} (h : i.In a b) (ha : a' ≤ a) (hb : b ≤ b') : i.In a' b' :=
  ⟨h.1.mono ha hb, fun r hr => (h.2.1 r hr).mono ha hb, fun r hr => (h.2.2.1 r hr).mono ha hb,
    h.2.2.2.mono ha hb⟩
theorem Ty.In.mono {a b a' b' : Nat} {i : Ty} (h : i.In a b) (ha : a' ≤ a) (hb : b ≤ b') : i.In a' b' := by
  cases i <;> first | trivial | exact TypeName.In.mono h ha hb

mutual
theorem MessageBody.In.mono {a b a' b' : Nat} (ha : a' ≤ a) (hb : b ≤ b') :
    ∀ (i : MessageBody), i.In a b → i.In a' b'
  | ⟨items, exts, opts, res⟩, h => by
    simp only [MessageBody.In] at h ⊢
    exact ⟨itemsIn.mono ha hb items h.1, fun r hr => (h.2.1 r hr).mono ha hb,
      fun r hr => (h.2.2.1 r hr).mono ha hb, fun r hr => (h.2.2.2 r hr).mono ha hb⟩
theorem itemsIn.mono {a b a' b' : Nat} (ha : a' ≤ a) (hb : b ≤ b') :
    ∀ (i : List MessageItem), itemsIn a b i → itemsIn a' b' i
  | [], _ => by simp only [itemsIn]
  | x :: xs, h => by
    simp only [itemsIn] at h ⊢
    exact ⟨MessageItem.In.mono ha hb x h.1, itemsIn.mono ha hb xs h.2⟩
theorem fieldsIn.mono {a b a' b' : Nat} (ha : a' ≤ a) (hb : b ≤ b') :
    ∀ (i : List Field), fieldsIn a b i → fieldsIn a' b' i
  | [], _ => by simp only [fieldsIn]
  | x :: xs, h => by
    simp only [fieldsIn] at h ⊢
    exact ⟨Field.In.mono ha hb x h.1, fieldsIn.mono ha hb xs h.2⟩
theorem MessageItem.In.mono {a b a' b' : Nat} (ha : a' ≤ a) (hb : b ≤ b') :
    ∀ (i : MessageItem), i.In a b → i.In a' b'
  | .field f, h => by simp only [MessageItem.In] at h ⊢; exact Field.In.mono ha hb f h
  | .enum e, h => by simp only [MessageItem.In] at h ⊢; exact h.mono ha hb
  | .message m, h => by simp only [MessageItem.In] at h ⊢; exact Message.In.mono ha hb m h
  | .extend e, h => by simp only [MessageItem.In] at h ⊢; exact Extend.In.mono ha hb e h
  | .oneof o, h => by simp only [MessageItem.In] at h ⊢; exact Oneof.In.mono ha hb o h
theorem Message.In.mono {a b a' b' : Nat} (ha : a' ≤ a) (hb : b ≤ b') :
    ∀ (i : Message), i.In a b → i.In a' b'
  | ⟨name, body, _, sp⟩, h => by
    simp only [Message.In] at h ⊢
    exact ⟨h.1.mono ha hb, MessageBody.In.mono ha hb body h.2.1, h.2.2.mono ha hb⟩
theorem Extend.In.mono {a b a' b' : Nat} (ha : a' ≤ a) (hb : b ≤ b') :
    ∀ (i : Extend), i.In a b → i.In a' b'
  | ⟨t, fields, _, sp⟩, h => by
    simp only [Extend.In] at h ⊢
    exact ⟨h.1.mono ha hb, fieldsIn.mono ha hb fields h.2.1, h.2.2.mono ha hb⟩
theorem Oneof.In.mono {a b a' b' : Nat} (ha : a' ≤ a) (hb : b ≤ b') :
    ∀ (i : Oneof), i.In a b → i.In a' b'
  | ⟨name, opts, fields, _, sp⟩, h => by
    simp only [Oneof.In] at h ⊢
    exact ⟨h.1.mono ha hb, fun r hr => (h.2.1 r hr).mono ha hb, fieldsIn.mono ha hb fields h.2.2.1,
      h.2.2.2.mono ha hb⟩
theorem Field.In.mono {a b a' b' : Nat} (ha : a' ≤ a) (hb : b ≤ b') :
    ∀ (i : Field), i.In a b → i.In a' b'
  | ⟨label, name, kind, number, opts, _, sp⟩, h => by
    simp only [Field.In] at h ⊢
    exact ⟨h.1.mono ha hb, h.2.1.mono ha hb, FieldKind.In.mono ha hb kind h.2.2.1, h.2.2.2.1.mono ha hb,
      h.2.2.2.2.1.mono ha hb, h.2.2.2.2.2.mono ha hb⟩
theorem FieldKind.In.mono {a b a' b' : Nat} (ha : a' ≤ a) (hb : b ≤ b') :
    ∀ (i : FieldKind), i.In a b → i.In a' b'
  | .normal ty sp, h => by simp only [FieldKind.In] at h ⊢; exact ⟨h.1.mono ha hb, h.2.mono ha hb⟩
  | .group sp body, h => by
    simp only [FieldKind.In] at h ⊢; exact ⟨h.1.mono ha hb, MessageBody.In.mono ha hb body h.2⟩
  | .map sp k ksp v vsp, h => by
    simp only [FieldKind.In] at h ⊢
    exact ⟨h.1.mono ha hb, h.2.1.mono ha hb, h.2.2.1.mono ha hb, h.2.2.2.1.mono ha hb, h.2.2.2.2.mono ha hb⟩
end

theorem itemsIn_append {a b : Nat} {l l' : List MessageItem} :
    itemsIn a b (l ++ l') ↔ itemsIn a b l ∧ itemsIn a b l' := by
  induction l with
  | nil => simp [itemsIn]
  | cons x xs ih => simp only [List.cons_append, itemsIn, ih, and_assoc]

theorem fieldsIn_append {a b : Nat} {l l' : List Field} :
    fieldsIn a b (l ++ l') ↔ fieldsIn a b l ∧ fieldsIn a b l' := by
  induction l with
  | nil => simp [fieldsIn]
  | cons x xs ih => simp only [List.cons_append, fieldsIn, ih, and_assoc]

end Verif.Ast
