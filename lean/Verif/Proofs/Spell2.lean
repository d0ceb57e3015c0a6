import Verif.Proofs.Spell1
import Verif.Proofs.Derive
/-!
Every construct paired with a descriptor element is derived by the grammar with places from consecutive tokens of the file.
-/
namespace Verif.Spell
open Verif.Ast Verif.Spec Verif.Places
open Verif.Grammar (kw scalars Parts)
open Verif.Gen (snoc_mem)

section
variable [FloatFmt]

omit [FloatFmt] in
theorem many_inv {σ : Type} {elem : List ATok → σ → σ → Prop} {ts s s'} (h : Many elem ts s s') (Q : σ → Prop)
    (h0 : Q s) (hs : ∀ t a b, t <:+: ts → elem t a b → Q a → Q b) : Q s' := by
  induction h with
  | nil => exact h0
  | @cons t us a b c h1 _ ih =>
    exact ih (hs t a b (List.prefix_append _ _).isInfix h1 h0) fun t' a' b' ht =>
      hs t' a' b' (ht.trans (List.suffix_append _ _).isInfix)

/-- An element of a message body is derived. -/
def ItemG (t : List ATok) : MessageItem → Prop
  | .field f => ∃ d, FieldG (BodyG d) t f
  | .enum e => EnumG t e
  | .message m => ∃ d, MessageG (BodyG d) t m
  | .extend e => ∃ d, ExtendG (BodyG d) t e
  | .oneof o => ∃ d, OneofG (BodyG d) t o

structure BodyFrom (ts : List ATok) (b : MessageBody) : Prop where
  items : ∀ x ∈ b.items, From ts ItemG x
  extensions : ∀ x ∈ b.extensions, From ts ExtensionsG x
  reserved : ∀ x ∈ b.reserved, From ts ReservedG x
  options : ∀ x ∈ b.options, From ts OptionG x

theorem bodyG_from : ∀ {d ts b}, BodyG d ts b → BodyFrom ts b
  | 0, _, _, h => h.elim
  | d + 1, ts, b, h => by
    refine many_inv h (BodyFrom ts) ⟨nofun, nofun, nofun, nofun⟩ ?_
    intro t a b ht he ha
    cases he with
    | field h1 _ => exact { ha with items := snoc_mem ha.items ⟨t, ht, d, h1⟩ }
    | oneof h1 => exact { ha with items := snoc_mem ha.items ⟨t, ht, d, h1⟩ }
    | enum h1 => exact { ha with items := snoc_mem ha.items ⟨t, ht, h1⟩ }
    | message h1 => exact { ha with items := snoc_mem ha.items ⟨t, ht, d, h1⟩ }
    | extend h1 => exact { ha with items := snoc_mem ha.items ⟨t, ht, d, h1⟩ }
    | option h1 => exact { ha with options := snoc_mem ha.options ⟨t, ht, h1⟩ }
    | reserved h1 => exact { ha with reserved := snoc_mem ha.reserved ⟨t, ht, h1⟩ }
    | extensions h1 => exact { ha with extensions := snoc_mem ha.extensions ⟨t, ht, h1⟩ }
    | empty => exact ha

/-- A field derived with bodies of some depth. -/
def AField (t : List ATok) (f : Field) : Prop := ∃ d, FieldG (BodyG d) t f

theorem fieldG_any {t : List ATok} {f : Field} (h : FieldG AnyBodyG t f) : AField t f := by
  cases h with
  | normal h1 h2 h3 h4 h5 h6 h7 h8 h9 => exact ⟨0, .normal h1 h2 h3 h4 h5 h6 h7 h8 h9⟩
  | map h1 h2 h3 h4 h5 h6 h7 h8 h9 h10 h11 h12 => exact ⟨0, .map h1 h2 h3 h4 h5 h6 h7 h8 h9 h10 h11 h12⟩
  | group h1 h2 h3 h4 h5 h6 h7 h8 h9 h10 => obtain ⟨d, h9⟩ := h9; exact ⟨d, .group h1 h2 h3 h4 h5 h6 h7 h8 h9 h10⟩

omit [FloatFmt] in
theorem braces {k o z : ATok} {is ts : List ATok} : ts <:+: k :: is ++ o :: ts ++ [z] := ⟨k :: is ++ [o], [z], by simp⟩

theorem oneofG_from {d t o} (h : OneofG (BodyG d) t o) : ∀ x ∈ o.fields, From t AField x := by
  cases h with
  | mk h0 h1 h2 hm hz =>
    have := many_inv hm (fun p : List Opt × List Field => ∀ x ∈ p.2, From _ AField x) nofun (by
      intro t a b ht he ha
      cases he with
      | option h1 => exact ha
      | field h1 _ => exact snoc_mem ha ⟨t, ht, d, h1⟩
      | empty => exact ha)
    exact fun x hx => (this x hx).mono braces

theorem extendG_from {body t e} (hb : ∀ {t f}, FieldG body t f → AField t f) (h : ExtendG body t e) :
    From t TypeNameG e.extendee ∧ ∀ x ∈ e.fields, From t AField x := by
  cases h with
  | mk h0 h1 h2 hm hz =>
    have := many_inv hm (fun p : List Field => ∀ x ∈ p, From _ AField x) nofun (by
      intro t a b ht he ha
      cases he with
      | field h1 => exact snoc_mem ha ⟨t, ht, hb h1⟩
      | empty => exact ha)
    exact ⟨⟨_, ⟨[_], _, by simp only [List.cons_append, List.nil_append, List.append_assoc]; rfl⟩, h1⟩, fun x hx => (this x hx).mono braces⟩

/-- The grammar of a file item. -/
def FileItemG (t : List ATok) : FileItem → Prop
  | .message m => MessageG AnyBodyG t m
  | .enum e => EnumG t e
  | .extend e => ExtendG AnyBodyG t e
  | .service s => ServiceG t s

structure FileFrom (ts : List ATok) (f : File) : Prop where
  package : ∀ p, f.package = some p → From ts PackageG p
  imports : ∀ x ∈ f.imports, From ts ImportG x
  options : ∀ x ∈ f.options, From ts OptionG x
  items : ∀ x ∈ f.items, From ts FileItemG x
  syn : ∀ x, f.syntaxSpan = some x → From ts (fun t y => SyntaxG t f.syntax' y) x

theorem statements_from {ts : List ATok} {p : Parts} (h : Many StatementG ts {} p) :
    (∀ x, p.package = some x → From ts PackageG x) ∧ (∀ x ∈ p.imports, From ts ImportG x) ∧
    (∀ x ∈ p.options, From ts OptionG x) ∧ ∀ x ∈ p.items, From ts FileItemG x := by
  refine many_inv h (fun p => (∀ x, p.package = some x → From ts PackageG x) ∧ (∀ x ∈ p.imports, From ts ImportG x) ∧
    (∀ x ∈ p.options, From ts OptionG x) ∧ ∀ x ∈ p.items, From ts FileItemG x) ⟨nofun, nofun, nofun, nofun⟩ ?_
  intro t a b ht he ha
  obtain ⟨a1, a2, a3, a4⟩ := ha
  cases he with
  | package h1 _ => exact ⟨fun x hx => by cases hx; exact ⟨t, ht, h1⟩, a2, a3, a4⟩
  | import' h1 => exact ⟨a1, snoc_mem a2 ⟨t, ht, h1⟩, a3, a4⟩
  | option h1 => exact ⟨a1, a2, snoc_mem a3 ⟨t, ht, h1⟩, a4⟩
  | message h1 | enum h1 | extend h1 | service h1 => exact ⟨a1, a2, a3, snoc_mem a4 ⟨t, ht, h1⟩⟩
  | empty => exact ⟨a1, a2, a3, a4⟩

theorem fileG_from {len : Nat} {ts : List ATok} {f : File} (h : FileG len ts f) : FileFrom ts f := by
  cases h with
  | noSyntax hm =>
    have := statements_from hm
    exact ⟨this.1, this.2.1, this.2.2.1, this.2.2.2, nofun⟩
  | @withSyntax ss s ssp ts p h1 hm =>
    have := statements_from hm
    have hs := fun a b : List ATok => (List.suffix_append a b).isInfix
    exact ⟨fun p hp => (this.1 p hp).mono (hs _ _), fun x hx => (this.2.1 x hx).mono (hs _ _),
      fun x hx => (this.2.2.1 x hx).mono (hs _ _), fun x hx => (this.2.2.2 x hx).mono (hs _ _),
      fun x hx => by cases hx; exact ⟨ss, (List.prefix_append _ _).isInfix, h1⟩⟩

/-- A message derived with bodies of some depth. -/
def AMessage (t : List ATok) (m : Message) : Prop := ∃ d, MessageG (BodyG d) t m

/-- What a message descriptor was made from is derived. -/
def SrcFrom (ts : List ATok) : MsgSrc → Prop
  | .message m => From ts AMessage m
  | .group f b => From ts AField f ∧ ∃ sp, f.kind = .group sp b
  | .map f k v => From ts AField f ∧ ∃ a b c, f.kind = .map a k b v c

theorem messageG_any {t : List ATok} {m : Message} (h : MessageG AnyBodyG t m) : AMessage t m := by
  cases h with
  | mk h1 h2 h3 h4 h5 => obtain ⟨d, h4⟩ := h4; exact ⟨d, .mk h1 h2 h3 h4 h5⟩

theorem fieldMsgs_from {ts : List ATok} {f : Field} (h : From ts AField f) : ∀ x ∈ fieldMsgs f, SrcFrom ts x := by
  intro x hx
  unfold fieldMsgs at hx
  split at hx
  · cases hx
  · rename_i heq; cases List.mem_singleton.1 hx; exact ⟨h, _, heq⟩
  · rename_i heq; cases List.mem_singleton.1 hx; exact ⟨h, _, _, _, heq⟩

theorem itemMsgs_from {ts : List ATok} {x : MessageItem} (h : From ts ItemG x) : ∀ y ∈ itemMsgs x, SrcFrom ts y := by
  obtain ⟨t, ht, h⟩ := h
  intro y hy
  cases x with
  | field f => exact fieldMsgs_from ⟨t, ht, h⟩ y hy
  | enum e => cases hy
  | message m => cases List.mem_singleton.1 hy; exact ⟨t, ht, h⟩
  | extend e =>
    obtain ⟨d, h⟩ := h
    obtain ⟨f, hf, hy⟩ := List.mem_flatMap.1 hy
    exact fieldMsgs_from (((extendG_from (fun h => ⟨d, h⟩) h).2 f hf).mono ht) y hy
  | oneof o =>
    obtain ⟨d, h⟩ := h
    obtain ⟨f, hf, hy⟩ := List.mem_flatMap.1 hy
    exact fieldMsgs_from ((oneofG_from h f hf).mono ht) y hy

/-- The body of a derived source is derived. -/
theorem srcFrom_body {ts : List ATok} {s : MsgSrc} (h : SrcFrom ts s) {b} (hb : s.body = some b) : BodyFrom ts b := by
  have mono : ∀ {us}, BodyFrom us b → us <:+: ts → BodyFrom ts b := fun hb hs =>
    ⟨fun x hx => (hb.items x hx).mono hs, fun x hx => (hb.extensions x hx).mono hs,
      fun x hx => (hb.reserved x hx).mono hs, fun x hx => (hb.options x hx).mono hs⟩
  cases s with
  | message m =>
    obtain ⟨t, ht, d, h⟩ := h
    cases h with
    | mk h1 h2 h3 h4 h5 =>
      cases hb
      exact mono (bodyG_from h4) (List.IsInfix.trans braces ht)
  | group f b' =>
    obtain ⟨⟨t, ht, d, h⟩, sp, hk⟩ := h
    cases hb
    cases h with
    | normal => cases hk
    | map => cases hk
    | group h1 h2 h3 h4 h5 h6 h7 h8 h9 h10 =>
      cases hk
      refine mono (bodyG_from h9) (List.IsInfix.trans ?_ ht)
      infx
  | map => cases hb

variable {len : Nat}

theorem msgAt_from {ts : List ATok} {f : File} (hf : FileG len ts f) {fd p x d} (hm : MsgAt f fd p x d) : SrcFrom ts x := by
  have hff := fileG_from hf
  induction hm with
  | top h1 h2 =>
    have := List.mem_of_getElem? h1
    obtain ⟨i, hi, hx⟩ := List.mem_flatMap.1 this
    obtain ⟨t, ht, h⟩ := hff.items i hi
    cases i with
    | message m => cases List.mem_singleton.1 hx; exact ⟨t, ht, messageG_any h⟩
    | enum => cases hx
    | service => cases hx
    | extend e =>
      obtain ⟨g, hg, hy⟩ := List.mem_flatMap.1 hx
      exact fieldMsgs_from (((extendG_from fieldG_any h).2 g hg).mono ht) _ hy
  | nested _ hb h1 h2 ih =>
    obtain ⟨i, hi, hx⟩ := List.mem_flatMap.1 (List.mem_of_getElem? h1)
    exact itemMsgs_from ((srcFrom_body ih hb).items i hi) _ hx

/-- Where a field is written is derived. -/
def PlaceFrom (ts : List ATok) : Place → Prop
  | .extend t => From ts TypeNameG t
  | _ => True

theorem fieldsFrom_from {ts : List ATok} : ∀ (k : Nat) (xs : List MessageItem), (∀ x ∈ xs, From ts ItemG x) →
    ∀ y ∈ fieldsFrom k xs, PlaceFrom ts y.1 ∧ From ts AField y.2
  | _, [], _, y, hy => by cases hy
  | k, .field g :: xs, h, y, hy => by
    rcases List.mem_cons.1 hy with rfl | hy
    · exact ⟨trivial, h _ (.head _)⟩
    · exact fieldsFrom_from k xs (fun x hx => h x (.tail _ hx)) y hy
  | k, .oneof o :: xs, h, y, hy => by
    simp only [fieldsFrom, List.mem_append, List.mem_map] at hy
    rcases hy with ⟨g, hg, rfl⟩ | hy
    · obtain ⟨t, ht, d, h⟩ := h _ (.head _)
      exact ⟨trivial, (oneofG_from h g hg).mono ht⟩
    · exact fieldsFrom_from (k + 1) xs (fun x hx => h x (.tail _ hx)) y hy
  | k, .enum _ :: xs, h, y, hy => fieldsFrom_from k xs (fun x hx => h x (.tail _ hx)) y hy
  | k, .message _ :: xs, h, y, hy => fieldsFrom_from k xs (fun x hx => h x (.tail _ hx)) y hy
  | k, .extend _ :: xs, h, y, hy => fieldsFrom_from k xs (fun x hx => h x (.tail _ hx)) y hy

theorem fieldAt_from {ts : List ATok} {f : File} (hf : FileG len ts f) {fd p pl x d} (h : FieldAt f fd p pl x d) :
    PlaceFrom ts pl ∧ From ts AField x := by
  cases h with
  | field hm hb h1 h2 =>
    exact fieldsFrom_from 0 _ (srcFrom_body (msgAt_from hf hm) hb).items _ (List.mem_of_getElem? h1)
  | ext hm hb h1 h2 =>
    obtain ⟨i, hi, hmem⟩ := List.mem_flatMap.1 (List.mem_of_getElem? h1)
    obtain ⟨t, ht, h⟩ := (srcFrom_body (msgAt_from hf hm) hb).items i hi
    cases i with
    | extend e =>
      obtain ⟨g, hg, hx⟩ := List.mem_map.1 hmem
      injection hx with hx1 hx2
      subst hx1; subst hx2
      obtain ⟨d, h⟩ := h
      have := extendG_from (fun h => ⟨d, h⟩) h
      exact ⟨this.1.mono ht, (this.2 g hg).mono ht⟩
    | _ => cases hmem
  | fileExt h1 h2 =>
    obtain ⟨i, hi, hmem⟩ := List.mem_flatMap.1 (List.mem_of_getElem? h1)
    obtain ⟨t, ht, h⟩ := (fileG_from hf).items i hi
    cases i with
    | extend e =>
      obtain ⟨g, hg, hx⟩ := List.mem_map.1 hmem
      injection hx with hx1 hx2
      subst hx1; subst hx2
      have := extendG_from fieldG_any h
      exact ⟨this.1.mono ht, (this.2 g hg).mono ht⟩
    | _ => cases hmem

theorem enumAt_from {ts : List ATok} {f : File} (hf : FileG len ts f) {fd p e d} (h : EnumAt f fd p e d) :
    From ts EnumG e := by
  cases h with
  | top h1 h2 =>
    obtain ⟨i, hi, hmem⟩ := List.mem_filterMap.1 (List.mem_of_getElem? h1)
    have h := (fileG_from hf).items i hi
    cases i with
    | enum e => cases hmem; exact h
    | _ => cases hmem
  | nested hm hb h1 h2 =>
    obtain ⟨i, hi, hmem⟩ := List.mem_filterMap.1 (List.mem_of_getElem? h1)
    have h := (srcFrom_body (msgAt_from hf hm) hb).items i hi
    cases i with
    | enum e => cases hmem; exact h
    | _ => cases hmem

theorem serviceAt_from {ts : List ATok} {f : File} (hf : FileG len ts f) {fd p e d} (h : ServiceAt f fd p e d) :
    From ts ServiceG e := by
  cases h with
  | mk h1 h2 =>
    obtain ⟨i, hi, hmem⟩ := List.mem_filterMap.1 (List.mem_of_getElem? h1)
    have h := (fileG_from hf).items i hi
    cases i with
    | service e => cases hmem; exact h
    | _ => cases hmem

omit [FloatFmt] in
theorem sepBy_mem {α : Type} {sep : Token} {item : List ATok → α → Prop} {ts as} (h : SepBy sep item ts as) :
    ∀ a ∈ as, From ts item a := by
  induction h with
  | one h => intro a ha; cases List.mem_singleton.1 ha; exact ⟨_, List.infix_refl _, h⟩
  | cons h _ _ ih =>
    intro a ha
    rcases List.mem_cons.1 ha with rfl | ha
    · exact ⟨_, (List.prefix_append _ _).isInfix, h⟩
    · exact (ih a ha).mono ((List.suffix_cons _ _).trans (List.suffix_append _ _)).isInfix

theorem optList_mem {t : List ATok} {l : Option OptionList} (h : OptListG t l) : ∀ o ∈ listed l, From t OptionBodyG o := by
  cases h with
  | none => nofun
  | @some l ts r os _ h _ => intro o ho; exact (sepBy_mem h o ho).mono ⟨[l], [r], by simp⟩

end
end Verif.Spell
