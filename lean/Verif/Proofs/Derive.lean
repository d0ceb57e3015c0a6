import Verif.Proofs.Source
/-!
Every construct paired with a descriptor element is derived by the grammar from some of the tokens of the file.
-/
namespace Verif.Gen
open Verif.Ast Verif.Spec Verif.Grammar

section
variable [FloatFmt]

/-- Proves that a list is an infix of a concatenation it occurs in. -/
syntax "infx" : tactic
macro_rules | `(tactic| infx) => `(tactic| first
  | with_reducible exact List.infix_refl _
  | (refine List.IsInfix.trans ?_ (List.prefix_append _ _).isInfix; infx)
  | (refine List.IsInfix.trans ?_ (List.suffix_append _ _).isInfix; infx)
  | (refine List.IsInfix.trans ?_ (List.suffix_cons _ _).isInfix; infx))

omit [FloatFmt] in
theorem many_inv {σ : Type} {elem : List Token → σ → σ → Prop} {ts s s'} (h : Many elem ts s s') (Q : σ → Prop)
    (h0 : Q s) (hs : ∀ t a b, t <:+: ts → elem t a b → Q a → Q b) : Q s' := by
  induction h with
  | nil => exact h0
  | @cons t us a b c h1 _ ih =>
    exact ih (hs t a b (List.prefix_append _ _).isInfix h1 h0) fun t' a' b' ht =>
      hs t' a' b' (ht.trans (List.suffix_append _ _).isInfix)

/-- An element of a message body is derived. -/
def ItemG (t : List Token) : MessageItem → Prop
  | .field f => ∃ d, FieldG (BodyG d) t f
  | .enum e => EnumG t e
  | .message m => ∃ d, MessageG (BodyG d) t m
  | .extend e => ∃ d, ExtendG (BodyG d) t e
  | .oneof o => ∃ d, OneofG (BodyG d) t o

/-- Derived from consecutive tokens among `ts`. -/
def From {α : Type} (ts : List Token) (g : List Token → α → Prop) (x : α) : Prop := ∃ t, t <:+: ts ∧ g t x

omit [FloatFmt] in
theorem From.mono {α : Type} {ts us : List Token} {g : List Token → α → Prop} {x : α} (h : From ts g x) (hs : ts <:+: us) :
    From us g x := h.elim fun t ht => ⟨t, ht.1.trans hs, ht.2⟩

omit [FloatFmt] in
theorem snoc_mem {α : Type} {P : α → Prop} {l : List α} {y : α} (h : ∀ x ∈ l, P x) (hy : P y) : ∀ x ∈ l ++ [y], P x := by
  intro x hx
  rcases List.mem_append.1 hx with hx | hx
  · exact h x hx
  · cases List.mem_singleton.1 hx; exact hy

structure BodyFrom (ts : List Token) (b : MessageBody) : Prop where
  items : ∀ x ∈ b.items, From ts ItemG x
  extensions : ∀ x ∈ b.extensions, From ts ExtensionsG x
  options : ∀ x ∈ b.options, From ts OptionG x
  reserved : ∀ x ∈ b.reserved, From ts ReservedG x

theorem bodyG_from : ∀ {d ts b}, BodyG d ts b → BodyFrom ts b
  | 0, _, _, h => h.elim
  | d + 1, ts, b, h => by
    refine many_inv h (BodyFrom ts) ⟨nofun, nofun, nofun, nofun⟩ ?_
    intro t a b ht he ha
    cases he with
    | field h1 _ => exact { ha with items := snoc_mem ha.items ⟨t, ht, d, h1⟩ }
    | oneof h1 => exact { ha with items := snoc_mem ha.items ⟨t, ht, d, h1⟩ }
    | enum h1 => exact { ha with items := snoc_mem ha.items ⟨t, ht, h1⟩ }
    | message h1 => exact { ha with items := snoc_mem ha.items ⟨t, ht, d, h1⟩ }
    | extend h1 => exact { ha with items := snoc_mem ha.items ⟨t, ht, d, h1⟩ }
    | option h1 => exact { ha with options := snoc_mem ha.options ⟨t, ht, h1⟩ }
    | reserved h1 => exact { ha with reserved := snoc_mem ha.reserved ⟨t, ht, h1⟩ }
    | extensions h1 => exact { ha with extensions := snoc_mem ha.extensions ⟨t, ht, h1⟩ }
    | empty => exact ha

/-- A field derived with bodies of some depth. -/
def AField (t : List Token) (f : Field) : Prop := ∃ d, FieldG (BodyG d) t f

theorem oneofG_from {d t o} (h : OneofG (BodyG d) t o) :
    From t IdentG o.name ∧ (∀ x ∈ o.fields, From t AField x) ∧ ∀ x ∈ o.options, From t OptionG x := by
  cases h with
  | @mk is name ts os fs c sp h0 hm =>
    have hsub : ts <:+: kw b!"oneof" :: is ++ .leftBrace :: ts ++ [.rightBrace] :=
      ⟨kw b!"oneof" :: is ++ [.leftBrace], [.rightBrace], by simp⟩
    have := many_inv hm (fun p : List Opt × List Field => (∀ x ∈ p.2, From ts AField x) ∧ ∀ x ∈ p.1, From ts OptionG x)
      ⟨nofun, nofun⟩ (by
      intro t a b ht he ha
      cases he with
      | option h1 =>
        refine ⟨ha.1, fun x hx => ?_⟩
        rcases List.mem_append.1 hx with hx | hx
        · exact ha.2 x hx
        · cases List.mem_singleton.1 hx; exact ⟨t, ht, h1⟩
      | field h1 _ =>
        refine ⟨fun x hx => ?_, ha.2⟩
        rcases List.mem_append.1 hx with hx | hx
        · exact ha.1 x hx
        · cases List.mem_singleton.1 hx; exact ⟨t, ht, d, h1⟩
      | empty => exact ha)
    exact ⟨⟨is, ⟨[kw b!"oneof"], .leftBrace :: ts ++ [.rightBrace], by simp⟩, h0⟩, fun x hx => (this.1 x hx).mono hsub, fun x hx => (this.2 x hx).mono hsub⟩

theorem extendG_from {d t e} (h : ExtendG (BodyG d) t e) :
    From t TypeNameG e.extendee ∧ ∀ x ∈ e.fields, From t AField x := by
  cases h with
  | @mk ns ty ts fs c sp h0 hm =>
    have hsub : ts <:+: kw b!"extend" :: ns ++ .leftBrace :: ts ++ [.rightBrace] :=
      ⟨kw b!"extend" :: ns ++ [.leftBrace], [.rightBrace], by simp⟩
    have := many_inv hm (fun p : List Field => (∀ x ∈ p, From ts AField x)) nofun (by
      intro t a b ht he ha
      cases he with
      | field h1 =>
        intro x hx
        rcases List.mem_append.1 hx with hx | hx
        · exact ha x hx
        · cases List.mem_singleton.1 hx; exact ⟨t, ht, d, h1⟩
      | empty => exact ha)
    exact ⟨⟨ns, ⟨[kw b!"extend"], .leftBrace :: ts ++ [.rightBrace], by simp⟩, h0⟩, fun x hx => (this x hx).mono hsub⟩

/-- The grammar of a file item. -/
def FileItemG (t : List Token) : FileItem → Prop
  | .message m => MessageG AnyBodyG t m
  | .enum e => EnumG t e
  | .extend e => ExtendG AnyBodyG t e
  | .service s => ServiceG t s

structure FileFrom (ts : List Token) (f : File) : Prop where
  package : ∀ p, f.package = some p → From ts PackageG p
  imports : ∀ x ∈ f.imports, From ts ImportG x
  options : ∀ x ∈ f.options, From ts OptionG x
  items : ∀ x ∈ f.items, From ts FileItemG x

theorem statements_from {ts : List Token} {p : Parts} (h : Many StatementG ts {} p) :
    (∀ x, p.package = some x → From ts PackageG x) ∧ (∀ x ∈ p.imports, From ts ImportG x) ∧
    (∀ x ∈ p.options, From ts OptionG x) ∧ ∀ x ∈ p.items, From ts FileItemG x := by
  refine many_inv h (fun p => (∀ x, p.package = some x → From ts PackageG x) ∧ (∀ x ∈ p.imports, From ts ImportG x) ∧
    (∀ x ∈ p.options, From ts OptionG x) ∧ ∀ x ∈ p.items, From ts FileItemG x) ⟨nofun, nofun, nofun, nofun⟩ ?_
  intro t a b ht he ha
  obtain ⟨a1, a2, a3, a4⟩ := ha
  cases he with
  | package h1 _ => exact ⟨fun x hx => by cases hx; exact ⟨t, ht, h1⟩, a2, a3, a4⟩
  | import' h1 =>
    refine ⟨a1, fun x hx => ?_, a3, a4⟩
    rcases List.mem_append.1 hx with hx | hx
    · exact a2 x hx
    · cases List.mem_singleton.1 hx; exact ⟨t, ht, h1⟩
  | option h1 =>
    refine ⟨a1, a2, fun x hx => ?_, a4⟩
    rcases List.mem_append.1 hx with hx | hx
    · exact a3 x hx
    · cases List.mem_singleton.1 hx; exact ⟨t, ht, h1⟩
  | message h1 | enum h1 | extend h1 | service h1 =>
    refine ⟨a1, a2, a3, fun x hx => ?_⟩
    rcases List.mem_append.1 hx with hx | hx
    · exact a4 x hx
    · cases List.mem_singleton.1 hx; exact ⟨t, ht, h1⟩
  | empty => exact ⟨a1, a2, a3, a4⟩

theorem fileG_from {ts : List Token} {f : File} (h : FileG ts f) : FileFrom ts f := by
  cases h with
  | noSyntax hm => exact ⟨(statements_from hm).1, (statements_from hm).2.1, (statements_from hm).2.2.1, (statements_from hm).2.2.2⟩
  | withSyntax _ hm =>
    have := statements_from hm
    have hs := fun a b : List Token => (List.suffix_append a b).isInfix
    exact ⟨fun p hp => (this.1 p hp).mono (hs _ _), fun x hx => (this.2.1 x hx).mono (hs _ _),
      fun x hx => (this.2.2.1 x hx).mono (hs _ _), fun x hx => (this.2.2.2 x hx).mono (hs _ _)⟩

/-- A message derived with bodies of some depth. -/
def AMessage (t : List Token) (m : Message) : Prop := ∃ d, MessageG (BodyG d) t m

/-- What a message descriptor was made from is derived. -/
def SrcFrom (ts : List Token) : MsgSrc → Prop
  | .message m => From ts AMessage m
  | .group f b => From ts AField f ∧ ∃ sp, f.kind = .group sp b
  | .map f k v => From ts AField f ∧ ∃ a b c, f.kind = .map a k b v c

theorem fieldG_any {t : List Token} {f : Field} (h : FieldG AnyBodyG t f) : AField t f := by
  cases h with
  | normal h1 h2 h3 h4 h5 h6 h7 => exact ⟨0, .normal h1 h2 h3 h4 h5 h6 h7⟩
  | map h1 h2 h3 h4 h5 h6 => exact ⟨0, .map h1 h2 h3 h4 h5 h6⟩
  | group h1 h2 h3 h4 h5 h6 => obtain ⟨d, h6⟩ := h6; exact ⟨d, .group h1 h2 h3 h4 h5 h6⟩

theorem messageG_any {t : List Token} {m : Message} (h : MessageG AnyBodyG t m) : AMessage t m := by
  cases h with
  | mk h1 h2 => obtain ⟨d, h2⟩ := h2; exact ⟨d, .mk h1 h2⟩

theorem extendG_any {t e} (h : ExtendG AnyBodyG t e) : From t TypeNameG e.extendee ∧ ∀ x ∈ e.fields, From t AField x := by
  cases h with
  | @mk ns ty ts fs c sp h0 hm =>
    have hsub : ts <:+: kw b!"extend" :: ns ++ .leftBrace :: ts ++ [.rightBrace] :=
      ⟨kw b!"extend" :: ns ++ [.leftBrace], [.rightBrace], by simp⟩
    have := many_inv hm (fun p : List Field => (∀ x ∈ p, From ts AField x)) nofun (by
      intro t a b ht he ha
      cases he with
      | field h1 => exact snoc_mem ha ⟨t, ht, fieldG_any h1⟩
      | empty => exact ha)
    exact ⟨⟨ns, ⟨[kw b!"extend"], .leftBrace :: ts ++ [.rightBrace], by simp⟩, h0⟩, fun x hx => (this x hx).mono hsub⟩

theorem fieldMsgs_from {ts : List Token} {f : Field} (h : From ts AField f) : ∀ x ∈ fieldMsgs f, SrcFrom ts x := by
  intro x hx
  unfold fieldMsgs at hx
  split at hx
  · cases hx
  · rename_i heq; cases List.mem_singleton.1 hx; exact ⟨h, _, heq⟩
  · rename_i heq; cases List.mem_singleton.1 hx; exact ⟨h, _, _, _, heq⟩

theorem itemMsgs_from {ts : List Token} {x : MessageItem} (h : From ts ItemG x) : ∀ y ∈ itemMsgs x, SrcFrom ts y := by
  obtain ⟨t, ht, h⟩ := h
  intro y hy
  cases x with
  | field f => exact fieldMsgs_from ⟨t, ht, h⟩ y hy
  | enum e => cases hy
  | message m => cases List.mem_singleton.1 hy; exact ⟨t, ht, h⟩
  | extend e =>
    obtain ⟨d, h⟩ := h
    obtain ⟨f, hf, hy⟩ := List.mem_flatMap.1 hy
    exact fieldMsgs_from (((extendG_from h).2 f hf).mono ht) y hy
  | oneof o =>
    obtain ⟨d, h⟩ := h
    obtain ⟨f, hf, hy⟩ := List.mem_flatMap.1 hy
    exact fieldMsgs_from (((oneofG_from h).2.1 f hf).mono ht) y hy

/-- The body of a derived source is derived. -/
theorem srcFrom_body {ts : List Token} {s : MsgSrc} (h : SrcFrom ts s) {b} (hb : s.body = some b) : BodyFrom ts b := by
  have mono : ∀ {us}, BodyFrom us b → us <:+: ts → BodyFrom ts b := fun hb hs =>
    ⟨fun x hx => (hb.items x hx).mono hs, fun x hx => (hb.extensions x hx).mono hs,
      fun x hx => (hb.options x hx).mono hs, fun x hx => (hb.reserved x hx).mono hs⟩
  cases s with
  | message m =>
    obtain ⟨t, ht, d, h⟩ := h
    cases h with
    | @mk is _ us _ _ _ h1 h2 =>
      cases hb
      exact mono (bodyG_from h2) (List.IsInfix.trans
        ⟨kw b!"message" :: is ++ [.leftBrace], [.rightBrace], by simp⟩ ht)
  | group f b' =>
    obtain ⟨⟨t, ht, d, h⟩, sp, hk⟩ := h
    cases hb
    cases h with
    | normal => cases hk
    | map => cases hk
    | group h1 h2 h3 h4 h5 h6 =>
      cases hk
      refine mono (bodyG_from h6) (List.IsInfix.trans ?_ ht)
      infx
  | map => cases hb

theorem msgAt_from {ts : List Token} {f : File} (hf : FileG ts f) {fd p x d} (hm : MsgAt f fd p x d) : SrcFrom ts x := by
  have hff := fileG_from hf
  induction hm with
  | top h1 h2 =>
    have := List.mem_of_getElem? h1
    obtain ⟨i, hi, hx⟩ := List.mem_flatMap.1 this
    obtain ⟨t, ht, h⟩ := hff.items i hi
    cases i with
    | message m => cases List.mem_singleton.1 hx; exact ⟨t, ht, messageG_any h⟩
    | enum => cases hx
    | service => cases hx
    | extend e =>
      obtain ⟨g, hg, hy⟩ := List.mem_flatMap.1 hx
      exact fieldMsgs_from (((extendG_any h).2 g hg).mono ht) _ hy
  | nested _ hb h1 h2 ih =>
    obtain ⟨i, hi, hx⟩ := List.mem_flatMap.1 (List.mem_of_getElem? h1)
    exact itemMsgs_from ((srcFrom_body ih hb).items i hi) _ hx

/-- Where a field is written is derived. -/
def PlaceFrom (ts : List Token) : Place → Prop
  | .extend t => From ts TypeNameG t
  | _ => True

theorem fieldsFrom_from {ts : List Token} : ∀ (k : Nat) (xs : List MessageItem), (∀ x ∈ xs, From ts ItemG x) →
    ∀ y ∈ fieldsFrom k xs, PlaceFrom ts y.1 ∧ From ts AField y.2
  | _, [], _, y, hy => by cases hy
  | k, .field g :: xs, h, y, hy => by
    rcases List.mem_cons.1 hy with rfl | hy
    · exact ⟨trivial, h _ (.head _)⟩
    · exact fieldsFrom_from k xs (fun x hx => h x (.tail _ hx)) y hy
  | k, .oneof o :: xs, h, y, hy => by
    simp only [fieldsFrom, List.mem_append, List.mem_map] at hy
    rcases hy with ⟨g, hg, rfl⟩ | hy
    · obtain ⟨t, ht, d, h⟩ := h _ (.head _)
      exact ⟨trivial, ((oneofG_from h).2.1 g hg).mono ht⟩
    · exact fieldsFrom_from (k + 1) xs (fun x hx => h x (.tail _ hx)) y hy
  | k, .enum _ :: xs, h, y, hy => fieldsFrom_from k xs (fun x hx => h x (.tail _ hx)) y hy
  | k, .message _ :: xs, h, y, hy => fieldsFrom_from k xs (fun x hx => h x (.tail _ hx)) y hy
  | k, .extend _ :: xs, h, y, hy => fieldsFrom_from k xs (fun x hx => h x (.tail _ hx)) y hy

theorem fieldAt_from {ts : List Token} {f : File} (hf : FileG ts f) {fd p pl x d} (h : FieldAt f fd p pl x d) :
    PlaceFrom ts pl ∧ From ts AField x := by
  cases h with
  | field hm hb h1 h2 =>
    exact fieldsFrom_from 0 _ (srcFrom_body (msgAt_from hf hm) hb).items _ (List.mem_of_getElem? h1)
  | ext hm hb h1 h2 =>
    obtain ⟨i, hi, hmem⟩ := List.mem_flatMap.1 (List.mem_of_getElem? h1)
    obtain ⟨t, ht, h⟩ := (srcFrom_body (msgAt_from hf hm) hb).items i hi
    cases i with
    | extend e =>
      obtain ⟨g, hg, hx⟩ := List.mem_map.1 hmem
      injection hx with hx1 hx2
      subst hx1; subst hx2
      obtain ⟨d, h⟩ := h
      exact ⟨(extendG_from h).1.mono ht, ((extendG_from h).2 g hg).mono ht⟩
    | _ => cases hmem
  | fileExt h1 h2 =>
    obtain ⟨i, hi, hmem⟩ := List.mem_flatMap.1 (List.mem_of_getElem? h1)
    obtain ⟨t, ht, h⟩ := (fileG_from hf).items i hi
    cases i with
    | extend e =>
      obtain ⟨g, hg, hx⟩ := List.mem_map.1 hmem
      injection hx with hx1 hx2
      subst hx1; subst hx2
      exact ⟨(extendG_any h).1.mono ht, ((extendG_any h).2 g hg).mono ht⟩
    | _ => cases hmem

theorem enumAt_from {ts : List Token} {f : File} (hf : FileG ts f) {fd p e d} (h : EnumAt f fd p e d) :
    From ts EnumG e := by
  cases h with
  | top h1 h2 =>
    obtain ⟨i, hi, hmem⟩ := List.mem_filterMap.1 (List.mem_of_getElem? h1)
    have h := (fileG_from hf).items i hi
    cases i with
    | enum e => cases hmem; exact h
    | _ => cases hmem
  | nested hm hb h1 h2 =>
    obtain ⟨i, hi, hmem⟩ := List.mem_filterMap.1 (List.mem_of_getElem? h1)
    have h := (srcFrom_body (msgAt_from hf hm) hb).items i hi
    cases i with
    | enum e => cases hmem; exact h
    | _ => cases hmem

theorem serviceAt_from {ts : List Token} {f : File} (hf : FileG ts f) {fd p e d} (h : ServiceAt f fd p e d) :
    From ts ServiceG e := by
  cases h with
  | mk h1 h2 =>
    obtain ⟨i, hi, hmem⟩ := List.mem_filterMap.1 (List.mem_of_getElem? h1)
    have h := (fileG_from hf).items i hi
    cases i with
    | service e => cases hmem; exact h
    | _ => cases hmem

omit [FloatFmt] in
theorem sepBy_mem {α : Type} {sep : Token} {item : List Token → α → Prop} {ts as} (h : SepBy sep item ts as) :
    ∀ a ∈ as, From ts item a := by
  induction h with
  | one h => intro a ha; cases List.mem_singleton.1 ha; exact ⟨_, List.infix_refl _, h⟩
  | cons h _ ih =>
    intro a ha
    rcases List.mem_cons.1 ha with rfl | ha
    · exact ⟨_, (List.prefix_append _ _).isInfix, h⟩
    · exact (ih a ha).mono ((List.suffix_cons _ _).trans (List.suffix_append _ _)).isInfix

/-- The option list of a field is derived. -/
theorem aField_options {t : List Token} {x : Field} (h : AField t x) : From t OptListG x.options ∧ From t IntG x.number := by
  obtain ⟨d, h⟩ := h
  cases h with
  | normal h1 h2 h3 h4 h5 h6 h7 => exact ⟨⟨_, by infx, h5⟩, ⟨_, by infx, h4⟩⟩
  | map h1 h2 h3 h4 h5 h6 => exact ⟨⟨_, by infx, h6⟩, ⟨_, by infx, h5⟩⟩
  | group h1 h2 h3 h4 h5 h6 => exact ⟨⟨_, by infx, h5⟩, ⟨_, by infx, h4⟩⟩

/-- The options in brackets. -/
def listed' : Option OptionList → List OptionBody
  | none => []
  | some l => l.options

theorem optList_mem {t : List Token} {l : Option OptionList} (h : OptListG t l) : ∀ o ∈ listed' l, From t OptionBodyG o := by
  cases h with
  | none => nofun
  | some h => intro o ho; exact (sepBy_mem h o ho).mono ⟨[.leftBracket], [.rightBracket], by simp⟩

end
end Verif.Gen
