import Verif.Spec.Places
import Verif.Proofs.Gen5
/-!
Statements that share a path in the source info begin at different places.
-/
namespace Verif.Dist
open Verif.Ast Verif.Spec Verif.Places Verif.Gen

def st (ts : List ATok) : List Nat := ts.map fun a => a.span.start

/-- The tokens begin at increasing offsets. -/
def Inc (ts : List ATok) : Prop := (st ts).Pairwise (· < ·)

theorem Inc.sub {a b : List ATok} (h : Inc b) (hs : a.Sublist b) : Inc a := List.Pairwise.sublist (hs.map _) h

theorem nodup_of {l : List Nat} {ts : List ATok} (h : Inc ts) (hs : l.Sublist (st ts)) : l.Nodup :=
  (List.Pairwise.sublist hs h).imp fun h => Nat.ne_of_lt h

def optsD (os : List Opt) : Prop := (os.map fun o => o.span.start).Nodup
def resD (os : List Reserved) : Prop := (os.map fun o => o.span.start).Nodup
def extsD (os : List Extensions) : Prop := (os.map fun o => o.span.start).Nodup
def bodyD (o : OptionBody) : Prop := (ospan o).start ≠ o.value.span.start
def listD (o : Option OptionList) : Prop := ∀ l, o = some l → ∀ b ∈ l.options, bodyD b
def enumD (e : Enum) : Prop := optsD e.options ∧ resD e.reserved
def methodD (x : Method) : Prop := optsD x.options
def serviceD (x : Service) : Prop := optsD x.options ∧ ∀ m ∈ x.methods, methodD m
def extStart : MessageItem → List Nat
  | .extend e => [e.span.start]
  | _ => []
def extStarts (l : List MessageItem) : List Nat := l.flatMap extStart

mutual
def MessageBodyD : MessageBody → Prop
  | ⟨items, exts, opts, res⟩ => itemsD items ∧ (extStarts items).Nodup ∧ extsD exts ∧ optsD opts ∧ resD res
def itemsD : List MessageItem → Prop
  | [] => True
  | x :: xs => MessageItemD x ∧ itemsD xs
def fieldsD : List Field → Prop
  | [] => True
  | x :: xs => FieldD x ∧ fieldsD xs
def MessageItemD : MessageItem → Prop
  | .field f => FieldD f
  | .enum e => enumD e
  | .message m => MessageD m
  | .extend e => ExtendD e
  | .oneof o => OneofD o
def MessageD : Message → Prop
  | ⟨_, body, _, _⟩ => MessageBodyD body
def ExtendD : Extend → Prop
  | ⟨_, fields, _, _⟩ => fieldsD fields
def OneofD : Oneof → Prop
  | ⟨_, opts, fields, _, _⟩ => optsD opts ∧ fieldsD fields
def FieldD : Field → Prop
  | ⟨_, _, kind, _, opts, _, _⟩ => FieldKindD kind ∧ listD opts
def FieldKindD : FieldKind → Prop
  | .normal _ _ => True
  | .group _ body => MessageBodyD body
  | .map _ _ _ _ _ => True
end

def FileItemD : FileItem → Prop
  | .enum e => enumD e
  | .message x => MessageD x
  | .extend e => ExtendD e
  | .service s => serviceD s
def fextStart : FileItem → List Nat
  | .extend e => [e.span.start]
  | _ => []
def fextStarts (l : List FileItem) : List Nat := l.flatMap fextStart
structure FileD (f : File) : Prop where
  items : ∀ i ∈ f.items, FileItemD i
  exts : (fextStarts f.items).Nodup
  opts : optsD f.options

theorem itemsD_iff {l : List MessageItem} : itemsD l ↔ ∀ x ∈ l, MessageItemD x := by
  induction l with
  | nil => simp [itemsD]
  | cons x xs ih => simp [itemsD, ih]

theorem fieldsD_iff {l : List Field} : fieldsD l ↔ ∀ x ∈ l, FieldD x := by
  induction l with
  | nil => simp [fieldsD]
  | cons x xs ih => simp [fieldsD, ih]

/-! ### From the grammar -/

theorem many_proj {σ : Type} {elem : List ATok → σ → σ → Prop} (g : σ → List Nat)
    (hs : ∀ t s s', elem t s s' → ∃ l, g s' = g s ++ l ∧ l.Sublist (st t)) {ts s s'} (h : Many elem ts s s') :
    ∃ l, g s' = g s ++ l ∧ l.Sublist (st ts) := by
  induction h with
  | nil => exact ⟨[], (List.append_nil _).symm, .slnil⟩
  | cons he _ ih =>
    obtain ⟨l1, e1, h1⟩ := hs _ _ _ he
    obtain ⟨l2, e2, h2⟩ := ih
    exact ⟨l1 ++ l2, by rw [e2, e1, List.append_assoc], by unfold st; rw [List.map_append]; exact h1.append h2⟩

theorem many_inv {σ : Type} {elem : List ATok → σ → σ → Prop} (I : σ → Prop)
    (hs : ∀ t s s', elem t s s' → Inc t → I s → I s') {ts s s'} (h : Many elem ts s s') (hi : Inc ts) (h0 : I s) : I s' := by
  induction h with
  | nil => exact h0
  | cons he _ ih =>
    exact ih (hi.sub (List.sublist_append_right ..)) (hs _ _ _ he (hi.sub (List.sublist_append_left ..)) h0)

theorem sepBy_all {α : Type} {sep : Token} {item : List ATok → α → Prop} {P : α → Prop}
    (hs : ∀ t a, item t a → Inc t → P a) {ts as} (h : Places.SepBy sep item ts as) (hi : Inc ts) : ∀ a ∈ as, P a := by
  induction h with
  | one h => intro a ha; rw [List.mem_singleton] at ha; subst ha; exact hs _ _ h hi
  | cons h _ _ ih =>
    intro a ha
    rcases List.mem_cons.1 ha with rfl | ha
    · exact hs _ _ h (hi.sub (List.sublist_append_left ..))
    · exact ih (hi.sub ((List.sublist_cons_self ..).trans (List.sublist_append_right ..))) a ha

/-- The extent of a non-empty segment begins with its first token. -/
theorem extent_start {a : ATok} {ts : List ATok} : (extent (a :: ts)).start = a.span.start := by
  unfold extent
  rw [List.head?_cons]
  cases h : (a :: ts).getLast? with
  | none => simp at h
  | some z => rfl

theorem extent_sub {a : ATok} {ts : List ATok} : [(extent (a :: ts)).start].Sublist (st (a :: ts)) := by
  rw [extent_start]; exact (List.nil_sublist _).cons_cons _

variable [FloatFmt]

omit [FloatFmt] in
theorem str_start {ts s} (h : StrG ts s) : ∃ a r, ts = a :: r ∧ s.span.start = a.span.start := by
  obtain ⟨ps, h1, h2, _, h4⟩ := h
  cases ts with
  | nil => cases ps with
    | nil => exact absurd rfl h1
    | cons => cases h2
  | cons a r => exact ⟨a, r, rfl, by rw [h4, extent_start]⟩

theorem value_start {ts v} (h : ValueG ts v) : ∃ a r, ts = a :: r ∧ v.span.start = a.span.start := by
  cases h with
  | ident h => obtain ⟨a, rfl, _⟩ := h; exact ⟨a, [], rfl, extent_start⟩
  | negIdent _ _ => exact ⟨_, _, rfl, extent_start⟩
  | int h => cases h with
    | pos _ => exact ⟨_, _, rfl, extent_start⟩
    | neg _ _ => exact ⟨_, _, rfl, extent_start⟩
  | float _ => exact ⟨_, _, rfl, extent_start⟩
  | negFloat _ _ => exact ⟨_, _, rfl, extent_start⟩
  | string h => exact str_start h
  | aggregate _ _ _ => exact ⟨_, _, rfl, extent_start⟩

omit [FloatFmt] in
theorem name_start {ts n} (h : Places.SepBy .dot NamePartG ts n) :
    ∃ a r p ps, ts = a :: r ∧ n = p :: ps ∧ p.span.start = a.span.start := by
  have part : ∀ {t p}, NamePartG t p → ∃ a r, t = a :: r ∧ (OptionNamePart.span p).start = a.span.start := by
    intro t p h
    cases h with
    | ident h => obtain ⟨a, rfl, _, h⟩ := h; exact ⟨a, [], rfl, by show Span.start (Ident.span _) = _; rw [h]⟩
    | ext _ _ _ => exact ⟨_, _, rfl, extent_start⟩
  cases h with
  | one h => obtain ⟨a, r, rfl, h'⟩ := part h; exact ⟨a, r, _, _, rfl, rfl, h'⟩
  | cons h _ _ => obtain ⟨a, r, rfl, h'⟩ := part h; exact ⟨a, _, _, _, rfl, rfl, h'⟩

theorem body_d {ts b} (h : OptionBodyG ts b) (hi : Inc ts) : bodyD b := by
  cases h with
  | mk h1 h2 h3 =>
    obtain ⟨a, r, p, ps, rfl, rfl, ha⟩ := name_start h1
    obtain ⟨a', r', rfl, ha'⟩ := value_start h3
    rename_i name e v
    have hs : (ospan ⟨p :: ps, v⟩).start = p.span.start := by
      unfold ospan OptionBody.span OptionBody.nameSpan
      cases hl : (p :: ps).getLast? with
      | none => simp at hl
      | some y => simp [joinSpan]
    unfold bodyD
    rw [hs, ha]
    show a.span.start ≠ v.span.start
    rw [ha']
    have : a.span.start < a'.span.start := (List.pairwise_cons.1 hi).1 _ (by simp [st])
    omega

theorem list_d {ts l} (h : OptListG ts l) (hi : Inc ts) : listD l := by
  cases h with
  | none => nofun
  | some _ h _ =>
    rintro _ ⟨⟩
    exact sepBy_all (fun _ _ h hi => body_d h hi) h
      (hi.sub ((List.sublist_cons_self ..).trans (List.sublist_append_left ..)))

theorem option_sub {ts o} (h : OptionG ts o) : [o.span.start].Sublist (st ts) := by
  cases h with
  | mk _ _ _ => exact extent_sub

omit [FloatFmt] in
theorem reserved_sub {ts o} (h : ReservedG ts o) : [o.span.start].Sublist (st ts) := by
  cases h with
  | ranges _ _ _ => exact extent_sub
  | names _ _ _ => exact extent_sub

theorem extensions_sub {ts o} (h : ExtensionsG ts o) : [o.span.start].Sublist (st ts) := by
  cases h with
  | mk _ _ _ _ _ => exact extent_sub

theorem extend_sub {body ts o} (h : ExtendG body ts o) : [o.span.start].Sublist (st ts) := by
  cases h with
  | mk _ _ _ _ _ => exact extent_sub

/-- Lists that grow by the start of the element, or not at all. -/
local macro "grow" : tactic => `(tactic| first
  | exact ⟨[], (List.append_nil _).symm, List.nil_sublist _⟩)

omit [FloatFmt] in
theorem starts_of {l : List Nat} {ts : List ATok} (hi : Inc ts) (h : ∃ l', l = [] ++ l' ∧ l'.Sublist (st ts)) : l.Nodup := by
  obtain ⟨l', rfl, h⟩ := h
  exact nodup_of hi h

omit [FloatFmt] in
/-- The middle of `k :: is ++ o :: ts ++ [z]`. -/
theorem mid_sub {k o z : ATok} {is ts : List ATok} : ts.Sublist (k :: is ++ o :: ts ++ [z]) :=
  ((List.sublist_cons_self ..).trans (List.sublist_append_right ..)).trans (List.sublist_append_left ..)

theorem enum_d {ts e} (h : EnumG ts e) (hi : Inc ts) : enumD e := by
  cases h with
  | mk _ _ _ h _ =>
    have hi := hi.sub mid_sub
    constructor
    · refine starts_of hi (many_proj (fun s => s.1.map fun o => o.span.start) ?_ h)
      intro t s s' h
      cases h with
      | option h => exact ⟨_, List.map_append, option_sub h⟩
      | _ => grow
    · refine starts_of hi (many_proj (fun s => s.2.2.map fun o => o.span.start) ?_ h)
      intro t s s' h
      cases h with
      | reserved h => exact ⟨_, List.map_append, reserved_sub h⟩
      | _ => grow

theorem method_d {ts x} (h : MethodG ts x) (hi : Inc ts) : methodD x := by
  cases h with
  | mk _ _ _ _ _ _ _ _ _ h =>
    cases h with
    | semi _ => exact List.nodup_nil
    | body _ h _ =>
      refine starts_of (hi.sub ?_) (many_proj (fun s => s.map fun o => o.span.start) ?_ h)
      · exact ((List.sublist_append_left ..).trans (List.sublist_cons_self ..)).trans
          ((List.sublist_cons_self ..).trans (List.sublist_append_right ..))
      intro t s s' h
      cases h with
      | option h => exact ⟨_, List.map_append, option_sub h⟩
      | _ => grow

theorem service_d {ts x} (h : ServiceG ts x) (hi : Inc ts) : serviceD x := by
  cases h with
  | mk _ _ _ h _ =>
    have hi := hi.sub mid_sub
    constructor
    · refine starts_of hi (many_proj (fun s => s.1.map fun o => o.span.start) ?_ h)
      intro t s s' h
      cases h with
      | option h => exact ⟨_, List.map_append, option_sub h⟩
      | _ => grow
    · refine many_inv (fun s => ∀ m ∈ s.2, methodD m) ?_ h hi nofun
      intro t s s' h hi h0
      cases h with
      | method h =>
        intro m hm
        rcases List.mem_append.1 hm with hm | hm
        · exact h0 m hm
        · rw [List.mem_singleton] at hm; subst hm; exact method_d h hi
      | _ => exact h0

section
variable {body : List ATok → MessageBody → Prop} (hb : ∀ ts b, body ts b → Inc ts → MessageBodyD b)
include hb

theorem field_d {ts f} (h : FieldG body ts f) (hi : Inc ts) : FieldD f := by
  cases h with
  | normal _ _ _ _ _ h _ _ _ =>
    exact ⟨trivial, list_d h (hi.sub ((List.sublist_append_right ..).trans (List.sublist_append_left ..)))⟩
  | map _ _ _ _ _ _ _ _ _ _ h _ =>
    exact ⟨trivial, list_d h (hi.sub ((List.sublist_append_right ..).trans (List.sublist_append_left ..)))⟩
  | group _ _ _ _ _ _ h _ h' _ =>
    refine ⟨hb _ _ h' (hi.sub ?_), list_d h (hi.sub ?_)⟩
    · exact ((List.sublist_cons_self ..).trans (List.sublist_append_right ..)).trans (List.sublist_append_left ..)
    · exact (List.sublist_append_right ..).trans ((List.sublist_append_left ..).trans (List.sublist_append_left ..))

omit hb [FloatFmt] in
theorem snocF {l : List Field} {f} (h : fieldsD l) (hf : FieldD f) : fieldsD (l ++ [f]) := by
  rw [fieldsD_iff] at h ⊢
  intro x hx
  rcases List.mem_append.1 hx with hx | hx
  · exact h x hx
  · rw [List.mem_singleton] at hx; subst hx; exact hf

omit hb [FloatFmt] in
theorem snocI {l : List MessageItem} {f} (h : itemsD l) (hf : MessageItemD f) : itemsD (l ++ [f]) := by
  rw [itemsD_iff] at h ⊢
  intro x hx
  rcases List.mem_append.1 hx with hx | hx
  · exact h x hx
  · rw [List.mem_singleton] at hx; subst hx; exact hf

theorem oneof_d {ts o} (h : OneofG body ts o) (hi : Inc ts) : OneofD o := by
  cases h with
  | mk _ _ _ h _ =>
    have hi := hi.sub mid_sub
    constructor
    · refine starts_of hi (many_proj (fun s => s.1.map fun o => o.span.start) ?_ h)
      intro t s s' h
      cases h with
      | option h => exact ⟨_, List.map_append, option_sub h⟩
      | _ => grow
    · refine many_inv (fun s => fieldsD s.2) ?_ h hi (by simp [fieldsD])
      intro t s s' h hi h0
      cases h with
      | field h _ => exact snocF h0 (field_d hb h hi)
      | _ => exact h0

theorem extend_d {ts o} (h : ExtendG body ts o) (hi : Inc ts) : ExtendD o := by
  cases h with
  | mk _ _ _ h _ =>
    refine many_inv (fun s => fieldsD s) ?_ h (hi.sub mid_sub) (by simp [fieldsD])
    intro t s s' h hi h0
    cases h with
    | field h => exact snocF h0 (field_d hb h hi)
    | _ => exact h0

omit [FloatFmt] in
theorem message_d {ts o} (h : MessageG body ts o) (hi : Inc ts) : MessageD o := by
  cases h with
  | mk _ _ _ h _ => exact hb _ _ h (hi.sub mid_sub)

theorem bodyMany_d {ts b} (h : Many (BodyElem body) ts ⟨[], [], [], []⟩ b) (hi : Inc ts) : MessageBodyD b := by
  obtain ⟨items, exts, opts, res⟩ := b
  refine ⟨?_, ?_, ?_, ?_, ?_⟩
  · refine many_inv (fun s => itemsD s.items) ?_ h hi (by simp [itemsD])
    intro t s s' h hi h0
    cases h with
    | field h _ => exact snocI h0 (field_d hb h hi)
    | oneof h => exact snocI h0 (oneof_d hb h hi)
    | enum h => exact snocI h0 (enum_d h hi)
    | message h => exact snocI h0 (message_d hb h hi)
    | extend h => exact snocI h0 (extend_d hb h hi)
    | _ => exact h0
  · refine starts_of hi (many_proj (fun s => extStarts s.items) ?_ h)
    intro t s s' h
    cases h with
    | extend h => exact ⟨_, List.flatMap_append, by simpa [extStart] using extend_sub h⟩
    | field _ _ => exact ⟨[], by simp [extStarts, extStart], List.nil_sublist _⟩
    | oneof _ => exact ⟨[], by simp [extStarts, extStart], List.nil_sublist _⟩
    | enum _ => exact ⟨[], by simp [extStarts, extStart], List.nil_sublist _⟩
    | message _ => exact ⟨[], by simp [extStarts, extStart], List.nil_sublist _⟩
    | _ => grow
  · refine starts_of hi (many_proj (fun s => s.extensions.map fun o => o.span.start) ?_ h)
    intro t s s' h
    cases h with
    | extensions h => exact ⟨_, List.map_append, extensions_sub h⟩
    | _ => grow
  · refine starts_of hi (many_proj (fun s => s.options.map fun o => o.span.start) ?_ h)
    intro t s s' h
    cases h with
    | option h => exact ⟨_, List.map_append, option_sub h⟩
    | _ => grow
  · refine starts_of hi (many_proj (fun s => s.reserved.map fun o => o.span.start) ?_ h)
    intro t s s' h
    cases h with
    | reserved h => exact ⟨_, List.map_append, reserved_sub h⟩
    | _ => grow
end

theorem bodyG_d : ∀ (d : Nat) (ts b), BodyG d ts b → Inc ts → MessageBodyD b
  | 0, _, _, h, _ => h.elim
  | d + 1, _, _, h, hi => bodyMany_d (fun ts b h hi => bodyG_d d ts b h hi) h hi

theorem anyBody_d (ts b) (h : AnyBodyG ts b) (hi : Inc ts) : MessageBodyD b := by
  obtain ⟨d, h⟩ := h
  exact bodyG_d d ts b h hi

theorem statements_d {ts p} (h : Many StatementG ts {} p) (hi : Inc ts) :
    (∀ i ∈ p.items, FileItemD i) ∧ (fextStarts p.items).Nodup ∧ optsD p.options := by
  refine ⟨?_, ?_, ?_⟩
  · refine many_inv (fun s : Grammar.Parts => ∀ i ∈ s.items, FileItemD i) ?_ h hi nofun
    intro t s s' h hi h0
    have snoc : ∀ {x}, FileItemD x → ∀ i ∈ s.items ++ [x], FileItemD i := by
      intro x hx i hi
      rcases List.mem_append.1 hi with h | h
      · exact h0 i h
      · rw [List.mem_singleton] at h; subst h; exact hx
    cases h with
    | message h => exact snoc (message_d anyBody_d h hi)
    | enum h => exact snoc (enum_d h hi)
    | extend h => exact snoc (extend_d anyBody_d h hi)
    | service h => exact snoc (service_d h hi)
    | _ => exact h0
  · refine starts_of hi (many_proj (fun s : Grammar.Parts => fextStarts s.items) ?_ h)
    intro t s s' h
    cases h with
    | extend h => exact ⟨_, List.flatMap_append, by simpa [fextStart] using extend_sub h⟩
    | message _ => exact ⟨[], by simp [fextStarts, fextStart], List.nil_sublist _⟩
    | enum _ => exact ⟨[], by simp [fextStarts, fextStart], List.nil_sublist _⟩
    | service _ => exact ⟨[], by simp [fextStarts, fextStart], List.nil_sublist _⟩
    | _ => grow
  · refine starts_of hi (many_proj (fun s : Grammar.Parts => s.options.map fun o => o.span.start) ?_ h)
    intro t s s' h
    cases h with
    | option h => exact ⟨_, List.map_append, option_sub h⟩
    | _ => grow

/-- In a file whose tokens begin at increasing offsets, statements that share a path begin at different offsets. -/
theorem file_d {len ts f} (h : FileG len ts f) (hi : Inc ts) : FileD f := by
  cases h with
  | noSyntax h _ => obtain ⟨h1, h2, h3⟩ := statements_d h hi; exact ⟨h1, h2, h3⟩
  | withSyntax _ h =>
    obtain ⟨h1, h2, h3⟩ := statements_d h (hi.sub (List.sublist_append_right ..)); exact ⟨h1, h2, h3⟩

end Verif.Dist
