import Verif.Proofs.Project
import Verif.Spec.Locations
/-!
Every source location with comments has those of its tokens.
-/
namespace Verif.Pos
open Verif.Spec Verif.Ast Verif.Places

/-- The comments and the span of an element that stands in the tokens `T`. -/
def Here (T : List ATok) (c : Comments) (sp : Span) : Prop :=
  ∃ ts a e z, ts <:+: T ∧ ts.head? = some a ∧ ts.getLast? = some e ∧ z ∈ ts ∧
    ((z = e ∧ (z.tok = .semicolon ∨ z.tok = .rightBrace)) ∨ (z.tok = .leftBrace ∧ e.tok = .rightBrace)) ∧
    c = ⟨a.detached, a.leading, z.trailing⟩ ∧ sp = ⟨a.span.start, e.span.stop⟩

theorem Here.mono {T U c sp} (h : Here T c sp) (hs : T <:+: U) : Here U c sp := by
  obtain ⟨ts, a, e, z, h1, h2⟩ := h
  exact ⟨ts, a, e, z, h1.trans hs, h2⟩

/-- An element that ends with a semicolon or a closing brace which has its trailing comment. -/
theorem here_end {ts hd : List ATok} {z : ATok} (hne : hd ≠ []) (hp : ∃ r, ts = hd ++ r) (hl : ts.getLast? = some z)
    (hz : z.tok = .semicolon ∨ z.tok = .rightBrace) : Here ts (comments hd z) (extent ts) := by
  obtain ⟨a, l, rfl⟩ := List.exists_cons_of_ne_nil hne
  obtain ⟨r, rfl⟩ := hp
  refine ⟨_, a, z, z, List.infix_refl _, rfl, hl, List.mem_of_getLast? hl, .inl ⟨rfl, hz⟩, rfl, ?_⟩
  rw [extent_eq (a := a) (z := z) rfl hl]
  rfl

/-- An element with a block. -/
theorem here_block {ts hd : List ATok} {o e : ATok} (hne : hd ≠ []) (hp : ∃ r, ts = hd ++ r) (hm : o ∈ ts) (ho : o.tok = .leftBrace)
    (hl : ts.getLast? = some e) (he : e.tok = .rightBrace) : Here ts (comments hd o) (extent ts) := by
  obtain ⟨a, l, rfl⟩ := List.exists_cons_of_ne_nil hne
  obtain ⟨r, rfl⟩ := hp
  refine ⟨_, a, e, o, List.infix_refl _, rfl, hl, hm, .inr ⟨ho, he⟩, rfl, ?_⟩
  rw [extent_eq (a := a) (z := e) rfl hl]
  rfl

section elements
variable [FloatFmt] {ts : List ATok}

theorem here_option {o} (h : OptionG ts o) : Here ts o.comments o.span := by
  cases h with
  | mk _ _ hz => exact here_end (by simp) ⟨_, rfl⟩ (by rw [List.getLast?_append]; rfl) (.inl hz)

omit [FloatFmt] in
theorem here_reserved {o} (h : ReservedG ts o) : Here ts o.comments o.span := by
  cases h with
  | ranges _ _ hz => exact here_end (by simp) ⟨_, rfl⟩ (by rw [List.getLast?_append]; rfl) (.inl hz)
  | names _ _ hz => exact here_end (by simp) ⟨_, rfl⟩ (by rw [List.getLast?_append]; rfl) (.inl hz)

theorem here_extensions {o} (h : ExtensionsG ts o) : Here ts o.comments o.span := by
  cases h with
  | mk _ _ _ _ hz => exact here_end (by simp) ⟨_, List.append_assoc _ _ _⟩ (by rw [List.getLast?_append]; rfl) (.inl hz)

theorem here_field {B o} (h : FieldG B ts o) : Here ts o.comments o.span := by
  cases h with
  | normal _ gt _ _ _ _ hz _ _ =>
    exact here_end (by simp [tyG_ne gt]) ⟨_, by simp only [List.append_assoc]; rfl⟩ (by rw [List.getLast?_append]; rfl) (.inl hz)
  | map _ _ _ _ _ _ _ _ _ _ _ hz =>
    exact here_end (by simp) ⟨_, by simp only [List.append_assoc, List.cons_append, List.nil_append]; rfl⟩ (by rw [List.getLast?_append]; rfl) (.inl hz)
  | group _ _ _ _ _ _ _ ho _ hz =>
    exact here_block (by simp) ⟨_, by simp only [List.append_assoc, List.cons_append, List.nil_append]; rfl⟩ (by simp) ho
      (by rw [List.getLast?_append]; rfl) hz

theorem here_value {o} (h : EnumValueG ts o) : Here ts o.comments o.span := by
  cases h with
  | @mk is name e ns number us os z gi _ _ _ hz =>
    obtain ⟨a, rfl, _⟩ := gi
    exact here_end (ts := [a] ++ e :: ns ++ us ++ [z]) (hd := [a]) (by simp) ⟨e :: ns ++ us ++ [z], by simp⟩ (by rw [List.getLast?_append]; rfl) (.inl hz)

theorem here_enum {o} (h : EnumG ts o) : Here ts o.comments o.span := by
  cases h with
  | mk _ _ ho _ hz =>
    exact here_block (by simp) ⟨_, List.append_assoc _ _ _⟩ (by simp) ho (by rw [List.getLast?_append]; rfl) hz

theorem here_oneof {B o} (h : OneofG B ts o) : Here ts o.comments o.span := by
  cases h with
  | mk _ _ ho _ hz =>
    exact here_block (by simp) ⟨_, List.append_assoc _ _ _⟩ (by simp) ho (by rw [List.getLast?_append]; rfl) hz

theorem here_extend {B o} (h : ExtendG B ts o) : Here ts o.comments o.span := by
  cases h with
  | mk _ _ ho _ hz =>
    exact here_block (by simp) ⟨_, List.append_assoc _ _ _⟩ (by simp) ho (by rw [List.getLast?_append]; rfl) hz

omit [FloatFmt] in
theorem here_message {B o} (h : MessageG B ts o) : Here ts o.comments o.span := by
  cases h with
  | mk _ _ ho _ hz =>
    exact here_block (by simp) ⟨_, List.append_assoc _ _ _⟩ (by simp) ho (by rw [List.getLast?_append]; rfl) hz

theorem here_service {o} (h : ServiceG ts o) : Here ts o.comments o.span := by
  cases h with
  | mk _ _ ho _ hz =>
    exact here_block (by simp) ⟨_, List.append_assoc _ _ _⟩ (by simp) ho (by rw [List.getLast?_append]; rfl) hz

theorem here_method {o} (h : MethodG ts o) : Here ts o.comments o.span := by
  cases h with
  | @mk k is name l ins i cs r k' l' outs o ss r' es os z _ _ _ _ _ _ _ _ _ ge =>
    have hp : ∃ w, k :: is ++ l :: ins ++ [r, k', l'] ++ outs ++ r' :: es = (k :: is) ++ w :=
      ⟨l :: ins ++ [r, k', l'] ++ outs ++ r' :: es, by simp⟩
    have hl : es.getLast? = some z ∧ (z.tok = .semicolon ∨ z.tok = .rightBrace) := by
      cases ge with
      | semi hz => exact ⟨rfl, .inl hz⟩
      | body _ _ hz => exact ⟨by rw [List.getLast?_append]; rfl, .inr hz⟩
    exact here_end (by simp) hp (by rw [List.getLast?_append, List.getLast?_cons, hl.1]; rfl) hl.2

omit [FloatFmt] in
theorem here_package {o} (h : PackageG ts o) : Here ts o.comments o.span := by
  cases h with
  | mk _ _ hz => exact here_end (by simp) ⟨_, rfl⟩ (by rw [List.getLast?_append]; rfl) (.inl hz)

omit [FloatFmt] in
theorem here_import {o} (h : ImportG ts o) : Here ts o.comments o.span := by
  cases h with
  | mk _ _ _ _ hz => exact here_end (by simp) ⟨_, List.append_assoc _ _ _⟩ (by rw [List.getLast?_append]; rfl) (.inl hz)

omit [FloatFmt] in
theorem here_syntax {s x} (h : SyntaxG ts s x) : Here ts x.2 x.1 := by
  cases h with
  | proto2 _ _ _ hz => exact here_end (by simp) ⟨_, rfl⟩ (by rw [List.getLast?_append]; rfl) (.inl hz)
  | proto3 _ _ _ hz => exact here_end (by simp) ⟨_, rfl⟩ (by rw [List.getLast?_append]; rfl) (.inl hz)

end elements

/-- The elements that a sequence collects stand in its tokens. -/
theorem many_mem {σ α : Type} {elem : List ATok → σ → σ → Prop} (proj : σ → List α) (P : List ATok → α → Prop)
    (h : ∀ t s s', elem t s s' → proj s' = proj s ∨ ∃ x, proj s' = proj s ++ [x] ∧ P t x) {ts s s'}
    (hm : Many elem ts s s') : ∀ x ∈ proj s', x ∈ proj s ∨ ∃ t, t <:+: ts ∧ P t x := by
  induction hm with
  | nil => exact fun x hx => .inl hx
  | @cons t ts s s1 s2 h1 _ ih =>
    intro x hx
    rcases ih x hx with hx | ⟨u, hu, hp⟩
    · rcases h _ _ _ h1 with he | ⟨y, he, hp⟩
      · rw [he] at hx; exact .inl hx
      · rw [he] at hx
        rcases List.mem_append.1 hx with hx | hx
        · exact .inl hx
        · cases List.mem_singleton.1 hx
          exact .inr ⟨t, (List.prefix_append _ _).isInfix, hp⟩
    · exact .inr ⟨u, hu.trans (List.suffix_append _ _).isInfix, hp⟩

/-- The element stands in the tokens `T`. -/
def In {α : Type} (G : List ATok → α → Prop) (T : List ATok) (x : α) : Prop := ∃ t, t <:+: T ∧ G t x

theorem In.mono {α : Type} {G : List ATok → α → Prop} {T U x} (h : In G T x) (hs : T <:+: U) : In G U x := by
  obtain ⟨t, h1, h2⟩ := h
  exact ⟨t, h1.trans hs, h2⟩

theorem In.here {α : Type} {G : List ATok → α → Prop} {T x} {c : α → Comments} {sp : α → Span} (h : In G T x)
    (k : ∀ {t}, G t x → Here t (c x) (sp x)) : Here T (c x) (sp x) := by
  obtain ⟨t, h1, h2⟩ := h
  exact (k h2).mono h1

theorem infix_mid {α : Type} (a b : List α) (c : List α) : b <:+: a ++ b ++ c := ⟨a, c, rfl⟩

section
variable [FloatFmt] {ts T : List ATok}

/-- What an element of a message body is. -/
def ItemG (B : List ATok → MessageBody → Prop) (t : List ATok) : MessageItem → Prop
  | .field f => FieldG B t f
  | .oneof o => OneofG B t o
  | .enum e => EnumG t e
  | .message x => MessageG B t x
  | .extend e => ExtendG B t e

theorem body_items {B b b'} (h : Many (BodyElem B) ts b b') : ∀ x ∈ b'.items, x ∈ b.items ∨ In (ItemG B) ts x := by
  refine many_mem (·.items) (ItemG B) ?_ h
  intro t s s' h
  cases h with
  | field h _ => exact .inr ⟨_, rfl, h⟩
  | oneof h => exact .inr ⟨_, rfl, h⟩
  | enum h => exact .inr ⟨_, rfl, h⟩
  | message h => exact .inr ⟨_, rfl, h⟩
  | extend h => exact .inr ⟨_, rfl, h⟩
  | option h => exact .inl rfl
  | reserved h => exact .inl rfl
  | extensions h => exact .inl rfl
  | empty => exact .inl rfl

theorem body_options {B b b'} (h : Many (BodyElem B) ts b b') : ∀ x ∈ b'.options, x ∈ b.options ∨ In OptionG ts x := by
  refine many_mem (·.options) OptionG ?_ h
  intro t s s' h
  cases h with
  | option h => exact .inr ⟨_, rfl, h⟩
  | _ => exact .inl rfl

theorem body_reserved {B b b'} (h : Many (BodyElem B) ts b b') : ∀ x ∈ b'.reserved, x ∈ b.reserved ∨ In ReservedG ts x := by
  refine many_mem (·.reserved) ReservedG ?_ h
  intro t s s' h
  cases h with
  | reserved h => exact .inr ⟨_, rfl, h⟩
  | _ => exact .inl rfl

theorem body_extensions {B b b'} (h : Many (BodyElem B) ts b b') : ∀ x ∈ b'.extensions, x ∈ b.extensions ∨ In ExtensionsG ts x := by
  refine many_mem (·.extensions) ExtensionsG ?_ h
  intro t s s' h
  cases h with
  | extensions h => exact .inr ⟨_, rfl, h⟩
  | _ => exact .inl rfl

/-- The parts of a message body stand in its tokens. -/
structure BodyIn (T : List ATok) (b : MessageBody) : Prop where
  items : ∀ x ∈ b.items, In (ItemG AnyBodyG) T x
  options : ∀ x ∈ b.options, In OptionG T x
  reserved : ∀ x ∈ b.reserved, In ReservedG T x
  extensions : ∀ x ∈ b.extensions, In ExtensionsG T x

theorem oneofG_weaken {body body' : List ATok → MessageBody → Prop} (h : ∀ ts b, body ts b → body' ts b) {ts e}
    (he : OneofG body ts e) : OneofG body' ts e := by
  cases he with
  | mk h1 h2 h3 h4 h5 =>
    refine .mk h1 h2 h3 (many_weaken ?_ h4) h5
    intro ts s s' hx
    cases hx with
    | option h => exact .option h
    | field hf hk => exact .field (fieldG_weaken h hf) hk
    | empty h => exact .empty h

theorem itemG_weaken {body body' : List ATok → MessageBody → Prop} (h : ∀ ts b, body ts b → body' ts b) {ts x}
    (hi : ItemG body ts x) : ItemG body' ts x := by
  cases x with
  | field => exact fieldG_weaken h hi
  | oneof => exact oneofG_weaken h hi
  | enum => exact hi
  | message => exact messageG_weaken h hi
  | extend => exact extendG_weaken h hi

theorem bodyIn {b} (h : AnyBodyG ts b) : BodyIn ts b := by
  obtain ⟨d, h⟩ := h
  cases d with
  | zero => exact h.elim
  | succ d =>
    refine ⟨fun x hx => ?_, fun x hx => ?_, fun x hx => ?_, fun x hx => ?_⟩
    · rcases body_items h x hx with h | ⟨t, h1, h2⟩
      · cases h
      · exact ⟨t, h1, itemG_weaken (fun _ _ hb => ⟨d, hb⟩) h2⟩
    · exact (body_options h x hx).resolve_left (by simp)
    · exact (body_reserved h x hx).resolve_left (by simp)
    · exact (body_extensions h x hx).resolve_left (by simp)

theorem BodyIn.mono {b} (h : BodyIn ts b) (hs : ts <:+: T) : BodyIn T b :=
  ⟨fun x hx => (h.items x hx).mono hs, fun x hx => (h.options x hx).mono hs, fun x hx => (h.reserved x hx).mono hs,
    fun x hx => (h.extensions x hx).mono hs⟩

theorem oneof_parts {B o} (h : In (OneofG B) T o) : (∀ x ∈ o.options, In OptionG T x) ∧ ∀ x ∈ o.fields, In (FieldG B) T x := by
  obtain ⟨t, hs, h⟩ := h
  cases h with
  | @mk k is name ob ts os fs z _ _ _ hm _ =>
    have hi : ts <:+: T := (List.IsInfix.trans ⟨k :: is ++ [ob], [z], by simp⟩ hs)
    refine ⟨fun x hx => ?_, fun x hx => ?_⟩
    · have := many_mem (·.1) OptionG ?_ hm x hx
      · exact (In.mono (this.resolve_left (by simp)) hi)
      · intro t s s' h
        cases h with
        | option h => exact .inr ⟨_, rfl, h⟩
        | _ => exact .inl rfl
    · have := many_mem (·.2) (FieldG B) ?_ hm x hx
      · exact (In.mono (this.resolve_left (by simp)) hi)
      · intro t s s' h
        cases h with
        | field h _ => exact .inr ⟨_, rfl, h⟩
        | _ => exact .inl rfl

theorem extend_parts {B o} (h : In (ExtendG B) T o) : ∀ x ∈ o.fields, In (FieldG B) T x := by
  obtain ⟨t, hs, h⟩ := h
  cases h with
  | @mk k is name ob ts fs z _ _ _ hm _ =>
    have hi : ts <:+: T := (List.IsInfix.trans ⟨k :: is ++ [ob], [z], by simp⟩ hs)
    intro x hx
    have := many_mem (fun s => s) (FieldG B) ?_ hm x hx
    · exact (In.mono (this.resolve_left (by simp)) hi)
    · intro t s s' h
      cases h with
      | field h => exact .inr ⟨_, rfl, h⟩
      | _ => exact .inl rfl

theorem enum_parts {o} (h : In EnumG T o) : (∀ x ∈ o.options, In OptionG T x) ∧ (∀ x ∈ o.values, In EnumValueG T x) ∧
    ∀ x ∈ o.reserved, In ReservedG T x := by
  obtain ⟨t, hs, h⟩ := h
  cases h with
  | @mk k is name ob ts os vs rs z _ _ _ hm _ =>
    have hi : ts <:+: T := (List.IsInfix.trans ⟨k :: is ++ [ob], [z], by simp⟩ hs)
    refine ⟨fun x hx => ?_, fun x hx => ?_, fun x hx => ?_⟩
    · have := many_mem (·.1) OptionG ?_ hm x hx
      · exact (In.mono (this.resolve_left (by simp)) hi)
      · intro t s s' h
        cases h with
        | option h => exact .inr ⟨_, rfl, h⟩
        | _ => exact .inl rfl
    · have := many_mem (·.2.1) EnumValueG ?_ hm x hx
      · exact (In.mono (this.resolve_left (by simp)) hi)
      · intro t s s' h
        cases h with
        | value h _ => exact .inr ⟨_, rfl, h⟩
        | _ => exact .inl rfl
    · have := many_mem (·.2.2) ReservedG ?_ hm x hx
      · exact (In.mono (this.resolve_left (by simp)) hi)
      · intro t s s' h
        cases h with
        | reserved h => exact .inr ⟨_, rfl, h⟩
        | _ => exact .inl rfl

theorem method_parts {o} (h : In MethodG T o) : ∀ x ∈ o.options, In OptionG T x := by
  obtain ⟨t, hs, h⟩ := h
  cases h with
  | @mk k is name l ins i cs r k' l' outs o ss r' es os z _ _ _ _ _ _ _ _ _ ge =>
    intro x hx
    cases ge with
    | semi => cases hx
    | @body ob ts os z _ hm _ =>
      have hi : ts <:+: T := List.IsInfix.trans ⟨k :: is ++ l :: ins ++ [r, k', l'] ++ outs ++ [r', ob], [z], by simp⟩ hs
      have := many_mem (fun s => s) OptionG ?_ hm x hx
      · exact (In.mono (this.resolve_left (by simp)) hi)
      · intro t s s' h
        cases h with
        | option h => exact .inr ⟨_, rfl, h⟩
        | _ => exact .inl rfl

theorem service_parts {o} (h : In ServiceG T o) : (∀ x ∈ o.options, In OptionG T x) ∧ ∀ x ∈ o.methods, In MethodG T x := by
  obtain ⟨t, hs, h⟩ := h
  cases h with
  | @mk k is name ob ts os fs z _ _ _ hm _ =>
    have hi : ts <:+: T := (List.IsInfix.trans ⟨k :: is ++ [ob], [z], by simp⟩ hs)
    refine ⟨fun x hx => ?_, fun x hx => ?_⟩
    · have := many_mem (·.1) OptionG ?_ hm x hx
      · exact (In.mono (this.resolve_left (by simp)) hi)
      · intro t s s' h
        cases h with
        | option h => exact .inr ⟨_, rfl, h⟩
        | _ => exact .inl rfl
    · have := many_mem (·.2) MethodG ?_ hm x hx
      · exact (In.mono (this.resolve_left (by simp)) hi)
      · intro t s s' h
        cases h with
        | method h => exact .inr ⟨_, rfl, h⟩
        | _ => exact .inl rfl

theorem message_body {o} (h : In (MessageG AnyBodyG) T o) : BodyIn T o.body := by
  obtain ⟨t, hs, h⟩ := h
  cases h with
  | @mk k is name ob ts b z _ _ _ hm _ =>
    exact (bodyIn hm).mono (List.IsInfix.trans ⟨k :: is ++ [ob], [z], by simp⟩ hs)

theorem group_body {o sp b} (h : In (FieldG AnyBodyG) T o) (hk : o.kind = .group sp b) : BodyIn T b := by
  obtain ⟨t, hs, h⟩ := h
  cases h with
  | normal => cases hk
  | map => cases hk
  | @group ls label g is name e ns number us os o bs b z _ _ _ _ _ _ _ _ hm _ =>
    cases hk
    exact (bodyIn hm).mono (List.IsInfix.trans ⟨ls ++ g :: is ++ e :: ns ++ us ++ [o], [z], by simp⟩ hs)

/-- What a statement of a file is. -/
def FileItemG (t : List ATok) : FileItem → Prop
  | .message x => MessageG AnyBodyG t x
  | .enum x => EnumG t x
  | .extend x => ExtendG AnyBodyG t x
  | .service x => ServiceG t x

/-- The parts of a file stand in its tokens. -/
structure FileIn (T : List ATok) (f : File) : Prop where
  syntax' : ∀ x, f.syntaxSpan = some x → In (fun t x => SyntaxG t f.syntax' x) T x
  package : ∀ x, f.package = some x → In PackageG T x
  imports : ∀ x ∈ f.imports, In ImportG T x
  options : ∀ x ∈ f.options, In OptionG T x
  items : ∀ x ∈ f.items, In FileItemG T x

theorem statements_in {p} (h : Many Places.StatementG ts {} p) : (∀ x, p.package = some x → In PackageG ts x) ∧
    (∀ x ∈ p.imports, In ImportG ts x) ∧ (∀ x ∈ p.options, In OptionG ts x) ∧ ∀ x ∈ p.items, In FileItemG ts x := by
  refine ⟨fun x hx => ?_, fun x hx => ?_, fun x hx => ?_, fun x hx => ?_⟩
  · have := many_mem (fun p => p.package.toList) PackageG ?_ h x (by simp [hx])
    · exact this.resolve_left (by simp)
    · intro t s s' h
      cases h with
      | package h hn => exact .inr ⟨_, by simp [hn], h⟩
      | _ => exact .inl rfl
  · have := many_mem (fun p => p.imports) ImportG ?_ h x hx
    · exact this.resolve_left (by simp)
    · intro t s s' h
      cases h with
      | import' h => exact .inr ⟨_, rfl, h⟩
      | _ => exact .inl rfl
  · have := many_mem (fun p => p.options) OptionG ?_ h x hx
    · exact this.resolve_left (by simp)
    · intro t s s' h
      cases h with
      | option h => exact .inr ⟨_, rfl, h⟩
      | _ => exact .inl rfl
  · have := many_mem (fun p => p.items) FileItemG ?_ h x hx
    · exact this.resolve_left (by simp)
    · intro t s s' h
      cases h with
      | message h => exact .inr ⟨_, rfl, h⟩
      | enum h => exact .inr ⟨_, rfl, h⟩
      | extend h => exact .inr ⟨_, rfl, h⟩
      | service h => exact .inr ⟨_, rfl, h⟩
      | _ => exact .inl rfl

theorem fileIn {len f} (h : Places.FileG len T f) : FileIn T f := by
  cases h with
  | noSyntax h _ =>
    obtain ⟨h1, h2, h3, h4⟩ := statements_in h
    exact ⟨nofun, h1, h2, h3, h4⟩
  | @withSyntax ss s ssp ts p g h =>
    obtain ⟨h1, h2, h3, h4⟩ := statements_in h
    have hi : ts <:+: ss ++ ts := (List.suffix_append _ _).isInfix
    refine ⟨fun x hx => ?_, fun x hx => (h1 x hx).mono hi, fun x hx => (h2 x hx).mono hi, fun x hx => (h3 x hx).mono hi,
      fun x hx => (h4 x hx).mono hi⟩
    cases hx
    exact ⟨ss, (List.prefix_append _ _).isInfix, g⟩

end
end Verif.Pos
