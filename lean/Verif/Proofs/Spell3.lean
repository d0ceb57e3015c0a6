import Verif.Proofs.SpellOpt
/-!
The words of the parts of each construct.
-/
namespace Verif.Spell
open Verif.Ast Verif.Spec Verif.Places
open Verif.Grammar (kw scalars Parts)

section
variable {src : Bytes}

theorem label_words (H : Toks src) {t l} (ht : t <:+: annotated src) (h : LabelG t l) :
    (∀ x, l = some x → wordsIn src x.2 = [labelWord x.1]) ∧ (t = [] ∨ ∃ x, t.map (txt src) = [labelWord x]) := by
  cases h with
  | none => exact ⟨nofun, .inl rfl⟩
  | optional e =>
    have h := ht.subset (List.mem_singleton_self _)
    exact ⟨fun x hx => by cases hx; rw [words_one H h, txt_kw H h e]; rfl, .inr ⟨.optional, by simp [txt_kw H h e, labelWord]⟩⟩
  | required e =>
    have h := ht.subset (List.mem_singleton_self _)
    exact ⟨fun x hx => by cases hx; rw [words_one H h, txt_kw H h e]; rfl, .inr ⟨.required, by simp [txt_kw H h e, labelWord]⟩⟩
  | repeated e =>
    have h := ht.subset (List.mem_singleton_self _)
    exact ⟨fun x hx => by cases hx; rw [words_one H h, txt_kw H h e]; rfl, .inr ⟨.repeated, by simp [txt_kw H h e, labelWord]⟩⟩

/-- The words of a type. -/
def TypeWords (src : Bytes) (ty : Ty) (sp : Span) : Prop :=
  match ty with
  | .named t => (wordsIn src (typeSpan t)).flatten = typeText t
  | ty => ∃ n w, typeNumber ty = some n ∧ wordsIn src sp = [w] ∧ (n, w) ∈ typeWords

theorem ty_words (H : Toks src) {t ty sp} (ht : t <:+: annotated src) (h : TyG t ty sp) : TypeWords src ty sp := by
  cases h with
  | @scalar a n ty hm e =>
    have hw := words_extent H ht (by simp)
    simp only [List.map_cons, List.map_nil, txt_kw H (ht.subset (.head _)) e] at hw
    simp only [scalars, List.mem_cons, List.not_mem_nil, or_false, Prod.mk.injEq] at hm
    rcases hm with ⟨rfl, rfl⟩ | ⟨rfl, rfl⟩ | ⟨rfl, rfl⟩ | ⟨rfl, rfl⟩ | ⟨rfl, rfl⟩ | ⟨rfl, rfl⟩ | ⟨rfl, rfl⟩ | ⟨rfl, rfl⟩ |
      ⟨rfl, rfl⟩ | ⟨rfl, rfl⟩ | ⟨rfl, rfl⟩ | ⟨rfl, rfl⟩ | ⟨rfl, rfl⟩ | ⟨rfl, rfl⟩ | ⟨rfl, rfl⟩ <;>
      exact ⟨_, _, rfl, hw, by decide⟩
  | named h _ =>
    have := typeName_words H ht h
    simp only [TypeWords]
    rw [this.1, this.2]

/-- The words of the type of a field. -/
def KindWords (src : Bytes) : FieldKind → Prop
  | .normal ty sp => TypeWords src ty sp
  | .group sp _ => wordsIn src sp = [b!"group"]
  | .map sp _ _ _ _ => ∃ r, wordsIn src sp = b!"map" :: b!"<" :: r

variable [FloatFmt]

/-- The words of the parts of a field. -/
structure FieldWords (src : Bytes) (x : Field) : Prop where
  name : wordsIn src x.name.span = [x.name.value]
  number : WrittenNumber (wordsIn src x.number.span) x.number.toInt
  label : ∀ l, x.label = some l → wordsIn src l.2 = [labelWord l.1]
  kind : KindWords src x.kind
  json : ∀ o ∈ listed x.options, named b!"json_name" o = true → ∀ s, o.value = .string s →
    WrittenString (wordsIn src (valueSpan o.value)) s.value ∧
    wordsIn src (optionSpan o) = b!"json_name" :: b!"=" :: wordsIn src (valueSpan o.value)
  whole : ∀ sp b, x.kind = .group sp b → messageSays (wordsIn src x.span) (some x.name.value)
  decl : ∃ pre num r, wordsIn src x.span = pre ++ x.name.value :: b!"=" :: num ++ r ∧ WrittenNumber num x.number.toInt
  options : ∀ o ∈ listed x.options, From (annotated src) OptionBodyG o

theorem json_words (H : Toks src) {t o} (ht : t <:+: annotated src) (h : OptionBodyG t o) {n} (hn : named n o = true) {s}
    (hs : o.value = .string s) : WrittenString (wordsIn src (valueSpan o.value)) s.value ∧
      wordsIn src (optionSpan o) = n :: b!"=" :: wordsIn src (valueSpan o.value) := by
  cases h with
  | @mk ns name e vs value h1 h2 h3 =>
    subst hs
    cases h3 with
    | string h3 =>
      have hvs : vs <:+: annotated src := List.IsInfix.trans ((List.suffix_cons _ _).trans (List.suffix_append _ _)).isInfix ht
      obtain ⟨hne, hw⟩ := str_texts H hvs h3
      have hsp : s.span = extent vs := h3.choose_spec.2.2.2
      refine ⟨str_words H hvs h3, ?_⟩
      unfold named at hn
      split at hn
      · rename_i i hname
        simp only at hname
        subst hname
        generalize hl : [OptionNamePart.ident i] = l at h1
        cases h1 with
        | cons _ _ h => cases hl; cases h
        | one h1 =>
          cases hl
          cases h1 with
          | ident hi =>
            obtain ⟨a, rfl, e1, e2⟩ := hi
            obtain ⟨b, z, g1, g2, -, -⟩ := Nesting.ends_of hne
            have hv : i.value = n := by simpa using hn
            have he : optionSpan ⟨[.ident i], .string s⟩ = extent ([a] ++ e :: vs) := by
              rw [Nesting.extent_two (a := a) (z := z) rfl
                (by rw [show [a] ++ e :: vs = [a, e] ++ vs from rfl, List.getLast?_append, g2]; rfl)]
              simp [optionSpan, partSpan, valueSpan, spanTo, hsp, Nesting.extent_two g1 g2, e2]
            rw [he, words_extent H ht (by simp)]
            simp only [valueSpan, hsp, words_extent H hvs hne]
            simp only [List.map_append, List.map_cons, List.map_nil, List.cons_append, List.nil_append]
            rw [txt_ident H (ht.subset (.head _)) e1, hv,
              txt_punct H (ht.subset (by simp : e ∈ [a] ++ e :: vs)) h2 fun _ => p_equals]
      · cases hn

omit [FloatFmt] in
/-- A declaration: something, a name, an equals sign, a number and something. -/
theorem decl_words (H : Toks src) {ps is ns rs : List ATok} {e : ATok} {name number}
    (ht : ps ++ is ++ e :: ns ++ rs <:+: annotated src) (h1 : IdentG is name) (h2 : e.tok = .equals) (h3 : IntG ns number) :
    ∃ pre num r, wordsIn src (extent (ps ++ is ++ e :: ns ++ rs)) = pre ++ name.value :: b!"=" :: num ++ r ∧
      WrittenNumber num number.toInt ∧ pre = ps.map (txt src) := by
  refine ⟨ps.map (txt src), ns.map (txt src), rs.map (txt src), ?_, (int_texts H (t := ns) (sub_words ht (by infx)) h3).2.2, rfl⟩
  rw [words_extent H ht (by simp)]
  simp only [List.map_append, List.map_cons, (ident_words H (t := is) (sub_words ht (by infx)) h1).2, List.append_assoc,
    List.cons_append, List.nil_append,
    txt_punct H (ht.subset (by simp : e ∈ ps ++ is ++ e :: ns ++ rs)) h2 fun _ => p_equals]

theorem field_words (H : Toks src) {x} (h : From (annotated src) AField x) : FieldWords src x := by
  obtain ⟨t, ht, d, h⟩ := h
  have hopts : ∀ {us : List ATok} {os}, us <:+: t → OptListG us os →
      (∀ o ∈ listed os, From (annotated src) OptionBodyG o) ∧
      ∀ o ∈ listed os, named b!"json_name" o = true → ∀ s, o.value = .string s →
        WrittenString (wordsIn src (valueSpan o.value)) s.value ∧
        wordsIn src (optionSpan o) = b!"json_name" :: b!"=" :: wordsIn src (valueSpan o.value) := by
    intro us os hu h6
    refine ⟨fun o ho => (optList_mem h6 o ho).mono (sub_words ht hu), fun o ho hn s hs => ?_⟩
    obtain ⟨u, hu', ho⟩ := optList_mem h6 o ho
    exact json_words H (hu'.trans (sub_words ht hu)) ho hn hs
  cases h with
  | @normal ls label ts ty tsp is name e ns number us os z h1 h2 h3 h4 h5 h6 h7 h8 h9 =>
    obtain ⟨ho, hj⟩ := hopts (us := us) (by infx) h6
    refine ⟨(ident_words H (sub_words ht (by infx)) h3).1, int_words H (sub_words ht (by infx)) h5,
      (label_words H (sub_words ht (by infx)) h1).1, ty_words H (sub_words ht (by infx)) h2, hj, nofun, ?_, ho⟩
    have h := decl_words H (ps := ls ++ ts) (rs := us ++ [z]) (by simpa only [List.append_assoc] using ht) h3 h4 h5
    obtain ⟨pre, num, r, h, h', -⟩ := h
    exact ⟨pre, num, r, by simpa only [List.append_assoc] using h, h'⟩
  | @map ls label m l ks kty ksp c vs vty vsp r is name e ns number us os z h1 h2 h3 h4 h5 h6 h7 h8 h9 h10 h11 h12 =>
    obtain ⟨ho, hj⟩ := hopts (us := us) (by infx) h11
    refine ⟨(ident_words H (sub_words ht (by infx)) h8).1, int_words H (sub_words ht (by infx)) h10,
      (label_words H (sub_words ht (by infx)) h1).1, ?_, hj, nofun, ?_, ho⟩
    · have hm : m :: l :: ks ++ c :: vs ++ [r] <:+: annotated src :=
        sub_words ht ⟨ls, is ++ e :: ns ++ us ++ [z], by simp⟩
      refine ⟨(ks ++ c :: vs ++ [r]).map (txt src), ?_⟩
      rw [words_extent H hm (by simp)]
      simp only [List.map_append, List.map_cons, List.cons_append]
      rw [txt_kw H (hm.subset (by simp : m ∈ m :: l :: ks ++ c :: vs ++ [r])) h2,
        txt_punct H (hm.subset (by simp : l ∈ m :: l :: ks ++ c :: vs ++ [r])) h3 fun _ => p_langle]
    · have h := decl_words H (ps := ls ++ m :: l :: ks ++ c :: vs ++ [r]) (rs := us ++ [z])
        (by simpa only [List.append_assoc, List.cons_append, List.nil_append] using ht) h8 h9 h10
      obtain ⟨pre, num, r, h, h', -⟩ := h
      exact ⟨pre, num, r, by simpa only [List.append_assoc, List.cons_append, List.nil_append] using h, h'⟩
  | @group ls label g is name e ns number us os o bs b z h1 h2 h3 h4 h5 h6 h7 h8 h9 h10 =>
    obtain ⟨ho, hj⟩ := hopts (us := us) (by infx) h7
    have hg := ht.subset (by simp : g ∈ ls ++ g :: is ++ e :: ns ++ us ++ o :: bs ++ [z])
    have hi := ident_words H (sub_words ht (by infx)) h3
    have hl := label_words H (sub_words ht (by infx)) h1
    refine ⟨hi.1, int_words H (sub_words ht (by infx)) h6, hl.1, ?_, hj, ?_, ?_, ho⟩
    · show wordsIn src g.span = _
      rw [words_one H hg, txt_kw H hg h2]
    · intro _ _ _
      rw [words_extent H ht (by simp)]
      simp only [List.map_append, List.map_cons, hi.2, txt_kw H hg h2, List.append_assoc, List.cons_append]
      rcases hl.2 with rfl | ⟨x, hx⟩
      · exact .inr (.inl ⟨_, _, rfl, rfl⟩)
      · rw [hx]
        exact .inr (.inr ⟨x, ⟨_, _, rfl, rfl⟩, rfl⟩)
    · have h := decl_words H (ps := ls ++ [g]) (rs := us ++ o :: bs ++ [z])
        (by simpa only [List.append_assoc, List.cons_append, List.nil_append] using ht) h3 h5 h6
      obtain ⟨pre, num, r, h, h', -⟩ := h
      exact ⟨pre, num, r, by simpa only [List.append_assoc, List.cons_append, List.nil_append] using h, h'⟩

theorem place_words (H : Toks src) {t} (h : PlaceFrom (annotated src) (.extend t)) :
    (wordsIn src (typeSpan t)).flatten = typeText t := by
  obtain ⟨u, hu, h⟩ := h
  have := typeName_words H hu h
  rw [this.1, this.2]

omit [FloatFmt] in
/-- A construct in braces that begins with a keyword and a name. -/
theorem named_words (H : Toks src) {k o z : ATok} {is ts : List ATok} {n : Ident} {w : Bytes}
    (ht : k :: is ++ o :: ts ++ [z] <:+: annotated src) (hk : k.tok = kw w) (hi : IdentG is n) :
    Named w (wordsIn src (extent (k :: is ++ o :: ts ++ [z]))) (some n.value) ∧ wordsIn src n.span = [n.value] := by
  have h := ident_words H (t := is) (sub_words ht ⟨[k], o :: ts ++ [z], by simp⟩) hi
  refine ⟨?_, h.1⟩
  rw [words_extent H ht (by simp)]
  simp only [List.map_append, List.map_cons, h.2, txt_kw H (ht.subset (by simp : k ∈ k :: is ++ o :: ts ++ [z])) hk,
    List.append_assoc, List.cons_append]
  exact ⟨_, _, rfl, rfl⟩

/-- The words of the parts of an enum value. -/
structure ValueWords (src : Bytes) (v : EnumValue) : Prop where
  whole : ∃ num r, wordsIn src v.span = v.name.value :: b!"=" :: num ++ r ∧ WrittenNumber num v.number.toInt
  name : wordsIn src v.name.span = [v.name.value]
  number : WrittenNumber (wordsIn src v.number.span) v.number.toInt
  options : ∀ o ∈ listed v.options, From (annotated src) OptionBodyG o

theorem value_words (H : Toks src) {v} (h : From (annotated src) EnumValueG v) : ValueWords src v := by
  obtain ⟨t, ht, h⟩ := h
  cases h with
  | @mk is name e ns number us os z h1 h2 h3 h4 h5 =>
    have hi := ident_words H (t := is) (sub_words ht (by infx)) h1
    refine ⟨?_, hi.1, int_words H (t := ns) (sub_words ht (by infx)) h3,
      fun o ho => (optList_mem h4 o ho).mono (sub_words ht (by infx))⟩
    have h := decl_words H (ps := []) (rs := us ++ [z])
      (by simpa only [List.append_assoc, List.cons_append, List.nil_append] using ht) h1 h2 h3
    obtain ⟨pre, num, r, h, h', rfl⟩ := h
    exact ⟨num, r, by simpa only [List.append_assoc, List.cons_append, List.nil_append, List.map_nil] using h, h'⟩

/-- The words of a range. -/
structure RangeWords (src : Bytes) (r : ReservedRange) : Prop where
  start : WrittenNumber (wordsIn src r.start.span) r.start.toInt
  stop : match r.stop with
    | .none => True
    | .int j => WrittenNumber (wordsIn src j.span) j.toInt
    | .max s => wordsIn src s = [b!"max"]
  whole : match r.stop with
    | .none => wordsIn src (spanTo r.start.span (stopSpan r)) = wordsIn src r.start.span
    | _ => wordsIn src (spanTo r.start.span (stopSpan r)) =
      wordsIn src r.start.span ++ b!"to" :: wordsIn src (stopSpan r)

omit [FloatFmt] in
theorem range_words (H : Toks src) {r} (h : From (annotated src) RangeG r) : RangeWords src r := by
  obtain ⟨t, ht, h⟩ := h
  cases h with
  | single h => exact ⟨int_words H ht h, trivial, rfl⟩
  | @to ts i k us j h1 hk h2 =>
    have hts : ts <:+: annotated src := sub_words ht (by infx)
    have hus : us <:+: annotated src := sub_words ht ⟨ts ++ [k], [], by simp⟩
    refine ⟨int_words H hts h1, int_words H hus h2, ?_⟩
    obtain ⟨n1, e1, -⟩ := int_texts H hts h1
    obtain ⟨n2, e2, -⟩ := int_texts H hus h2
    obtain ⟨a, b, a1, a2, -, -⟩ := Nesting.ends_of n1
    obtain ⟨c, z, c1, c2, -, -⟩ := Nesting.ends_of n2
    show wordsIn src (spanTo i.span j.span) = wordsIn src i.span ++ b!"to" :: wordsIn src j.span
    have he : spanTo i.span j.span = extent (ts ++ k :: us) := by
      rw [Nesting.extent_two (a := a) (z := z) (by rw [List.head?_append, a1]; rfl)
        (by rw [show ts ++ k :: us = (ts ++ [k]) ++ us by simp, List.getLast?_append, c2]; rfl)]
      simp [spanTo, e1, e2, Nesting.extent_two a1 a2, Nesting.extent_two c1 c2]
    rw [he, words_extent H ht (by simp), e1, e2, words_extent H hts n1, words_extent H hus n2, List.map_append, List.map_cons,
      txt_kw H (ht.subset (by simp : k ∈ ts ++ k :: us)) hk]
  | @max ts i k m h1 hk h2 =>
    have hts : ts <:+: annotated src := sub_words ht (by infx)
    have hm := ht.subset (by simp : m ∈ ts ++ [k, m])
    refine ⟨int_words H hts h1, ?_, ?_⟩
    · show wordsIn src m.span = _
      rw [words_one H hm, txt_kw H hm h2]
    · obtain ⟨n1, e1, -⟩ := int_texts H hts h1
      obtain ⟨a, b, a1, a2, -, -⟩ := Nesting.ends_of n1
      show wordsIn src (spanTo i.span m.span) = wordsIn src i.span ++ b!"to" :: wordsIn src m.span
      have he : spanTo i.span m.span = extent (ts ++ [k, m]) := by
        rw [Nesting.extent_two (a := a) (z := m) (by rw [List.head?_append, a1]; rfl) (by rw [List.getLast?_append]; rfl)]
        simp [spanTo, e1, Nesting.extent_two a1 a2]
      rw [he, words_extent H ht (by simp), e1, words_extent H hts n1, words_one H hm, List.map_append, List.map_cons, List.map_cons,
        List.map_nil, txt_kw H (ht.subset (by simp : k ∈ ts ++ [k, m])) hk]

/-- The words of `reserved` statements. -/
structure ReservedWords (src : Bytes) (rs : List Reserved) : Prop where
  ranges : ∀ r ∈ reservedRanges rs, RangeWords src r
  names : ∀ n ∈ (rs.flatMap fun r => match r.kind with | .ranges _ => [] | .names ns => ns),
    WrittenString (wordsIn src n.span) n.value

omit [FloatFmt] in
theorem reserved_words (H : Toks src) {rs : List Reserved} (h : ∀ r ∈ rs, From (annotated src) ReservedG r) :
    ReservedWords src rs := by
  constructor
  · intro r hr
    obtain ⟨x, hx, hr⟩ := List.mem_flatMap.1 hr
    obtain ⟨t, ht, h⟩ := h x hx
    cases h with
    | @ranges k ts z rs _ h1 _ => exact range_words H ((sepBy_mem h1 r hr).mono (sub_words ht ⟨[k], [z], by simp⟩))
    | names => cases hr
  · intro n hn
    obtain ⟨x, hx, hn⟩ := List.mem_flatMap.1 hn
    obtain ⟨t, ht, h⟩ := h x hx
    cases h with
    | ranges => cases hn
    | @names k ts z ns _ h1 _ =>
      obtain ⟨u, hu, h2⟩ := (sepBy_mem h1 n hn).mono (sub_words ht ⟨[k], [z], by simp⟩)
      exact str_words H hu h2.1.1

/-- The words of an enum. -/
structure EnumWords (src : Bytes) (e : Enum) : Prop where
  whole : Named b!"enum" (wordsIn src e.span) (some e.name.value)
  name : wordsIn src e.name.span = [e.name.value]
  values : ∀ v ∈ e.values, ValueWords src v
  options : ∀ o ∈ e.options, From (annotated src) OptionG o
  reserved : ReservedWords src e.reserved

open Verif.Gen (snoc_mem)

theorem enum_words (H : Toks src) {e} (h : From (annotated src) EnumG e) : EnumWords src e := by
  obtain ⟨t, ht, h⟩ := h
  cases h with
  | @mk k is name o ts os vs rs z hk hi ho hm hz =>
    have h1 := named_words H ht hk hi
    have h2 := many_inv hm (fun p : List Opt × List EnumValue × List Reserved =>
      (∀ o ∈ p.1, From ts OptionG o) ∧ (∀ v ∈ p.2.1, From ts EnumValueG v) ∧ ∀ r ∈ p.2.2, From ts ReservedG r)
      ⟨nofun, nofun, nofun⟩ (by
      intro t a b ht he ha
      obtain ⟨a1, a2, a3⟩ := ha
      cases he with
      | option h1 => exact ⟨snoc_mem a1 ⟨t, ht, h1⟩, a2, a3⟩
      | reserved h1 => exact ⟨a1, a2, snoc_mem a3 ⟨t, ht, h1⟩⟩
      | value h1 _ => exact ⟨a1, snoc_mem a2 ⟨t, ht, h1⟩, a3⟩
      | empty => exact ⟨a1, a2, a3⟩)
    exact ⟨h1.1, h1.2, fun v hv => value_words H ((h2.2.1 v hv).mono (braces.trans ht)),
      fun o ho => (h2.1 o ho).mono (braces.trans ht),
      reserved_words H fun r hr => (h2.2.2 r hr).mono (braces.trans ht)⟩

/-- The words of a oneof. -/
theorem oneof_words (H : Toks src) {d o} (h : From (annotated src) (OneofG (BodyG d)) o) :
    Named b!"oneof" (wordsIn src o.span) (some o.name.value) ∧ wordsIn src o.name.span = [o.name.value] ∧
    ∀ x ∈ o.options, From (annotated src) OptionG x := by
  obtain ⟨t, ht, h⟩ := h
  cases h with
  | @mk k is name o ts os fs z hk hi ho hm hz =>
    have h1 := named_words H ht hk hi
    have h2 := many_inv hm (fun p : List Opt × List Field => ∀ o ∈ p.1, From ts OptionG o) nofun (by
      intro t a b ht he ha
      cases he with
      | option h1 => exact snoc_mem ha ⟨t, ht, h1⟩
      | field h1 _ => exact ha
      | empty => exact ha)
    exact ⟨h1.1, h1.2, fun o ho => (h2 o ho).mono (braces.trans ht)⟩

/-- The words of a method. -/
structure MethodWords (src : Bytes) (x : Method) : Prop where
  whole : Named b!"rpc" (wordsIn src x.span) (some x.name.value)
  name : wordsIn src x.name.span = [x.name.value]
  input : (wordsIn src (typeSpan x.inputTy)).flatten = typeText x.inputTy
  output : (wordsIn src (typeSpan x.outputTy)).flatten = typeText x.outputTy
  client : ∀ s, x.clientStreaming = some s → wordsIn src s = [b!"stream"]
  server : ∀ s, x.serverStreaming = some s → wordsIn src s = [b!"stream"]
  options : ∀ o ∈ x.options, From (annotated src) OptionG o

omit [FloatFmt] in
theorem stream_words (H : Toks src) {t x s} (ht : t <:+: annotated src) (h : StreamG t x s) :
    (wordsIn src (typeSpan x)).flatten = typeText x ∧ ∀ y, s = some y → wordsIn src y = [b!"stream"] := by
  cases h with
  | no h _ =>
    have := typeName_words H ht h
    exact ⟨by rw [this.1, this.2], nofun⟩
  | @yes k ts t hk h =>
    have := typeName_words H (t := ts) (sub_words ht (by infx)) h
    refine ⟨by rw [this.1, this.2], fun y hy => ?_⟩
    cases hy
    rw [words_one H (ht.subset (.head _)), txt_kw H (ht.subset (.head _)) hk]

theorem method_words (H : Toks src) {x} (h : From (annotated src) MethodG x) : MethodWords src x := by
  obtain ⟨t, ht, h⟩ := h
  cases h with
  | @mk k is name l ins i cs r k' l' outs o ss r' es os z hk hi hl h1 hr hk' hl' h2 hr' he =>
    have g := ident_words H (t := is) (sub_words ht (by infx)) hi
    have g1 := stream_words H (t := ins) (sub_words ht (by infx)) h1
    have g2 := stream_words H (t := outs) (sub_words ht ⟨k :: is ++ l :: ins ++ [r, k', l'], r' :: es, by simp⟩) h2
    refine ⟨?_, g.1, g1.1, g2.1, g1.2, g2.2, ?_⟩
    rotate_left
    · cases he with
      | semi _ => nofun
      | @body o' ts os z _ hm _ =>
        have h2 := many_inv hm (fun p : List Opt => ∀ o ∈ p, From ts OptionG o) nofun (by
          intro t a b ht he ha
          cases he with
          | option h1 => exact snoc_mem ha ⟨t, ht, h1⟩
          | empty => exact ha)
        exact fun x hx => (h2 x hx).mono (sub_words ht
          ⟨k :: is ++ l :: ins ++ [r, k', l'] ++ outs ++ [r', o'], [z], by simp⟩)
    rw [words_extent H ht (by simp)]
    simp only [List.map_append, List.map_cons, g.2, List.append_assoc, List.cons_append,
      txt_kw H (ht.subset (by simp : k ∈ k :: is ++ l :: ins ++ [r, k', l'] ++ outs ++ r' :: es)) hk]
    exact ⟨_, _, rfl, rfl⟩

/-- The words of a service. -/
structure ServiceWords (src : Bytes) (s : Service) : Prop where
  whole : Named b!"service" (wordsIn src s.span) (some s.name.value)
  name : wordsIn src s.name.span = [s.name.value]
  methods : ∀ x ∈ s.methods, MethodWords src x
  options : ∀ o ∈ s.options, From (annotated src) OptionG o

theorem service_words (H : Toks src) {s} (h : From (annotated src) ServiceG s) : ServiceWords src s := by
  obtain ⟨t, ht, h⟩ := h
  cases h with
  | @mk k is name o ts os ms z hk hi ho hm hz =>
    have h1 := named_words H ht hk hi
    have h2 := many_inv hm (fun p : List Opt × List Method =>
      (∀ o ∈ p.1, From ts OptionG o) ∧ ∀ v ∈ p.2, From ts MethodG v) ⟨nofun, nofun⟩ (by
      intro t a b ht he ha
      cases he with
      | option h1 => exact ⟨snoc_mem ha.1 ⟨t, ht, h1⟩, ha.2⟩
      | method h1 => exact ⟨ha.1, snoc_mem ha.2 ⟨t, ht, h1⟩⟩
      | empty => exact ha)
    exact ⟨h1.1, h1.2, fun v hv => method_words H ((h2.2 v hv).mono (braces.trans ht)),
      fun o ho => (h2.1 o ho).mono (braces.trans ht)⟩

/-- The words of an import. -/
theorem import_words (H : Toks src) {x} (h : From (annotated src) ImportG x) :
    (∃ m vs, wordsIn src x.span = b!"import" :: m ++ vs ++ [b!";"] ∧ (m = [] ∨ m = [b!"public"] ∨ m = [b!"weak"]) ∧
      WrittenString vs x.value) ∧
    (∀ s, x.kind = some (.publ, s) → wordsIn src s = [b!"public"]) ∧ ∀ s, x.kind = some (.weak, s) → wordsIn src s = [b!"weak"] := by
  obtain ⟨t, ht, h⟩ := h
  cases h with
  | @mk k ks kind ts v vsp z hk h1 h2 h3 hz =>
    have hs := str_texts H (t := ts) (sub_words ht (by infx)) h2.1
    have hz' := txt_punct H (ht.subset (by simp : z ∈ k :: ks ++ ts ++ [z])) hz fun _ => p_semi
    have hk' := txt_kw H (ht.subset (by simp : k ∈ k :: ks ++ ts ++ [z])) hk
    have key : ∀ m, ks.map (txt src) = m → (m = [] ∨ m = [b!"public"] ∨ m = [b!"weak"]) →
        ∃ m vs, wordsIn src (extent (k :: ks ++ ts ++ [z])) = b!"import" :: m ++ vs ++ [b!";"] ∧
          (m = [] ∨ m = [b!"public"] ∨ m = [b!"weak"]) ∧ WrittenString vs v := by
      intro m e hm
      refine ⟨m, ts.map (txt src), ?_, hm, hs.2⟩
      rw [words_extent H ht (by simp)]
      simp only [List.map_append, List.map_cons, List.map_nil, e, hz', hk']
    cases h1 with
    | none => exact ⟨key [] rfl (.inl rfl), nofun, nofun⟩
    | @weak a e =>
      have ha := ht.subset (by simp : a ∈ k :: [a] ++ ts ++ [z])
      have hw := txt_kw H ha e
      refine ⟨key _ rfl (.inr (.inr (by simp [hw]))), nofun, fun s hs => ?_⟩
      cases hs
      rw [words_one H ha, hw]
    | @publ a e =>
      have ha := ht.subset (by simp : a ∈ k :: [a] ++ ts ++ [z])
      have hw := txt_kw H ha e
      refine ⟨key _ rfl (.inr (.inl (by simp [hw]))), fun s hs => ?_, nofun⟩
      cases hs
      rw [words_one H ha, hw]

omit [FloatFmt] in
theorem package_words (H : Toks src) {x} (h : From (annotated src) PackageG x) :
    ∃ vs, wordsIn src x.span = b!"package" :: vs ++ [b!";"] ∧ some (identText x.name) = some vs.flatten := by
  obtain ⟨t, ht, h⟩ := h
  cases h with
  | @mk k ts f z hk h1 hz =>
    refine ⟨ts.map (txt src), ?_, ?_⟩
    · rw [words_extent H ht (by simp)]
      simp only [List.map_append, List.map_cons, List.map_nil,
        txt_punct H (ht.subset (by simp : z ∈ k :: ts ++ [z])) hz fun _ => p_semi,
        txt_kw H (ht.subset (by simp : k ∈ k :: ts ++ [z])) hk]
    · rw [fullIdent_texts H (t := ts) (sub_words ht (by infx)) h1]

/-- The text of the `syntax` statement. -/
def synText : Syntax' → Bytes
  | .proto2 => b!"proto2"
  | .proto3 => b!"proto3"

omit [FloatFmt] in
theorem syntax_words (H : Toks src) {s x} (h : From (annotated src) (fun t y => SyntaxG t s y) x) :
    ∃ vs, wordsIn src x.1 = b!"syntax" :: b!"=" :: vs ++ [b!";"] ∧
      WrittenString vs (synText s) := by
  obtain ⟨t, ht, h⟩ := h
  have key : ∀ {k e z : ATok} {ts : List ATok} {v sp}, k :: e :: ts ++ [z] <:+: annotated src → k.tok = kw b!"syntax" →
      e.tok = .equals → StrG ts ⟨v, sp⟩ → z.tok = .semicolon →
      ∃ vs, wordsIn src (extent (k :: e :: ts ++ [z])) = b!"syntax" :: b!"=" :: vs ++ [b!";"] ∧ WrittenString vs v := by
    intro k e z ts v sp ht hk he h1 hz
    refine ⟨ts.map (txt src), ?_, (str_texts H (t := ts) (sub_words ht (by infx)) h1).2⟩
    rw [words_extent H ht (by simp)]
    simp only [List.map_append, List.map_cons, List.map_nil,
      txt_punct H (ht.subset (by simp : z ∈ k :: e :: ts ++ [z])) hz fun _ => p_semi,
      txt_punct H (ht.subset (by simp : e ∈ k :: e :: ts ++ [z])) he fun _ => p_equals,
      txt_kw H (ht.subset (by simp : k ∈ k :: e :: ts ++ [z])) hk]
  cases h with
  | proto2 hk he h1 hz => exact key ht hk he h1 hz
  | proto3 hk he h1 hz => exact key ht hk he h1 hz

end
end Verif.Spell
