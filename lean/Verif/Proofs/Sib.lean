import Verif.Proofs.Nest4
/-!
Marks of the elements of a list follow each other like their indices.
-/
namespace Verif.Nesting
open Verif.Ast Verif.Spec Verif.Places Verif.Gen

/-- Elements of one list: an index has one mark, and a smaller index has an earlier one. -/
def Sib (P : Mark → Prop) : Prop :=
  ∀ a b, P a → P b → ∀ (p : List Int) t i j, p.length % 2 = 0 → a.path = p ++ [t, i] → b.path = p ++ [t, j] →
    (i = j → a = b) ∧ (i < j → a.span.stop ≤ b.span.start)

structure SPart (T : List Int) (P : Mark → Prop) : Prop where
  sib : Sib P
  heads : Heads T P

/-- The marks of an element, one of them for the element itself. -/
structure SWhole (sp : Span) (P : Mark → Prop) : Prop where
  sib : Sib P
  root : ∀ a, P a → a.path = [] → a.span = sp
  one : ∀ a b, P a → P b → a.path = [] → b.path = [] → a = b

theorem SPart.congr {T P Q} (h : SPart T P) (e : ∀ m, P m ↔ Q m) : SPart T Q := by
  have : P = Q := funext fun m => propext (e m)
  exact this ▸ h
theorem SWhole.congr {sp P Q} (h : SWhole sp P) (e : ∀ m, P m ↔ Q m) : SWhole sp Q := by
  have : P = Q := funext fun m => propext (e m)
  exact this ▸ h

theorem Sib.odd {P : Mark → Prop} (h : ∀ m, P m → m.path.length % 2 = 1) : Sib P := by
  intro a b ha _ p t i j hp e
  have h1 := h a ha
  have h2 := congrArg List.length e
  simp only [List.length_append, List.length_cons, List.length_nil] at h2
  omega

theorem SPart.or {T U P Q} (hP : SPart T P) (hQ : SPart U Q) (hd : ∀ t ∈ T, t ∉ U) : SPart (T ++ U) (fun m => P m ∨ Q m) := by
  refine ⟨?_, ?_⟩
  · have clash : ∀ {a b : Mark} {p : List Int} {t i j}, P a → Q b → a.path = p ++ [t, i] → b.path = p ++ [t, j] → False := by
      intro a b p t i j ha hb e1 e2
      obtain ⟨x, hx, r, er⟩ := hP.heads a ha
      obtain ⟨y, hy, r', er'⟩ := hQ.heads b hb
      rw [er] at e1; rw [er'] at e2
      have : x = y := by
        cases p with
        | nil => simp only [List.nil_append, List.cons.injEq] at e1 e2; rw [e1.1, e2.1]
        | cons z p => simp only [List.cons_append, List.cons.injEq] at e1 e2; rw [e1.1, e2.1]
      exact hd x hx (this ▸ hy)
    rintro a b (ha | ha) (hb | hb) p t i j hp e1 e2
    · exact hP.sib a b ha hb p t i j hp e1 e2
    · exact (clash ha hb e1 e2).elim
    · exact (clash hb ha e2 e1).elim
    · exact hQ.sib a b ha hb p t i j hp e1 e2
  · rintro m (hm | hm)
    · obtain ⟨t, ht, h⟩ := hP.heads m hm; exact ⟨t, List.mem_append_left _ ht, h⟩
    · obtain ⟨t, ht, h⟩ := hQ.heads m hm; exact ⟨t, List.mem_append_right _ ht, h⟩

/-- Marks with a path of one number, beside those below it. -/
theorem SPart.block {tag} {R P : Mark → Prop} (hR : ∀ m, R m → m.path = [tag]) (hP : SPart [tag] P) :
    SPart [tag] (fun m => R m ∨ P m) := by
  refine ⟨?_, ?_⟩
  · rintro a b ha hb p t i j hp e1 e2
    have key : ∀ {m : Mark} {k : Int}, (R m ∨ P m) → m.path = p ++ [t, k] → P m := by
      rintro m k (h | h) e
      · rw [hR m h] at e
        have := congrArg List.length e
        simp at this
      · exact h
    exact hP.sib a b (key ha e1) (key hb e2) p t i j hp e1 e2
  · rintro m (hm | hm)
    · exact ⟨tag, .head _, [], hR m hm⟩
    · exact hP.heads m hm

theorem SWhole.mk' {T P sp c} (h : SPart T P) : SWhole sp (fun m => m = ⟨[], sp, c⟩ ∨ P m) := by
  have nr : ∀ m, P m → m.path ≠ [] := by
    intro m hm e
    obtain ⟨t, _, r, er⟩ := h.heads m hm
    rw [er] at e; cases e
  refine ⟨?_, ?_, ?_⟩
  · rintro a b (rfl | ha) (rfl | hb) p t i j hp e1 e2
    · simp at e1
    · simp at e1
    · simp at e2
    · exact h.sib a b ha hb p t i j hp e1 e2
  · rintro a (rfl | ha) e
    · rfl
    · exact absurd e (nr a ha)
  · rintro a b (rfl | ha) (rfl | hb) e1 e2
    · rfl
    · exact absurd e2 (nr b hb)
    · exact absurd e1 (nr a ha)
    · exact absurd e1 (nr a ha)

theorem SWhole.none {sp} {P : Mark → Prop} (h : ∀ m, ¬ P m) : SWhole sp P :=
  ⟨fun a _ ha => (h a ha).elim, fun a ha => (h a ha).elim, fun a _ ha => (h a ha).elim⟩

theorem SWhole.single {sp c} : SWhole sp (· ∈ [(⟨[], sp, c⟩ : Mark)]) :=
  (SWhole.mk' (T := []) (P := fun _ => False) (c := c) ⟨fun _ _ h => h.elim, fun _ h => h.elim⟩).congr fun m => by simp

/-- The spans follow each other. -/
def Follow (l : List Span) : Prop := l.Pairwise fun a b => a.stop ≤ b.start

theorem SPart.at {α : Type} {b} (tag : Int) {l : List α} {g : α → List Mark} {sp : α → Span}
    (h : ∀ y ∈ l, SWhole (sp y) (· ∈ g y)) (hf : Follow (l.map sp)) : SPart [tag] (At b tag l g) := by
  refine ⟨?_, ?_⟩
  · rintro _ _ ⟨i, x, hx, ha⟩ ⟨j, y, hy, hb⟩ p t i' j' hp e1 e2
    obtain ⟨a, ha', rfl⟩ := mem_under.1 ha
    obtain ⟨c, hc, rfl⟩ := mem_under.1 hb
    have hx' := h x (List.mem_of_getElem? hx)
    have hy' := h y (List.mem_of_getElem? hy)
    simp only [Mark.sub, List.cons_append, List.nil_append] at e1 e2
    match p, hp with
    | [], _ =>
      simp only [List.nil_append, List.cons.injEq] at e1 e2
      obtain ⟨_, rfl, r1⟩ := e1
      obtain ⟨_, rfl, r2⟩ := e2
      refine ⟨fun e => ?_, fun e => ?_⟩
      · have : i = j := by omega
        subst this
        rw [hx] at hy; cases hy
        rw [hx'.one a c ha' hc r1 r2]
      · have hij : i < j := by omega
        show a.span.stop ≤ c.span.start
        rw [hx'.root a ha' r1, hy'.root c hc r2]
        obtain ⟨hj, rfl⟩ := List.getElem?_eq_some_iff.1 hy
        obtain ⟨hi, rfl⟩ := List.getElem?_eq_some_iff.1 hx
        have := List.pairwise_iff_getElem.1 hf i j (by simpa using hi) (by simpa using hj) hij
        simpa using this
    | z :: w :: p, hp =>
      simp only [List.cons_append, List.cons.injEq] at e1 e2
      obtain ⟨_, w1, r1⟩ := e1
      obtain ⟨_, w2, r2⟩ := e2
      have : i = j := by omega
      subst this
      rw [hx] at hy; cases hy
      have := hx'.sib a c ha' hc p t i' j' (by simp only [List.length_cons] at hp; omega) r1 r2
      exact ⟨fun e => by rw [this.1 e], this.2⟩
  · rintro _ ⟨i, x, hx, ha⟩
    obtain ⟨a, ha, rfl⟩ := mem_under.1 ha
    exact ⟨tag, .head _, _, rfl⟩

theorem SPart.leaf {sp c} (t : Int) : SPart [t] (fun m => m = ⟨[t], sp, c⟩) :=
  ⟨Sib.odd (by rintro _ rfl; rfl), by rintro _ rfl; exact ⟨t, .head _, [], rfl⟩⟩

theorem SPart.flat {t : Int} {P : Mark → Prop} (h : ∀ m, P m → m.path = [t]) : SPart [t] P :=
  ⟨Sib.odd (fun m hm => by rw [h m hm]; rfl), fun m hm => ⟨t, .head _, [], h m hm⟩⟩

theorem SPart.none {T : List Int} {P : Mark → Prop} (h : ∀ m, ¬ P m) : SPart T P :=
  ⟨fun a _ ha => (h a ha).elim, fun a ha => (h a ha).elim⟩

theorem SPart.opts {t : Int} {os : List Opt} : SPart [t] (· ∈ under [t] (optsMarks 0 os)) := by
  refine ⟨Sib.odd ?_, ?_⟩ <;> intro m hm <;> obtain ⟨x, hx, rfl⟩ := mem_under.1 hm
  · rcases (optsMarks_at ..).1 hx with ⟨o, ho, rfl⟩ | ⟨i, y, _, hy⟩
    · rfl
    · obtain ⟨z, hz, rfl⟩ := mem_under.1 hy
      rw [List.mem_singleton] at hz; subst hz; simp [Mark.sub]
  · exact ⟨t, .head _, _, rfl⟩

theorem SPart.optList {t : Int} {l : Option OptionList} : SPart [t] (· ∈ under [t] (optListMarks l)) := by
  refine ⟨Sib.odd ?_, ?_⟩ <;> intro m hm <;> obtain ⟨x, hx, rfl⟩ := mem_under.1 hm
  · cases l with
    | none => cases hx
    | some l =>
      rcases List.mem_cons.1 hx with rfl | hx
      · rfl
      · obtain ⟨i, y, _, hy⟩ := (bodiesMarks_at ..).1 hx
        obtain ⟨z, hz, rfl⟩ := mem_under.1 hy
        rw [List.mem_singleton] at hz; subst hz; simp [Mark.sub]
  · exact ⟨t, .head _, _, rfl⟩

theorem range_swhole (r : ReservedRange) : SWhole r.span (· ∈ rangeMarks r) := by
  refine (SWhole.mk' (c := {}) ((SPart.leaf (sp := r.startSpan) (c := {}) 1).or (SPart.leaf (sp := r.endSpan) (c := {}) 2) (by decide))).congr
    fun m => ?_
  simp [rangeMarks, Tag.rangeStart, Tag.rangeEnd]

theorem extRange_swhole (os : Option OptionList) (r : ReservedRange) : SWhole r.span (· ∈ extRangeMarks os r) := by
  refine (SWhole.mk' (c := {}) ((SPart.leaf (sp := r.startSpan) (c := {}) 1).or ((SPart.leaf (sp := r.endSpan) (c := {}) 2).or
    (SPart.optList (t := 3) (l := os)) (by decide)) (by decide))).congr fun m => ?_
  simp [extRangeMarks, rangeMarks, Tag.rangeStart, Tag.rangeEnd, Tag.extensionRangeOptions]

theorem reserved_spart {tagR tagN : Int} (hne : tagR ≠ tagN) {rs : List Reserved}
    (h1 : Follow ((reservedRanges rs).map (·.span))) (h2 : Follow ((resIdents rs).map (·.span))) :
    SPart [tagR, tagN] (· ∈ reservedMarks tagR tagN 0 0 rs) := by
  have pR : SPart [tagR] (fun m => (∃ r ∈ rs, toRow m = resRow tagR tagN r ∧ m.path = [tagR]) ∨
      At 0 tagR (reservedRanges rs) rangeMarks m) :=
    SPart.block (fun m hm => by obtain ⟨_, _, _, h⟩ := hm; exact h) (SPart.at tagR (fun r _ => range_swhole r) h1)
  have pN : SPart [tagN] (fun m => (∃ r ∈ rs, toRow m = resRow tagR tagN r ∧ m.path = [tagN]) ∨
      At 0 tagN (resIdents rs) (fun n => [⟨[], n.span, {}⟩]) m) :=
    SPart.block (fun m hm => by obtain ⟨_, _, _, h⟩ := hm; exact h) (SPart.at tagN (fun r _ => SWhole.single) h2)
  refine (pR.or pN (by simp [hne])).congr fun m => ?_
  rw [reservedMarks_at]
  constructor
  · rintro ((⟨r, hr, e, _⟩ | h) | (⟨r, hr, e, _⟩ | h))
    · exact .inl ⟨r, hr, e⟩
    · exact .inr (.inl h)
    · exact .inl ⟨r, hr, e⟩
    · exact .inr (.inr h)
  · rintro (⟨r, hr, e⟩ | h | h)
    · have e' := congrArg Row.path e
      cases hk : r.kind with
      | ranges _ => simp only [resRow, hk] at e'; exact .inl (.inl ⟨r, hr, e, e'⟩)
      | names _ => simp only [resRow, hk] at e'; exact .inr (.inl ⟨r, hr, e, e'⟩)
    · exact .inl (.inr h)
    · exact .inr (.inr h)

theorem extensions_spart {es : List Extensions} (h : Follow ((extensionRanges es).map (·.1.span))) :
    SPart [5] (· ∈ under [5] (extensionsMarks 0 es)) :=
  (SPart.block (R := fun m => ∃ e ∈ es, m = ⟨[5], e.span, e.comments⟩) (by rintro _ ⟨_, _, rfl⟩; rfl)
    (SPart.at 5 (fun r _ => extRange_swhole r.2 r.1) h)).congr fun m => (extensionsMarks_at 5 es 0 m).symm

theorem value_swhole (v : EnumValue) : SWhole v.span (· ∈ enumValueMarks v) := by
  refine (SWhole.mk' (c := v.comments) ((SPart.leaf (sp := v.name.span) (c := {}) 1).or ((SPart.leaf (sp := v.number.span) (c := {}) 2).or
    (SPart.optList (t := 3) (l := v.options)) (by decide)) (by decide))).congr fun m => ?_
  simp [enumValueMarks, Tag.enumValueName, Tag.enumValueNumber, Tag.enumValueOptions]

def EnumS (e : Enum) : Prop := Follow (e.values.map (·.span)) ∧ Follow ((reservedRanges e.reserved).map (·.span)) ∧
  Follow ((resIdents e.reserved).map (·.span))

theorem enum_swhole {e : Enum} (h : EnumS e) : SWhole e.span (· ∈ enumMarks e) := by
  refine (SWhole.mk' (c := e.comments) ((SPart.leaf (sp := e.name.span) (c := {}) 1).or
    ((SPart.at (b := 0) 2 (fun v _ => value_swhole v) h.1).or ((reserved_spart (tagR := 4) (tagN := 5) (by decide) h.2.1 h.2.2).or
    (SPart.opts (t := 3) (os := e.options)) (by decide)) (by decide)) (by decide))).congr fun m => ?_
  simp only [enumMarks, List.mem_cons, List.mem_append, valuesMarks_at, Tag.enumName, Tag.enumReservedRange,
    Tag.enumReservedName, Tag.enumOptions, or_assoc]

theorem optMark_spart (t : Int) (s : Option Span) : SPart [t] (· ∈ optMark t s) :=
  SPart.flat fun m hm => by cases s <;> simp [optMark] at hm; rw [hm]

theorem method_swhole (x : Method) : SWhole x.span (· ∈ methodMarks x) := by
  refine (SWhole.mk' (c := x.comments) ((SPart.leaf (sp := x.name.span) (c := {}) 1).or ((SPart.leaf (sp := tspan x.inputTy) (c := {}) 2).or
    ((SPart.leaf (sp := tspan x.outputTy) (c := {}) 3).or ((optMark_spart 5 x.clientStreaming).or ((optMark_spart 6 x.serverStreaming).or
    (SPart.opts (t := 4) (os := x.options)) (by decide)) (by decide)) (by decide)) (by decide)) (by decide))).congr fun m => ?_
  simp only [methodMarks, List.mem_cons, List.mem_append, Tag.methodName, Tag.methodInputType, Tag.methodOutputType,
    Tag.methodClientStreaming, Tag.methodServerStreaming, Tag.methodOptions, or_assoc]

theorem service_swhole {x : Service} (h : Follow (x.methods.map (·.span))) : SWhole x.span (· ∈ serviceMarks x) := by
  refine (SWhole.mk' (c := x.comments) ((SPart.leaf (sp := x.name.span) (c := {}) 1).or ((SPart.at (b := 0) 2 (fun m _ => method_swhole m) h).or
    (SPart.opts (t := 3) (os := x.options)) (by decide)) (by decide))).congr fun m => ?_
  simp only [serviceMarks, List.mem_cons, List.mem_append, Tag.serviceName, Tag.serviceMethod, methodsMarks_at,
    Tag.serviceOptions, or_assoc]

theorem oneof_swhole (o : Oneof) : SWhole o.span (· ∈ oneofMarks o) := by
  refine (SWhole.mk' (c := o.comments) ((SPart.leaf (sp := o.name.span) (c := {}) 1).or
    (SPart.opts (t := 2) (os := o.options)) (by decide))).congr fun m => ?_
  simp only [oneofMarks, List.mem_cons, Tag.oneofName, Tag.oneofOptions]

/-- The marks inside a field. -/
theorem own_spart {name : Ident} {number : Int'} {options} {X L K5 K6 D : List Mark} (hX : ∀ m ∈ X, m.path = [2])
    (hL : ∀ m ∈ L, m.path = [4]) (h5 : ∀ m ∈ K5, m.path = [5]) (h6 : ∀ m ∈ K6, m.path = [6]) (hD : ∀ m ∈ D, m.path = [7]) :
    SPart [2, 1, 3, 4, 5, 6, 7, 10, 8] (fun m => m ∈ X ∨ m = ⟨[1], name.span, {}⟩ ∨ m = ⟨[3], number.span, {}⟩ ∨ m ∈ L ∨ m ∈ K5 ∨
      m ∈ K6 ∨ m ∈ D ∨ m ∈ jsonMarks (jsonOf options) ∨ m ∈ under [8] (optListMarks (opts2 options))) := by
  have hJ : ∀ m ∈ jsonMarks (jsonOf options), m.path = [10] := by
    intro m hm
    cases hj : jsonOf options with
    | none => rw [hj] at hm; cases hm
    | some o =>
      rw [hj] at hm
      simp only [jsonMarks, List.mem_cons, List.not_mem_nil, or_false] at hm
      rcases hm with rfl | rfl <;> rfl
  exact (SPart.flat hX).or ((SPart.leaf 1).or ((SPart.leaf 3).or ((SPart.flat hL).or ((SPart.flat h5).or ((SPart.flat h6).or
    ((SPart.flat hD).or ((SPart.flat hJ).or SPart.optList (by decide)) (by decide)) (by decide)) (by decide)) (by decide))
    (by decide)) (by decide)) (by decide)

theorem label_path (s scope label) : ∀ m ∈ labelMarks s scope label, m.path = [4] := by
  intro m hm
  unfold labelMarks at hm
  split at hm
  · cases hm
  · split at hm
    · cases hm
    · rw [List.mem_singleton.1 hm]; rfl

theorem dflt_path (d) : ∀ m ∈ dfltMarks d, m.path = [7] := by
  intro m hm
  cases d with
  | none => cases hm
  | some o => rw [List.mem_singleton.1 hm]; rfl

theorem extendee_path (pl) : ∀ m ∈ extendeeMarks pl, m.path = [2] := by
  intro m hm
  cases pl with
  | extend t => rw [List.mem_singleton.1 hm]; rfl
  | _ => cases hm

theorem field_swhole (s : Syntax') (z : Place × Field) : SWhole z.2.span (· ∈ placeMarks s z) := by
  obtain ⟨pl, label, name, kind, number, options, cm, span⟩ := z
  have one : ∀ {t : Int} {sp : Span}, ∀ m ∈ [(⟨[t], sp, {}⟩ : Mark)], m.path = [t] := by
    intro t sp m hm
    rw [List.mem_singleton.1 hm]
  have nil : ∀ {t : Int}, ∀ m ∈ ([] : List Mark), m.path = [t] := nofun
  have sc : ∀ ty tsp, (∀ t, ty ≠ .named t) → SWhole span (· ∈ placeMarks s (pl, ⟨label, name, .normal ty tsp, number, options, cm, span⟩)) := by
    intro ty tsp hty
    refine (SWhole.mk' (sp := span) (c := cm) (own_spart (name := name) (number := number) (options := options) (X := extendeeMarks pl)
      (L := labelMarks s pl.scope label) (K5 := [⟨[5], tsp, {}⟩]) (K6 := []) (D := dfltMarks (dfltOf options)) (extendee_path pl)
      (label_path _ _ _) one nil (dflt_path _))).congr fun m => ?_
    have e : kindOwn s pl.scope label name span cm (dfltOf options) (.normal ty tsp) =
        scalarMarks s pl.scope label span cm tsp (dfltOf options) := by
      cases ty with
      | named t => exact absurd rfl (hty t)
      | _ => rfl
    simp only [placeMarks, ownMarks, e, headMarks, scalarMarks, tailMarks, List.mem_append, List.mem_cons, List.not_mem_nil,
      or_false, Tag.fieldName, Tag.fieldNumber, Tag.fieldType, Tag.fieldOptions]
    exact Iff.of_eq (by ac_rfl)
  cases kind with
  | normal ty tsp =>
    cases ty with
    | named t =>
      refine (SWhole.mk' (sp := span) (c := cm) (own_spart (name := name) (number := number) (options := options) (X := extendeeMarks pl)
        (L := labelMarks s pl.scope label) (K5 := []) (K6 := [⟨[6], tspan t, {}⟩]) (D := dfltMarks (dfltOf options)) (extendee_path pl)
        (label_path _ _ _) nil one (dflt_path _))).congr fun m => ?_
      simp only [placeMarks, ownMarks, headMarks, kindOwn, namedMarks, tailMarks, List.mem_append, List.mem_cons, List.not_mem_nil,
        or_false, Tag.fieldName, Tag.fieldNumber, Tag.fieldTypeName, Tag.fieldOptions]
      exact Iff.of_eq (by ac_rfl)
    | _ => exact sc _ _ nofun
  | group tsp b =>
    refine (SWhole.mk' (sp := span) (c := {}) (own_spart (name := name) (number := number) (options := options) (X := extendeeMarks pl)
      (L := labelMarks s pl.scope label) (K5 := [⟨[5], tsp, {}⟩]) (K6 := [⟨[6], name.span, {}⟩]) (D := []) (extendee_path pl)
      (label_path _ _ _) one one nil)).congr fun m => ?_
    simp only [placeMarks, ownMarks, headMarks, kindOwn, groupFieldMarks, tailMarks, List.mem_append, List.mem_cons, List.not_mem_nil,
      or_false, false_or, Tag.fieldName, Tag.fieldNumber, Tag.fieldTypeName, Tag.fieldType, Tag.fieldOptions]
    exact Iff.of_eq (by ac_rfl)
  | map tsp k ks v vs =>
    refine (SWhole.mk' (sp := span) (c := cm) (own_spart (name := name) (number := number) (options := options) (X := extendeeMarks pl)
      (L := []) (K5 := []) (K6 := [⟨[6], tsp, {}⟩]) (D := []) (extendee_path pl) nil nil one nil)).congr fun m => ?_
    simp only [placeMarks, ownMarks, headMarks, kindOwn, mapMarks, tailMarks, List.mem_append, List.mem_cons, List.not_mem_nil,
      or_false, false_or, Tag.fieldName, Tag.fieldNumber, Tag.fieldTypeName, Tag.fieldOptions]
    exact Iff.of_eq (by ac_rfl)

/-- The text of a message descriptor. -/
def srcSpan : MsgSrc → Span
  | .message m => m.span
  | .group f _ => f.span
  | .map f _ _ => f.span

end Verif.Nesting
