import Verif.Proofs.Nest
/-!
The marks of enums, services and fields nest.
-/
namespace Verif.Nesting
open Verif.Ast Verif.Spec Verif.Places Verif.Gen

theorem Part.weaken {M T U ts P} (h : Part M T ts P) (hs : T ⊆ U) : Part M U ts P :=
  ⟨h.nest, h.inn, fun m hm => by obtain ⟨t, ht, r⟩ := h.heads m hm; exact ⟨t, hs ht, r⟩⟩

theorem Whole.single {M ts sp c} (h : Inn ts sp) : Whole M ts (· ∈ [(⟨[], sp, c⟩ : Mark)]) :=
  (Whole.one (c := c) [] h).congr fun m => by simp

theorem extent_mid {ts us mid : List ATok} (h1 : ts ≠ []) (h2 : us ≠ []) :
    extent (ts ++ mid ++ us) = joinSpan (extent ts) (extent us) := by
  obtain ⟨a, z, e1, e2, _, _⟩ := ends_of h1
  obtain ⟨b, y, e3, e4, _, _⟩ := ends_of h2
  rw [extent_two e1 e2, extent_two e3 e4]
  have h1 : (ts ++ mid ++ us).head? = some a := by simp [List.head?_append, e1]
  have h2 : (ts ++ mid ++ us).getLast? = some y := by simp [List.getLast?_append, e4]
  rw [extent_two h1 h2]
  rfl

/-! ### Small nodes -/

theorem inn_ident {ts i} (h : IdentG ts i) : Inn ts i.span := by
  obtain ⟨a, rfl, _, h⟩ := h
  rw [h]; exact inn_tok (.head _)

theorem int_extent {ts i} (h : IntG ts i) : ts ≠ [] ∧ i.span = extent ts := by
  cases h with
  | pos _ => exact ⟨by simp, rfl⟩
  | neg _ _ => exact ⟨by simp, rfl⟩

theorem inn_int {ts i} (h : IntG ts i) : Inn ts i.span := by
  obtain ⟨h1, h2⟩ := int_extent h
  rw [h2]; exact inn_extent h1

theorem str_extent {ts s} (h : StrG ts s) : ts ≠ [] ∧ s.span = extent ts := by
  obtain ⟨a, r, rfl, _⟩ := Dist.str_start h
  obtain ⟨_, _, _, _, h⟩ := h
  exact ⟨by simp, h⟩

theorem inn_str {ts s} (h : StrG ts s) : Inn ts s.span := by
  obtain ⟨h1, h2⟩ := str_extent h
  rw [h2]; exact inn_extent h1

theorem sepBy_inn {α : Type} {sep : Token} {item : List ATok → α → Prop} {P : List ATok → α → Prop}
    (hm : ∀ {t t' a}, P t a → t ⊆ t' → P t' a)
    (hs : ∀ t a, item t a → Ord t → P t a) {ts as} (h : Places.SepBy sep item ts as) (ho : Ord ts) :
    as ≠ [] ∧ ∀ a ∈ as, P ts a := by
  induction h with
  | one h => exact ⟨by simp, by intro a ha; rw [List.mem_singleton] at ha; subst ha; exact hs _ _ h ho⟩
  | cons h _ _ ih =>
    refine ⟨by simp, ?_⟩
    intro a ha
    rcases List.mem_cons.1 ha with rfl | ha
    · exact hm (hs _ _ h (ho.sub (List.sublist_append_left ..))) (by intro x hx; simp [hx])
    · exact hm ((ih (ho.sub ((List.sublist_cons_self ..).trans (List.sublist_append_right ..)))).2 a ha)
        (by intro x hx; simp [hx])

theorem inn_parts {ts : List ATok} {f : FullIdent} (hn : f.parts ≠ []) (h : ∀ i ∈ f.parts, Inn ts i.span) :
    ∃ sp, f.span = some sp ∧ Inn ts sp := by
  rcases f with ⟨l⟩
  cases l with
  | nil => exact absurd rfl hn
  | cons a r =>
    have := inn_join (h a (.head _)) (h ((a :: r).getLast (by simp)) (List.getLast_mem _))
    refine ⟨_, ?_, this⟩
    simp [FullIdent.span, List.getLast?_eq_some_getLast, joinSpan]

theorem inn_type {ts t} (h : TypeNameG ts t) (ho : Ord ts) : Inn ts (tspan t) := by
  cases h with
  | relative h =>
    obtain ⟨hn, h⟩ := sepBy_inn (P := fun t (i : Ident) => Inn t i.span) (fun h hs => h.mono hs) (fun _ _ h _ => inn_ident h) h ho
    obtain ⟨sp, e, h⟩ := inn_parts hn h
    simp only [tspan, TypeName.span]
    rw [e]; exact h
  | absolute hd h =>
    obtain ⟨hn, h⟩ := sepBy_inn (P := fun t (i : Ident) => Inn t i.span) (fun h hs => h.mono hs) (fun _ _ h _ => inn_ident h) h
      (ho.sub (List.sublist_cons_self ..))
    obtain ⟨sp, e, h⟩ := inn_parts hn h
    rename_i d _ _ _ _
    have := inn_join (inn_tok (.head _)) (h.mono (List.subset_cons_self d _))
    simp only [tspan, TypeName.span]
    rw [e]; exact this

theorem inn_namePart {ts p} (h : NamePartG ts p) : Inn ts p.span := by
  cases h with
  | ident h => exact inn_ident h
  | ext _ _ _ => exact inn_extent (by simp)

section
variable [FloatFmt]

theorem inn_value {ts v} (h : ValueG ts v) : Inn ts v.span := by
  cases h with
  | ident h => obtain ⟨a, rfl, _⟩ := h; exact inn_extent (by simp)
  | negIdent _ _ => exact inn_extent (by simp)
  | int h => exact inn_int h
  | float _ => exact inn_extent (by simp)
  | negFloat _ _ => exact inn_extent (by simp)
  | string h => exact inn_str h
  | aggregate _ _ _ => exact inn_extent (by simp)

/-- The option and its value lie in the tokens. -/
def BodyIn (ts : List ATok) (o : OptionBody) : Prop := Inn ts (ospan o) ∧ Inn ts o.value.span

theorem inn_body {ts o} (h : OptionBodyG ts o) (ho : Ord ts) : BodyIn ts o := by
  cases h with
  | mk h1 h2 h3 =>
    rename_i ns name e vs value
    obtain ⟨hn, h⟩ := sepBy_inn (P := fun t (i : OptionNamePart) => Inn t i.span) (fun h hs => h.mono hs) (fun _ _ h _ => inn_namePart h)
      h1 (ho.sub (List.sublist_append_left ..))
    have hv : Inn (ns ++ e :: vs) value.span := (inn_value h3).mono (by intro x hx; simp [hx])
    refine ⟨?_, hv⟩
    cases name with
    | nil => exact absurd rfl hn
    | cons a r =>
      have h' := inn_join (h a (.head _)) (h ((a :: r).getLast (by simp)) (List.getLast_mem _))
      have := inn_join (h'.mono (List.subset_append_left _ (e :: vs))) hv
      simpa [ospan, OptionBody.span, OptionBody.nameSpan, List.getLast?_eq_some_getLast] using this

/-- A list of options that lies in the tokens. -/
def ListIn (ts : List ATok) (l : Option OptionList) : Prop :=
  ∀ x, l = some x → Ord ts ∧ ts ≠ [] ∧ x.span = extent ts ∧ ∀ o ∈ x.options, BodyIn ts o

theorem listIn_of {ts l} (h : OptListG ts l) (ho : Ord ts) : ListIn ts l := by
  cases h with
  | none => nofun
  | some _ h _ =>
    rintro _ ⟨⟩
    refine ⟨ho, by simp, rfl, ?_⟩
    have hs : ∀ {l r : ATok} {ts : List ATok}, ts.Sublist (l :: ts ++ [r]) :=
      fun {_ _ _} => (List.sublist_cons_self ..).trans (List.sublist_append_left ..)
    have := (sepBy_inn (P := BodyIn) (fun h hs => ⟨h.1.mono hs, h.2.mono hs⟩) (fun _ _ h ho => inn_body h ho) h (ho.sub hs)).2
    intro o hb
    exact ⟨(this o hb).1.mono hs.subset, (this o hb).2.mono hs.subset⟩

omit [FloatFmt] in
theorem drop1_listIn {ts l} (name) (h : ListIn ts l) : ListIn ts (drop1 l name) := by
  unfold drop1 takeOption
  split
  · nofun
  · rename_i l
    split
    · exact h
    · rename_i heq
      rintro _ ⟨⟩
      obtain ⟨h1, h2, h3, h4⟩ := h l rfl
      exact ⟨h1, h2, h3, fun x hx => h4 _ ((takeFirst_mem heq).2.1 x hx)⟩

omit [FloatFmt] in
theorem pick_listIn {ts l} {name o} (h : ListIn ts l) (hp : pick l name = some o) : BodyIn ts o := by
  unfold pick takeOption at hp
  split at hp
  · cases hp
  · rename_i l
    split at hp
    · cases hp
    · rename_i heq
      cases hp
      exact (h l rfl).2.2.2 _ (takeFirst_mem heq).1

omit [FloatFmt] in
theorem list_whole {M ts l} (h : ListIn ts l) : Whole M ts (· ∈ optListMarks l) := by
  cases l with
  | none => exact ⟨fun _ _ h => by simp [optListMarks] at h, fun _ h => by simp [optListMarks] at h⟩
  | some x =>
    obtain ⟨h1, h2, h3, h4⟩ := h x rfl
    have : Part M [999] ts (At 0 999 x.options fun o => [⟨[], ospan o, {}⟩]) := by
      exact Part.at 999 fun i y hy => Whole.single (h4 y hy).1
    refine (Whole.root (c := {}) this h2 h1).congr fun m => ?_
    simp only [optListMarks, List.mem_cons, bodiesMarks_at, h3]

omit [FloatFmt] in
theorem opts_whole {M ts} {os : List Opt} (h : ∀ o ∈ os, Inn ts o.span) : Whole M ts (· ∈ optsMarks 0 os) := by
  have hp : Part M [999] ts (At 0 999 os fun o => [⟨[], o.span, o.comments⟩]) :=
    Part.at 999 fun i y hy => Whole.single (h y hy)
  refine ⟨?_, ?_⟩
  · intro a b ha hb q hq e
    rw [optsMarks_at] at ha hb
    rcases hb with ⟨o, _, rfl⟩ | hb
    · simp only [List.nil_eq, List.append_eq_nil_iff] at e
      exact absurd e.2 hq
    · rcases ha with ⟨o, _, rfl⟩ | ha
      · obtain ⟨x, hx, y, hy, he⟩ := at_mem hb
        rw [List.mem_singleton] at hy; subst hy
        exact .inr ⟨⟨[], x.span, {}⟩, (optsMarks_at ..).2 (.inl ⟨x, hx, rfl⟩), rfl, by rw [← he]; exact ⟨Nat.le_refl _, Nat.le_refl _⟩⟩
      · rcases hp.nest a b ha hb q hq e with h | ⟨c, hc, h⟩
        · exact .inl h
        · exact .inr ⟨c, (optsMarks_at ..).2 (.inr hc), h⟩
  · intro m hm
    rcases (optsMarks_at ..).1 hm with ⟨o, ho, rfl⟩ | hm
    · exact h o ho
    · exact hp.inn m hm

theorem inn_option {ts o} (h : OptionG ts o) : Inn ts o.span := by
  cases h with
  | mk _ _ _ => exact inn_extent (by simp)

/-! ### Ranges -/

structure RangeIn (ts : List ATok) (r : ReservedRange) : Prop where
  all : Inn ts r.span
  start : Inn ts r.startSpan
  stop : Inn ts r.endSpan
  start' : Within r.startSpan r.span
  stop' : Within r.endSpan r.span

omit [FloatFmt] in
theorem RangeIn.mono {ts ts' r} (h : RangeIn ts r) (hs : ts ⊆ ts') : RangeIn ts' r :=
  ⟨h.all.mono hs, h.start.mono hs, h.stop.mono hs, h.start', h.stop'⟩

omit [FloatFmt] in
theorem rangeIn_of {ts r} (h : RangeG ts r) (ho : Ord ts) : RangeIn ts r := by
  have key : r.span = extent ts ∧ ts ≠ [] ∧ Inn ts r.startSpan ∧ Inn ts r.endSpan := by
    cases h with
    | single h =>
      obtain ⟨h1, h2⟩ := int_extent h
      refine ⟨?_, h1, inn_int h, inn_int h⟩
      simp only [ReservedRange.span, ReservedRange.startSpan, ReservedRange.endSpan, joinSpan]
      exact h2
    | to h _ h' =>
      rename_i ts i k us j _
      obtain ⟨h1, h2⟩ := int_extent h
      obtain ⟨h3, h4⟩ := int_extent h'
      refine ⟨?_, by simp, (inn_int h).mono (by intro x hx; simp [hx]), (inn_int h').mono (by intro x hx; simp [hx])⟩
      have := extent_mid (mid := [k]) h1 h3
      simp only [List.append_assoc, List.cons_append, List.nil_append] at this
      rw [this, ← h2, ← h4]
      rfl
    | max h _ _ =>
      rename_i ts i k m _ _
      obtain ⟨h1, h2⟩ := int_extent h
      refine ⟨?_, by simp, (inn_int h).mono (by intro x hx; simp [hx]), inn_tok (by simp)⟩
      have := extent_mid (mid := [k]) (us := [m]) h1 (by simp)
      simp only [List.append_assoc, List.cons_append, List.nil_append] at this
      rw [this, ← h2]
      rfl
  obtain ⟨h1, h2, h3, h4⟩ := key
  exact ⟨h1 ▸ inn_extent h2, h3, h4, h1 ▸ h3.within ho, h1 ▸ h4.within ho⟩

omit [FloatFmt] in
theorem range_whole {M ts r} (h : RangeIn ts r) : Whole M ts (· ∈ rangeMarks r) := by
  have hp : Part M ([1] ++ [2]) ts (fun m => m = ⟨[1], r.startSpan, {}⟩ ∨ m = ⟨[2], r.endSpan, {}⟩) :=
    (Part.leaf 1 h.start).or (Part.leaf 2 h.stop) (by decide)
  refine (Whole.rootBut (c := {}) hp h.all ?_).congr fun m => ?_
  · rintro m (rfl | rfl)
    · exact .inr h.start'
    · exact .inr h.stop'
  · simp [rangeMarks, Tag.rangeStart, Tag.rangeEnd]

omit [FloatFmt] in
/-- The options of an extension range are elsewhere. -/
theorem extRange_whole {M ts r us os} {i : Nat} (hM : MsgPath M) (h : RangeIn ts r) (hl : ListIn us os) (hs : us ⊆ ts) :
    Whole (M ++ [5, (i : Int)]) ts (· ∈ extRangeMarks os r) := by
  have hp : Part (M ++ [5, (i : Int)]) ([1] ++ ([2] ++ [3])) ts
      (fun m => m = ⟨[1], r.startSpan, {}⟩ ∨ m = ⟨[2], r.endSpan, {}⟩ ∨ m ∈ under [3] (optListMarks os)) :=
    (Part.leaf 1 h.start).or ((Part.leaf 2 h.stop).or (Part.under ((list_whole hl).mono hs)) (by decide)) (by decide)
  refine (Whole.rootBut (c := {}) hp h.all ?_).congr fun m => ?_
  · rintro m (rfl | rfl | hm)
    · exact .inr h.start'
    · exact .inr h.stop'
    · obtain ⟨x, _, rfl⟩ := mem_under.1 hm
      exact .inl (.rangeOptions i _ hM)
  · simp [extRangeMarks, rangeMarks, Tag.rangeStart, Tag.rangeEnd, Tag.extensionRangeOptions]

/-- A statement with its tokens. -/
def Stmt (ts : List ATok) (sp : Span) (P : List ATok → Prop) : Prop :=
  ∃ us, us ⊆ ts ∧ Ord us ∧ us ≠ [] ∧ sp = extent us ∧ P us

omit [FloatFmt] in
theorem Stmt.inn {ts sp P} (h : Stmt ts sp P) : Inn ts sp := by
  obtain ⟨us, h1, _, h2, rfl, _⟩ := h
  exact inn_sub h2 h1

omit [FloatFmt] in
theorem Stmt.mono {ts ts' sp P} (h : Stmt ts sp P) (hs : ts ⊆ ts') : Stmt ts' sp P := by
  obtain ⟨us, h1, h⟩ := h
  exact ⟨us, fun x hx => hs (h1 hx), h⟩

def ResIn (ts : List ATok) (r : Reserved) : Prop := Stmt ts r.span fun us =>
  match r.kind with
  | .ranges xs => ∀ x ∈ xs, RangeIn us x
  | .names ns => ∀ n ∈ ns, Inn us n.span

omit [FloatFmt] in
theorem resIn_of {ts r} (h : ReservedG ts r) (ho : Ord ts) : ResIn ts r := by
  have hs : ∀ {l r : ATok} {ts : List ATok}, ts.Sublist (l :: ts ++ [r]) :=
    fun {_ _ _} => (List.sublist_cons_self ..).trans (List.sublist_append_left ..)
  cases h with
  | ranges _ h _ =>
    refine ⟨_, fun _ h => h, ho, by simp, rfl, ?_⟩
    intro x hx
    exact ((sepBy_inn (P := RangeIn) (fun h hs => h.mono hs) (fun _ _ h ho => rangeIn_of h ho) h (ho.sub hs)).2 x hx).mono hs.subset
  | names _ h _ =>
    refine ⟨_, fun _ h => h, ho, by simp, rfl, ?_⟩
    intro x hx
    exact ((sepBy_inn (P := fun t (i : Ident) => Inn t i.span) (fun h hs => h.mono hs) (fun _ _ h ho => inn_str h.1.1) h (ho.sub hs)).2 x hx).mono hs.subset

omit [FloatFmt] in
theorem reserved_part {M ts tagR tagN} (hne : tagR ≠ tagN) {rs : List Reserved} (h : ∀ r ∈ rs, ResIn ts r) :
    Part M [tagR, tagN] ts (· ∈ reservedMarks tagR tagN 0 0 rs) := by
  have hr : ∀ x ∈ reservedRanges rs, ∃ r ∈ rs, ∃ us, us ⊆ ts ∧ Ord us ∧ r.span = extent us ∧ RangeIn us x ∧
      resRow tagR tagN r = ⟨[tagR], r.span, r.comments⟩ := by
    intro x hx
    obtain ⟨r, hr, hx⟩ := List.mem_flatMap.1 hx
    obtain ⟨us, h1, h2, h3, h4, h5⟩ := h r hr
    rcases r with ⟨kind, c, sp⟩
    cases kind with
    | ranges xs => exact ⟨_, hr, us, h1, h2, h4, h5 x hx, rfl⟩
    | names _ => cases hx
  have hn : ∀ x ∈ resIdents rs, ∃ r ∈ rs, ∃ us, us ⊆ ts ∧ Ord us ∧ r.span = extent us ∧ Inn us x.span ∧
      resRow tagR tagN r = ⟨[tagN], r.span, r.comments⟩ := by
    intro x hx
    obtain ⟨r, hr, hx⟩ := List.mem_flatMap.1 hx
    obtain ⟨us, h1, h2, h3, h4, h5⟩ := h r hr
    rcases r with ⟨kind, c, sp⟩
    cases kind with
    | ranges _ => cases hx
    | names xs => exact ⟨_, hr, us, h1, h2, h4, h5 x hx, rfl⟩
  have pR : Part M [tagR] ts (fun m => (∃ r ∈ rs, toRow m = resRow tagR tagN r ∧ m.path = [tagR]) ∨
      At 0 tagR (reservedRanges rs) rangeMarks m) := by
    refine Part.block (fun m hm => ?_) (fun m hm => ?_) (Part.at tagR fun i y hy => ?_) (fun m hm => at_ne hm) (fun m hm => ?_)
    · obtain ⟨_, _, _, h⟩ := hm; exact h
    · obtain ⟨r, hr, e, _⟩ := hm
      have : m.span = r.span := by
        have e := congrArg Row.span e
        unfold resRow at e
        split at e <;> exact e
      rw [this]; exact (h r hr).inn
    · obtain ⟨r, _, us, h1, _, _, h2, _⟩ := hr y hy
      exact (range_whole h2).mono h1
    · obtain ⟨x, hx, y, hy, e⟩ := at_mem hm
      obtain ⟨r, hr, us, h1, h2, h3, h4, h5⟩ := hr x hx
      refine ⟨⟨[tagR], r.span, r.comments⟩, ⟨r, hr, h5.symm, rfl⟩, ?_⟩
      rw [← e]
      show Within _ r.span
      rw [h3]
      exact ((range_whole (M := []) h4).inn y hy).within h2
  have pN : Part M [tagN] ts (fun m => (∃ r ∈ rs, toRow m = resRow tagR tagN r ∧ m.path = [tagN]) ∨
      At 0 tagN (resIdents rs) (fun n => [⟨[], n.span, {}⟩]) m) := by
    refine Part.block (fun m hm => ?_) (fun m hm => ?_) (Part.at tagN fun i y hy => ?_) (fun m hm => at_ne hm) (fun m hm => ?_)
    · obtain ⟨_, _, _, h⟩ := hm; exact h
    · obtain ⟨r, hr, e, _⟩ := hm
      have : m.span = r.span := by
        have e := congrArg Row.span e
        unfold resRow at e
        split at e <;> exact e
      rw [this]; exact (h r hr).inn
    · obtain ⟨r, _, us, h1, _, _, h2, _⟩ := hn y hy
      exact Whole.single (h2.mono h1)
    · obtain ⟨x, hx, y, hy, e⟩ := at_mem hm
      obtain ⟨r, hr, us, h1, h2, h3, h4, h5⟩ := hn x hx
      refine ⟨⟨[tagN], r.span, r.comments⟩, ⟨r, hr, h5.symm, rfl⟩, ?_⟩
      rw [← e]
      rw [List.mem_singleton] at hy; subst hy
      show Within x.span r.span
      rw [h3]
      exact h4.within h2
  refine (pR.or pN (by simp [hne])).congr fun m => ?_
  rw [reservedMarks_at]
  constructor
  · rintro ((⟨r, hr, e, _⟩ | h) | (⟨r, hr, e, _⟩ | h))
    · exact .inl ⟨r, hr, e⟩
    · exact .inr (.inl h)
    · exact .inl ⟨r, hr, e⟩
    · exact .inr (.inr h)
  · rintro (⟨r, hr, e⟩ | h | h)
    · have e' := congrArg Row.path e
      cases hk : r.kind with
      | ranges _ => simp only [resRow, hk] at e'; exact .inl (.inl ⟨r, hr, e, e'⟩)
      | names _ => simp only [resRow, hk] at e'; exact .inr (.inl ⟨r, hr, e, e'⟩)
    · exact .inl (.inr h)
    · exact .inr (.inr h)

def ExtnIn (ts : List ATok) (e : Extensions) : Prop := Stmt ts e.span fun us =>
  (∀ x ∈ e.ranges, RangeIn us x) ∧ ∃ vs, vs ⊆ us ∧ ListIn vs e.options

theorem extnIn_of {ts e} (h : ExtensionsG ts e) (ho : Ord ts) : ExtnIn ts e := by
  cases h with
  | mk _ h h' _ _ =>
    rename_i k ts rs us os z _ _ _
    have hs : ts.Sublist (k :: ts ++ us ++ [z]) :=
      ((List.sublist_cons_self ..).trans (List.sublist_append_left ..)).trans (List.sublist_append_left ..)
    have hs' : us.Sublist (k :: ts ++ us ++ [z]) := (List.sublist_append_right ..).trans (List.sublist_append_left ..)
    refine ⟨_, fun _ h => h, ho, by simp, rfl, ?_, us, hs'.subset, listIn_of h' (ho.sub hs')⟩
    intro x hx
    exact ((sepBy_inn (P := RangeIn) (fun h hs => h.mono hs) (fun _ _ h ho => rangeIn_of h ho) h (ho.sub hs)).2 x hx).mono hs.subset

omit [FloatFmt] in
theorem extensions_part {M ts} (hM : MsgPath M) {es : List Extensions} (h : ∀ e ∈ es, ExtnIn ts e) :
    Part M [5] ts (· ∈ under [5] (extensionsMarks 0 es)) := by
  have hr : ∀ x ∈ extensionRanges es, ∃ e ∈ es, ∃ us, us ⊆ ts ∧ Ord us ∧ e.span = extent us ∧ RangeIn us x.1 ∧
      ∃ vs, vs ⊆ us ∧ ListIn vs x.2 := by
    intro x hx
    obtain ⟨e, he, hx⟩ := List.mem_flatMap.1 hx
    obtain ⟨r, hr, rfl⟩ := List.mem_map.1 hx
    obtain ⟨us, h1, h2, h3, h4, h5, h6⟩ := h e he
    exact ⟨e, he, us, h1, h2, h4, h5 r hr, h6⟩
  refine (Part.block (R := fun m => ∃ e ∈ es, m = ⟨[5], e.span, e.comments⟩)
    (P := At 0 5 (extensionRanges es) fun r => extRangeMarks r.2 r.1) (fun m hm => ?_) (fun m hm => ?_) (Part.at 5 fun i y hy => ?_)
    (fun m hm => at_ne hm) (fun m hm => ?_)).congr fun m => (extensionsMarks_at 5 es 0 m).symm
  · obtain ⟨_, _, rfl⟩ := hm; rfl
  · obtain ⟨e, he, rfl⟩ := hm; exact (h e he).inn
  · obtain ⟨e, he, us, h1, h2, h3, h4, vs, h5, h6⟩ := hr y hy
    exact (extRange_whole hM h4 h6 h5).mono h1
  · obtain ⟨x, hx, y, hy, e⟩ := at_mem hm
    obtain ⟨r, hr, us, h1, h2, h3, h4, vs, h5, h6⟩ := hr x hx
    refine ⟨_, ⟨r, hr, rfl⟩, ?_⟩
    rw [← e]
    show Within _ r.span
    rw [h3]
    exact ((extRange_whole (i := 0) hM h4 h6 h5).inn y hy).within h2

end
end Verif.Nesting
