import Verif.Proofs.Sib
/-!
The elements of a list are written one after the other.
-/
namespace Verif.Nesting
open Verif.Ast Verif.Spec Verif.Places Verif.Gen

/-- The tokens follow each other. -/
def Str (ts : List ATok) : Prop := ts.Pairwise fun a b => a.span.stop ≤ b.span.start

theorem Str.sub {a b : List ATok} (h : Str b) (hs : a.Sublist b) : Str a := List.Pairwise.sublist hs h

/-- Spans of the tokens that follow each other. -/
def Sq (ts : List ATok) (l : List Span) : Prop := (∀ s ∈ l, Inn ts s) ∧ Follow l

theorem Sq.nil {ts} : Sq ts [] := ⟨nofun, List.Pairwise.nil⟩
theorem Sq.one {ts s} (h : Inn ts s) : Sq ts [s] := ⟨fun x hx => by rw [List.mem_singleton.1 hx]; exact h, List.pairwise_singleton _ _⟩
theorem Sq.mono {ts ts' l} (h : Sq ts l) (hs : ts ⊆ ts') : Sq ts' l := ⟨fun s hx => (h.1 s hx).mono hs, h.2⟩
theorem Sq.append {t u l m} (hl : Sq t l) (hm : Sq u m) (h : Str (t ++ u)) : Sq (t ++ u) (l ++ m) := by
  refine ⟨fun s hs => ?_, List.pairwise_append.2 ⟨hl.2, hm.2, fun a ha b hb => ?_⟩⟩
  · rcases List.mem_append.1 hs with hs | hs
    · exact (hl.1 s hs).mono (List.subset_append_left _ _)
    · exact (hm.1 s hs).mono (List.subset_append_right _ _)
  · obtain ⟨_, _, z, hz, _, h1⟩ := hl.1 a ha
    obtain ⟨x, hx, _, _, h2, _⟩ := hm.1 b hb
    have := (List.pairwise_append.1 h).2.2 z hz x hx
    omega

theorem many_seq {σ : Type} {elem : List ATok → σ → σ → Prop} (g : σ → List Span)
    (hs : ∀ t s s', elem t s s' → Str t → ∃ l, g s' = g s ++ l ∧ Sq t l) {ts s s'} (h : Many elem ts s s') (ho : Str ts) :
    ∃ l, g s' = g s ++ l ∧ Sq ts l := by
  induction h with
  | nil => exact ⟨[], by simp, Sq.nil⟩
  | cons he _ ih =>
    obtain ⟨l, e, hl⟩ := hs _ _ _ he (ho.sub (List.sublist_append_left ..))
    obtain ⟨m, e', hm⟩ := ih (ho.sub (List.sublist_append_right ..))
    exact ⟨l ++ m, by rw [e', e, List.append_assoc], hl.append hm ho⟩

theorem many_str {σ : Type} {elem : List ATok → σ → σ → Prop} (I : σ → Prop)
    (hs : ∀ t s s', elem t s s' → Str t → I s → I s') {ts s s'} (h : Many elem ts s s') (ho : Str ts) (h0 : I s) : I s' := by
  induction h with
  | nil => exact h0
  | cons he _ ih => exact ih (ho.sub (List.sublist_append_right ..)) (hs _ _ _ he (ho.sub (List.sublist_append_left ..)) h0)

theorem sepBy_seq {α : Type} {sep : Token} {item : List ATok → α → Prop} (g : α → Span)
    (hi : ∀ t a, item t a → Inn t (g a)) {ts as} (h : SepBy sep item ts as) (ho : Str ts) : Sq ts (as.map g) := by
  induction h with
  | one h => exact Sq.one (hi _ _ h)
  | @cons t a c ts as h _ _ ih =>
    have h2 := ih (ho.sub ((List.sublist_cons_self ..).trans (List.sublist_append_right ..)))
    exact (Sq.one (hi _ _ h)).append (h2.mono (List.subset_cons_self ..)) ho

theorem inn_range {ts r} (h : RangeG ts r) : Inn ts r.span := by
  cases h with
  | single h => exact inn_join (inn_int h) (inn_int h)
  | to h _ h' =>
    exact inn_join ((inn_int h).mono (List.subset_append_left _ _))
      ((inn_int h').mono (fun x hx => List.mem_append_right _ (.tail _ hx)))
  | max h _ _ => exact inn_join ((inn_int h).mono (List.subset_append_left _ _)) (inn_tok (by simp))

theorem reserved_sq {ts r} (h : ReservedG ts r) (ho : Str ts) :
    Sq ts ((reservedRanges [r]).map (·.span)) ∧ Sq ts ((resIdents [r]).map (·.span)) := by
  have hs : ∀ {l r : ATok} {ts : List ATok}, ts.Sublist (l :: ts ++ [r]) :=
    fun {_ _ _} => (List.sublist_cons_self ..).trans (List.sublist_append_left ..)
  cases h with
  | ranges _ h _ =>
    refine ⟨?_, Sq.nil⟩
    simp only [reservedRanges, List.flatMap_cons, List.flatMap_nil, List.append_nil]
    exact (sepBy_seq (·.span) (fun _ _ h => inn_range h) h (ho.sub hs)).mono hs.subset
  | names _ h _ =>
    refine ⟨Sq.nil, ?_⟩
    simp only [resIdents, List.flatMap_cons, List.flatMap_nil, List.append_nil]
    exact (sepBy_seq (·.span) (fun _ _ h => inn_str h.1.1) h (ho.sub hs)).mono hs.subset

theorem reservedRanges_app (a b : List Reserved) : reservedRanges (a ++ b) = reservedRanges a ++ reservedRanges b := by
  simp [reservedRanges]
theorem resIdents_app (a b : List Reserved) : resIdents (a ++ b) = resIdents a ++ resIdents b := by
  simp [resIdents]

variable [FloatFmt]

theorem extensions_sq {ts e} (h : ExtensionsG ts e) (ho : Str ts) : Sq ts ((extensionRanges [e]).map (·.1.span)) := by
  cases h with
  | @mk k ts rs us os z _ h h' _ _ =>
    have hs : ts.Sublist (k :: ts ++ us ++ [z]) :=
      ((List.sublist_cons_self ..).trans (List.sublist_append_left ..)).trans (List.sublist_append_left ..)
    have := (sepBy_seq (·.span) (fun _ _ h => inn_range h) h (ho.sub hs)).mono hs.subset
    simpa [extensionRanges, Function.comp_def] using this

theorem value_inn {ts v} (h : EnumValueG ts v) : Inn ts v.span := by
  cases h with
  | mk _ _ _ _ _ => exact inn_extent (by simp)

theorem enum_s {ts e} (h : EnumG ts e) (ho : Str ts) : EnumS e ∧ Inn ts e.span := by
  cases h with
  | @mk k is name o ts os vs rs z hk h1 _ hm _ =>
    have hs : ts.Sublist (k :: is ++ o :: ts ++ [z]) := Dist.mid_sub
    have ho' := ho.sub hs
    refine ⟨⟨?_, ?_, ?_⟩, inn_extent (by simp)⟩
    · obtain ⟨l, e, h⟩ := many_seq (fun s => s.2.1.map (·.span)) (by
        intro t s s' h ho
        cases h with
        | value h _ => exact ⟨[_], by simp, Sq.one (value_inn h)⟩
        | _ _ => exact ⟨[], by simp, Sq.nil⟩) hm ho'
      simp only [List.map_nil, List.nil_append] at e
      rw [e]; exact h.2
    · obtain ⟨l, e, h⟩ := many_seq (fun s => (reservedRanges s.2.2).map (·.span)) (by
        intro t s s' h ho
        cases h with
        | reserved h => exact ⟨_, by rw [reservedRanges_app, List.map_append], (reserved_sq h ho).1⟩
        | value _ _ => exact ⟨[], by simp, Sq.nil⟩
        | _ _ => exact ⟨[], by simp, Sq.nil⟩) hm ho'
      rw [show (reservedRanges ([] : List Reserved)).map (·.span) = [] from rfl, List.nil_append] at e
      rw [e]; exact h.2
    · obtain ⟨l, e, h⟩ := many_seq (fun s => (resIdents s.2.2).map (·.span)) (by
        intro t s s' h ho
        cases h with
        | reserved h => exact ⟨_, by rw [resIdents_app, List.map_append], (reserved_sq h ho).2⟩
        | value _ _ => exact ⟨[], by simp, Sq.nil⟩
        | _ _ => exact ⟨[], by simp, Sq.nil⟩) hm ho'
      rw [show (resIdents ([] : List Reserved)).map (·.span) = [] from rfl, List.nil_append] at e
      rw [e]; exact h.2

theorem method_inn {ts x} (h : MethodG ts x) : Inn ts x.span := by
  cases h with
  | mk _ _ _ _ _ _ _ _ _ _ => exact inn_extent (by simp)

theorem service_s {ts x} (h : ServiceG ts x) (ho : Str ts) : Follow (x.methods.map (·.span)) ∧ Inn ts x.span := by
  cases h with
  | @mk k is name o ts os ms z hk h1 _ hm _ =>
    have hs : ts.Sublist (k :: is ++ o :: ts ++ [z]) := Dist.mid_sub
    refine ⟨?_, inn_extent (by simp)⟩
    obtain ⟨l, e, h⟩ := many_seq (fun s => s.2.map (·.span)) (by
      intro t s s' h ho
      cases h with
      | method h => exact ⟨[_], by simp, Sq.one (method_inn h)⟩
      | _ _ => exact ⟨[], by simp, Sq.nil⟩) hm (ho.sub hs)
    simp only [List.map_nil, List.nil_append] at e
    rw [e]; exact h.2

/-! ### Bodies -/

omit [FloatFmt] in
theorem srcSpan_field {f : Field} {y} (h : y ∈ fieldMsgs f) : srcSpan y = f.span := by
  unfold fieldMsgs at h
  split at h
  · cases h
  · rw [List.mem_singleton.1 h]; rfl
  · rw [List.mem_singleton.1 h]; rfl

omit [FloatFmt] in
theorem fieldMsgs_sq {ts} {f : Field} (h : Inn ts f.span) : Sq ts ((fieldMsgs f).map srcSpan) := by
  unfold fieldMsgs
  split
  · exact Sq.nil
  · exact Sq.one h
  · exact Sq.one h

section
variable {body : List ATok → MessageBody → Prop}

theorem field_inn {ts f} (h : FieldG body ts f) : Inn ts f.span := by
  cases h with
  | normal _ _ _ _ _ _ _ _ _ => exact inn_extent (by simp)
  | map _ _ _ _ _ _ _ _ _ _ _ _ => exact inn_extent (by simp)
  | group _ _ _ _ _ _ _ _ _ _ => exact inn_extent (by simp)

theorem oneof_sq {ts o} (h : OneofG body ts o) (ho : Str ts) (π : Field → List Span)
    (hπ : ∀ t f, Inn t f.span → Sq t (π f)) : Inn ts o.span ∧ Sq ts (o.fields.flatMap π) := by
  cases h with
  | @mk k is name o ts os fs z hk h1 _ hm _ =>
    have hs : ts.Sublist (k :: is ++ o :: ts ++ [z]) := Dist.mid_sub
    refine ⟨inn_extent (by simp), ?_⟩
    obtain ⟨l, e, h⟩ := many_seq (fun s => s.2.flatMap π) (by
      intro t s s' h ho
      cases h with
      | field h _ => exact ⟨_, List.flatMap_append, by simpa using hπ _ _ (field_inn h)⟩
      | _ _ => exact ⟨[], by simp, Sq.nil⟩) hm (ho.sub hs)
    simp only [List.flatMap_nil, List.nil_append] at e
    show Sq _ (fs.flatMap π)
    rw [e]; exact h.mono hs.subset

theorem extend_sq {ts o} (h : ExtendG body ts o) (ho : Str ts) (π : Field → List Span)
    (hπ : ∀ t f, Inn t f.span → Sq t (π f)) : Sq ts (o.fields.flatMap π) := by
  cases h with
  | @mk k ns t o ts fs z hk h1 _ hm _ =>
    have hs : ts.Sublist (k :: ns ++ o :: ts ++ [z]) := Dist.mid_sub
    obtain ⟨l, e, h⟩ := many_seq (fun s => s.flatMap π) (by
      intro t s s' h ho
      cases h with
      | field h => exact ⟨_, List.flatMap_append, by simpa using hπ _ _ (field_inn h)⟩
      | _ _ => exact ⟨[], by simp, Sq.nil⟩) hm (ho.sub hs)
    simp only [List.flatMap_nil, List.nil_append] at e
    show Sq _ (fs.flatMap π)
    rw [e]; exact h.mono hs.subset

omit [FloatFmt] in
theorem message_inn {ts x} (h : MessageG body ts x) : Inn ts x.span := by
  cases h with
  | mk _ _ _ _ _ => exact inn_extent (by simp)

/-- The tokens of an item. -/
inductive ItemG (body : List ATok → MessageBody → Prop) : List ATok → MessageItem → Prop where
  | field {ts f} : FieldG body ts f → ItemG body ts (.field f)
  | oneof {ts o} : OneofG body ts o → ItemG body ts (.oneof o)
  | enum {ts e} : EnumG ts e → ItemG body ts (.enum e)
  | message {ts x} : MessageG body ts x → ItemG body ts (.message x)
  | extend {ts e} : ExtendG body ts e → ItemG body ts (.extend e)

theorem items_sq {ts b} (h : Many (BodyElem body) ts ⟨[], [], [], []⟩ b) (ho : Str ts) (π : MessageItem → List Span)
    (hπ : ∀ t x, ItemG body t x → Str t → Sq t (π x)) : Follow (b.items.flatMap π) := by
  obtain ⟨l, e, h⟩ := many_seq (fun b : MessageBody => b.items.flatMap π) (by
    intro t s s' h ho
    have one : ∀ x, ItemG body t x → ∃ l, (s.items ++ [x]).flatMap π = s.items.flatMap π ++ l ∧ Sq t l :=
      fun x hx => ⟨_, List.flatMap_append, by simpa using hπ t x hx ho⟩
    cases h with
    | field h _ => exact one _ (.field h)
    | oneof h => exact one _ (.oneof h)
    | enum h => exact one _ (.enum h)
    | message h => exact one _ (.message h)
    | extend h => exact one _ (.extend h)
    | _ _ => exact ⟨[], by simp, Sq.nil⟩) h ho
  simp only [List.flatMap_nil, List.nil_append] at e
  rw [e]; exact h.2
end

def fieldSpans : MessageItem → List Span
  | .field f => [f.span]
  | .oneof o => o.fields.map (·.span)
  | _ => []

omit [FloatFmt] in
theorem fieldsFrom_spans : ∀ (xs : List MessageItem) (k : Nat), (fieldsFrom k xs).map (·.2.span) = xs.flatMap fieldSpans
  | [], _ => rfl
  | x :: xs, k => by
    have ih := fieldsFrom_spans xs
    cases x <;> simp [fieldsFrom, fieldSpans, ih, Function.comp_def]

def enumSpans : MessageItem → List Span
  | .enum e => [e.span]
  | _ => []
def oneofSpans : MessageItem → List Span
  | .oneof e => [e.span]
  | _ => []
def extSpans : MessageItem → List Span
  | .extend e => e.fields.map (·.span)
  | _ => []

omit [FloatFmt] in
theorem enums_spans (b : MessageBody) : (bodyEnums b).map (·.span) = b.items.flatMap enumSpans := by
  unfold bodyEnums
  generalize b.items = xs
  induction xs with
  | nil => rfl
  | cons x xs ih => cases x <;> simp_all [enumSpans]

omit [FloatFmt] in
theorem oneofs_spans (b : MessageBody) : (bodyOneofs b).map (·.span) = b.items.flatMap oneofSpans := by
  unfold bodyOneofs
  generalize b.items = xs
  induction xs with
  | nil => rfl
  | cons x xs ih => cases x <;> simp_all [oneofSpans]

omit [FloatFmt] in
theorem exts_spans (b : MessageBody) : (bodyExts b).map (·.2.span) = b.items.flatMap extSpans := by
  unfold bodyExts
  generalize b.items = xs
  induction xs with
  | nil => rfl
  | cons x xs ih => cases x <;> simp_all [extSpans, extendFields, Function.comp_def]

omit [FloatFmt] in
theorem msgs_spans (b : MessageBody) : (bodyMsgs b).map srcSpan = b.items.flatMap fun x => (itemMsgs x).map srcSpan := by
  simp [bodyMsgs, List.map_flatMap]

def SrcS (y : MsgSrc) : Prop := ∀ s, SWhole (srcSpan y) (· ∈ srcMarks s y)

/-- The messages and enums of an item. -/
def ItemS (x : MessageItem) : Prop := (∀ y ∈ itemMsgs x, SrcS y) ∧ ∀ e, x = .enum e → EnumS e

omit [FloatFmt] in
theorem body_spart {b : MessageBody} (hi : ∀ x ∈ b.items, ItemS x) (hF : Follow (b.items.flatMap fieldSpans))
    (hM : Follow ((bodyMsgs b).map srcSpan)) (hE : Follow (b.items.flatMap enumSpans)) (hO : Follow (b.items.flatMap oneofSpans))
    (hX : Follow (b.items.flatMap extSpans)) (hR : Follow ((reservedRanges b.reserved).map (·.span)))
    (hN : Follow ((resIdents b.reserved).map (·.span))) (hG : Follow ((extensionRanges b.extensions).map (·.1.span))) (s : Syntax') :
    SPart [2, 3, 4, 6, 8, 9, 10, 5, 7] (· ∈ bodyMarks s b) := by
  have pF : SPart [2] (At 0 2 (bodyFields b) (placeMarks s)) :=
    SPart.at 2 (sp := fun z => z.2.span) (fun y _ => field_swhole s y) (by rw [bodyFields, fieldsFrom_spans]; exact hF)
  have pM : SPart [3] (At 0 3 (bodyMsgs b) (srcMarks s)) := SPart.at 3 (fun y hy => by
    obtain ⟨x, hx, hy⟩ := List.mem_flatMap.1 hy
    exact (hi x hx).1 y hy s) hM
  have pE : SPart [4] (At 0 4 (bodyEnums b) enumMarks) := SPart.at 4 (sp := fun e => e.span) (fun y hy => by
    obtain ⟨x, hx, hy⟩ := List.mem_filterMap.1 hy
    have hx := hi x hx
    cases x with
    | enum e => cases hy; exact enum_swhole (hx.2 _ rfl)
    | _ => cases hy) (by rw [enums_spans]; exact hE)
  have pO : SPart [8] (At 0 8 (bodyOneofs b) oneofMarks) :=
    SPart.at 8 (sp := fun e => e.span) (fun y _ => oneof_swhole y) (by rw [oneofs_spans]; exact hO)
  have pX : SPart [6] (fun m => BlockMark 6 (extendBlocks b.items) m ∨ At 0 6 (bodyExts b) (placeMarks s) m) :=
    SPart.block (by rintro _ ⟨_, _, rfl⟩; rfl)
      (SPart.at 6 (sp := fun z => z.2.span) (fun y _ => field_swhole s y) (by rw [exts_spans]; exact hX))
  refine (pF.or (pM.or (pE.or (pX.or (pO.or ((reserved_spart (tagR := 9) (tagN := 10) (by decide) hR hN).or
    ((extensions_spart hG).or (SPart.opts (t := 7) (os := b.options)) (by decide)) (by decide)) (by decide)) (by decide))
    (by decide)) (by decide)) (by decide)).congr fun m => ?_
  rw [bodyMarks_at]
  simp only [bodyTailMarks, List.mem_append, Tag.messageReservedRange, Tag.messageReservedName, Tag.messageExtensionRange,
    Tag.messageOptions]
  exact Iff.of_eq (by ac_rfl)

section
variable {body : List ATok → MessageBody → Prop}
  (hb : ∀ ts b, body ts b → Str ts → ∀ s, SPart [2, 3, 4, 6, 8, 9, 10, 5, 7] (· ∈ bodyMarks s b))
include hb

theorem field_srcs {ts f} (h : FieldG body ts f) (ho : Str ts) : ∀ y ∈ fieldMsgs f, SrcS y := by
  cases h with
  | normal _ _ _ _ _ _ _ _ _ => nofun
  | map _ _ _ _ _ _ _ _ _ _ _ _ =>
    intro y hy s
    simp only [fieldMsgs, List.mem_singleton] at hy
    subst hy
    exact SWhole.none fun m hm => by simp [srcMarks] at hm
  | @group ls label g is name e ns number us os o bs b z h1 _ h4 _ _ h5 h6 _ h7 _ =>
    have hsb : bs.Sublist (ls ++ g :: is ++ e :: ns ++ us ++ o :: bs ++ [z]) :=
      ((List.sublist_cons_self ..).trans (List.sublist_append_right ..)).trans (List.sublist_append_left ..)
    intro y hy s
    simp only [fieldMsgs, List.mem_singleton] at hy
    subst hy
    refine (SWhole.mk' (c := comments (ls ++ [g]) o) ((SPart.leaf (sp := name.span) (c := {}) 1).or (hb bs b h7 (ho.sub hsb) s)
      (by decide))).congr fun m => ?_
    simp only [srcMarks, srcSpan, groupMsgMarks, List.mem_append, List.mem_cons, List.not_mem_nil, or_false, Tag.messageName, or_assoc]

theorem oneof_srcs {ts o} (h : OneofG body ts o) (ho : Str ts) : ∀ f ∈ o.fields, ∀ y ∈ fieldMsgs f, SrcS y := by
  cases h with
  | @mk k is name o ts os fs z hk h1 _ hm _ =>
    exact many_str (fun s : List Opt × List Field => ∀ f ∈ s.2, ∀ y ∈ fieldMsgs f, SrcS y) (by
      intro t s s' h ho h0
      cases h with
      | field h _ => exact snoc h0 (field_srcs hb h ho)
      | _ _ => exact h0) hm (ho.sub Dist.mid_sub) nofun

theorem extend_srcs {ts o} (h : ExtendG body ts o) (ho : Str ts) : ∀ f ∈ o.fields, ∀ y ∈ fieldMsgs f, SrcS y := by
  cases h with
  | @mk k ns t o ts fs z hk h1 _ hm _ =>
    exact many_str (fun s : List Field => ∀ f ∈ s, ∀ y ∈ fieldMsgs f, SrcS y) (by
      intro t s s' h ho h0
      cases h with
      | field h => exact snoc h0 (field_srcs hb h ho)
      | _ _ => exact h0) hm (ho.sub Dist.mid_sub) nofun

omit [FloatFmt] in
theorem message_srcs {ts x} (h : MessageG body ts x) (ho : Str ts) : SrcS (.message x) := by
  cases h with
  | @mk k is name o ts b z hk h1 _ hm _ =>
    intro s
    refine (SWhole.mk' (c := comments (k :: is) o) ((SPart.leaf (sp := name.span) (c := {}) 1).or
      (hb ts b hm (ho.sub Dist.mid_sub) s) (by decide))).congr fun m => ?_
    simp only [srcMarks, srcSpan, messageMarks, List.mem_cons, Tag.messageName]

theorem item_s {ts x} (h : ItemG body ts x) (ho : Str ts) : ItemS x := by
  cases h with
  | field h => exact ⟨field_srcs hb h ho, nofun⟩
  | oneof h =>
    refine ⟨fun y hy => ?_, nofun⟩
    obtain ⟨f, hf, hy⟩ := List.mem_flatMap.1 hy
    exact oneof_srcs hb h ho f hf y hy
  | extend h =>
    refine ⟨fun y hy => ?_, nofun⟩
    obtain ⟨f, hf, hy⟩ := List.mem_flatMap.1 hy
    exact extend_srcs hb h ho f hf y hy
  | message h => exact ⟨fun y hy => by rw [List.mem_singleton.1 hy]; exact message_srcs hb h ho, nofun⟩
  | enum h => exact ⟨nofun, fun e he => by cases he; exact (enum_s h ho).1⟩

theorem bodyMany_spart {ts b} (h : Many (BodyElem body) ts ⟨[], [], [], []⟩ b) (ho : Str ts) (s) :
    SPart [2, 3, 4, 6, 8, 9, 10, 5, 7] (· ∈ bodyMarks s b) := by
  have one : ∀ t (f : Field), Inn t f.span → Sq t [f.span] := fun _ _ h => Sq.one h
  have msg : ∀ t (f : Field), Inn t f.span → Sq t ((fieldMsgs f).map srcSpan) := fun _ _ h => fieldMsgs_sq h
  have fl : ∀ fs : List Field, fs.flatMap (fun f => [f.span]) = fs.map (·.span) := fun fs => by
    induction fs with
    | nil => rfl
    | cons f fs ih => simp [ih]
  have ml : ∀ fs : List Field, fs.flatMap (fun f => (fieldMsgs f).map srcSpan) = (fs.flatMap fieldMsgs).map srcSpan := fun fs => by
    simp [List.map_flatMap]
  refine body_spart ?_ ?_ ?_ ?_ ?_ ?_ ?_ ?_ ?_ s
  · refine many_str (fun b : MessageBody => ∀ x ∈ b.items, ItemS x) ?_ h ho nofun
    intro t s s' h ho h0
    cases h with
    | field h _ => exact snoc h0 (item_s hb (.field h) ho)
    | oneof h => exact snoc h0 (item_s hb (.oneof h) ho)
    | enum h => exact snoc h0 (item_s hb (.enum h) ho)
    | message h => exact snoc h0 (item_s hb (.message h) ho)
    | extend h => exact snoc h0 (item_s hb (.extend h) ho)
    | _ _ => exact h0
  · refine items_sq h ho _ fun t x hx ht => ?_
    cases hx with
    | field h => exact Sq.one (field_inn h)
    | oneof h => have := (oneof_sq h ht _ one).2; rw [fl] at this; exact this
    | _ _ => exact Sq.nil
  · rw [msgs_spans]
    refine items_sq h ho _ fun t x hx ht => ?_
    cases hx with
    | field h => exact fieldMsgs_sq (field_inn h)
    | oneof h => have := (oneof_sq h ht _ msg).2; rw [ml] at this; exact this
    | extend h => have := extend_sq h ht _ msg; rw [ml] at this; exact this
    | message h => exact Sq.one (message_inn h)
    | enum h => exact Sq.nil
  · refine items_sq h ho _ fun t x hx ht => ?_
    cases hx with
    | enum h => exact Sq.one (enum_s h ht).2
    | _ _ => exact Sq.nil
  · refine items_sq h ho _ fun t x hx ht => ?_
    cases hx with
    | oneof h => exact Sq.one (oneof_sq h ht _ one).1
    | _ _ => exact Sq.nil
  · refine items_sq h ho _ fun t x hx ht => ?_
    cases hx with
    | extend h => have := extend_sq h ht _ one; rw [fl] at this; exact this
    | _ _ => exact Sq.nil
  · obtain ⟨l, e, h⟩ := many_seq (fun b : MessageBody => (reservedRanges b.reserved).map (·.span)) (by
      intro t s s' h ho
      cases h with
      | reserved h => exact ⟨_, by rw [reservedRanges_app, List.map_append], (reserved_sq h ho).1⟩
      | field _ _ => exact ⟨[], by simp, Sq.nil⟩
      | _ _ => exact ⟨[], by simp, Sq.nil⟩) h ho
    rw [show (reservedRanges ([] : List Reserved)).map (·.span) = [] from rfl, List.nil_append] at e
    rw [e]; exact h.2
  · obtain ⟨l, e, h⟩ := many_seq (fun b : MessageBody => (resIdents b.reserved).map (·.span)) (by
      intro t s s' h ho
      cases h with
      | reserved h => exact ⟨_, by rw [resIdents_app, List.map_append], (reserved_sq h ho).2⟩
      | field _ _ => exact ⟨[], by simp, Sq.nil⟩
      | _ _ => exact ⟨[], by simp, Sq.nil⟩) h ho
    rw [show (resIdents ([] : List Reserved)).map (·.span) = [] from rfl, List.nil_append] at e
    rw [e]; exact h.2
  · obtain ⟨l, e, h⟩ := many_seq (fun b : MessageBody => (extensionRanges b.extensions).map (·.1.span)) (by
      intro t s s' h ho
      cases h with
      | extensions h => exact ⟨_, by simp only [extensionRanges, List.flatMap_append, List.map_append], extensions_sq h ho⟩
      | field _ _ => exact ⟨[], by simp, Sq.nil⟩
      | _ _ => exact ⟨[], by simp, Sq.nil⟩) h ho
    rw [show (extensionRanges ([] : List Extensions)).map (·.1.span) = [] from rfl, List.nil_append] at e
    rw [e]; exact h.2
end

theorem bodyG_spart : ∀ (d : Nat) (ts b), BodyG d ts b → Str ts → ∀ s, SPart [2, 3, 4, 6, 8, 9, 10, 5, 7] (· ∈ bodyMarks s b)
  | 0, _, _, h, _ => h.elim
  | d + 1, _, _, h, ho => fun s => bodyMany_spart (fun ts b h ho => bodyG_spart d ts b h ho) h ho s

theorem anyBody_spart (ts b) (h : AnyBodyG ts b) (ho : Str ts) : ∀ s, SPart [2, 3, 4, 6, 8, 9, 10, 5, 7] (· ∈ bodyMarks s b) := by
  obtain ⟨d, h⟩ := h
  exact bodyG_spart d ts b h ho

end Verif.Nesting
