import Verif.Proofs.Nest3
/-!
The marks of message bodies and files nest.
-/
namespace Verif.Nesting
open Verif.Ast Verif.Spec Verif.Places Verif.Gen

/-- A field that is not an extension. -/
theorem FieldGood.plain {ts f} (h : FieldGood ts f) {M s pl} (hp : ∀ t, pl ≠ .extend t) : Whole M ts (· ∈ placeMarks s (pl, f)) := by
  obtain ⟨c, P, h1, h2, h3⟩ := h.own s pl.scope M
  refine (Whole.rootBut (c := c) h2 h.span fun m hm => .inr (h3 m hm)).congr fun m => ?_
  have e : extendeeMarks pl = [] := by
    cases pl with
    | extend t => exact absurd rfl (hp t)
    | _ => rfl
  simp only [placeMarks, e, List.nil_append, h1]

/-- An extension: the name of the extended message is elsewhere. -/
theorem FieldGood.ext {ts f} (h : FieldGood ts f) {M s t} (hM : ExtPath M) (ht : Inn ts (tspan t)) :
    Whole M ts (· ∈ placeMarks s (.extend t, f)) := by
  obtain ⟨c, P, h1, h2, h3⟩ := h.own s .extend M
  refine (Whole.rootBut (c := c) ((Part.leaf (c := {}) 2 ht).or h2 (by decide)) h.span ?_).congr fun m => ?_
  · rintro m (rfl | hm)
    · exact .inl (.extendee hM)
    · exact .inr (h3 m hm)
  · simp only [placeMarks, extendeeMarks, Place.scope, List.mem_append, List.mem_singleton, h1, Tag.fieldExtendee]
    exact Iff.of_eq (by ac_rfl)

def ExtendGood (ts : List ATok) (e : Extend) : Prop := Stmt ts e.span fun us =>
  Inn us (tspan e.extendee) ∧ ∀ f ∈ e.fields, FieldGood us f

theorem ExtendGood.fields {ts e} (h : ExtendGood ts e) : ∀ f ∈ e.fields, FieldGood ts f := by
  obtain ⟨us, h1, _, _, _, _, h⟩ := h
  exact fun f hf => (h f hf).mono h1

/-- The `extend` blocks and their fields. -/
theorem extends_part {M ts s} {tag : Int} {es : List Extend} (htag : ∀ i : Nat, ExtPath (M ++ [tag, (i : Int)]))
    (h : ∀ e ∈ es, ExtendGood ts e) :
    Part M [tag] ts (fun m => BlockMark tag es m ∨ At 0 tag (es.flatMap extendFields) (placeMarks s) m) := by
  have hr : ∀ x ∈ es.flatMap extendFields, ∃ e ∈ es, ∃ us, us ⊆ ts ∧ Ord us ∧ e.span = extent us ∧
      ∀ M, ExtPath M → Whole M us (· ∈ placeMarks s x) := by
    intro x hx
    obtain ⟨e, he, hx⟩ := List.mem_flatMap.1 hx
    obtain ⟨f, hf, rfl⟩ := List.mem_map.1 hx
    obtain ⟨us, h1, h2, h3, h4, h5, h6⟩ := h e he
    exact ⟨e, he, us, h1, h2, h4, fun M hM => (h6 f hf).ext hM h5⟩
  refine Part.block (fun m hm => ?_) (fun m hm => ?_) (Part.at tag fun i y hy => ?_) (fun m hm => at_ne hm) (fun m hm => ?_)
  · obtain ⟨_, _, rfl⟩ := hm; rfl
  · obtain ⟨e, he, rfl⟩ := hm; exact (h e he).inn
  · obtain ⟨e, he, us, h1, h2, h3, h4⟩ := hr y hy
    exact (h4 _ (htag i)).mono h1
  · obtain ⟨x, hx, y, hy, e⟩ := at_mem hm
    obtain ⟨r, hr, us, h1, h2, h3, h4⟩ := hr x hx
    refine ⟨_, ⟨r, hr, rfl⟩, ?_⟩
    rw [← e]
    show Within _ r.span
    rw [h3]
    exact ((h4 _ (htag 0)).inn y hy).within h2

def ItemGood (ts : List ATok) : MessageItem → Prop
  | .field f => FieldGood ts f
  | .enum e => ∀ M, Whole M ts (· ∈ enumMarks e)
  | .message m => SrcGood ts (.message m)
  | .extend e => ExtendGood ts e
  | .oneof o => (∀ M, Whole M ts (· ∈ oneofMarks o)) ∧ ∀ f ∈ o.fields, FieldGood ts f

theorem fieldsFrom_good {ts} : ∀ (xs : List MessageItem) (k : Nat), (∀ x ∈ xs, ItemGood ts x) →
    ∀ z ∈ fieldsFrom k xs, FieldGood ts z.2 ∧ ∀ t, z.1 ≠ .extend t
  | [], _, _, _, hz => by cases hz
  | x :: xs, k, h, z, hz => by
    have ih := fun k => fieldsFrom_good xs k (fun x hx => h x (.tail _ hx)) z
    have h0 := h x (.head _)
    cases x with
    | field f =>
      rcases List.mem_cons.1 hz with rfl | hz
      · exact ⟨h0, nofun⟩
      · exact ih _ hz
    | oneof o =>
      rcases List.mem_append.1 hz with hz | hz
      · obtain ⟨f, hf, rfl⟩ := List.mem_map.1 hz
        exact ⟨h0.2 f hf, nofun⟩
      · exact ih _ hz
    | enum _ => exact ih _ hz
    | message _ => exact ih _ hz
    | extend _ => exact ih _ hz

theorem bodyExts_blocks : ∀ xs : List MessageItem, bodyExts (bdy xs) = (extendBlocks xs).flatMap extendFields
  | [] => rfl
  | x :: xs => by
    rw [bodyExts_cons, extendBlocks_cons, bodyExts_blocks xs]
    cases x <;> simp

theorem body_part {ts} {b : MessageBody} (hi : ∀ x ∈ b.items, ItemGood ts x) (he : ∀ x ∈ b.extensions, ExtnIn ts x)
    (ho : ∀ x ∈ b.options, Inn ts x.span) (hr : ∀ x ∈ b.reserved, ResIn ts x) (s M) (hM : MsgPath M) :
    Part M [2, 3, 4, 6, 8, 9, 10, 5, 7] ts (· ∈ bodyMarks s b) := by
  have pF : Part M [2] ts (At 0 2 (bodyFields b) (placeMarks s)) := Part.at 2 fun i y hy => by
    obtain ⟨h1, h2⟩ := fieldsFrom_good b.items 0 hi y hy
    exact h1.plain h2
  have pM : Part M [3] ts (At 0 3 (bodyMsgs b) (srcMarks s)) := Part.at 3 fun i y hy => by
    obtain ⟨x, hx, hy⟩ := List.mem_flatMap.1 hy
    have hx := hi x hx
    refine (?_ : SrcGood ts y) s _ (.nested i hM)
    cases x with
    | field f => exact hx.msgs y hy
    | enum _ => cases hy
    | message m => rw [List.mem_singleton.1 hy]; exact hx
    | extend e =>
      obtain ⟨f, hf, hy⟩ := List.mem_flatMap.1 hy
      exact (hx.fields f hf).msgs y hy
    | oneof o =>
      obtain ⟨f, hf, hy⟩ := List.mem_flatMap.1 hy
      exact (hx.2 f hf).msgs y hy
  have pE : Part M [4] ts (At 0 4 (bodyEnums b) enumMarks) := Part.at 4 fun i y hy => by
    obtain ⟨x, hx, hy⟩ := List.mem_filterMap.1 hy
    have hx := hi x hx
    cases x with
    | enum e => cases hy; exact hx _
    | _ => cases hy
  have pO : Part M [8] ts (At 0 8 (bodyOneofs b) oneofMarks) := Part.at 8 fun i y hy => by
    obtain ⟨x, hx, hy⟩ := List.mem_filterMap.1 hy
    have hx := hi x hx
    cases x with
    | oneof e => cases hy; exact hx.1 _
    | _ => cases hy
  have pX : Part M [6] ts (fun m => BlockMark 6 (extendBlocks b.items) m ∨ At 0 6 (bodyExts b) (placeMarks s) m) := by
    have e : bodyExts b = (extendBlocks b.items).flatMap extendFields := bodyExts_blocks b.items
    rw [e]
    refine extends_part (fun i => .nested i hM) fun e he => ?_
    obtain ⟨x, hx, hy⟩ := List.mem_filterMap.1 he
    have hx := hi x hx
    cases x with
    | extend e => cases hy; exact hx
    | _ => cases hy
  refine (pF.or (pM.or (pE.or (pX.or (pO.or ((reserved_part (tagR := 9) (tagN := 10) (by decide) hr).or
    ((extensions_part hM he).or (Part.under (opts_whole (M := M ++ [7]) ho)) (by decide)) (by decide)) (by decide)) (by decide))
    (by decide)) (by decide)) (by decide)).congr fun m => ?_
  rw [bodyMarks_at]
  simp only [bodyTailMarks, List.mem_append, Tag.messageReservedRange, Tag.messageReservedName, Tag.messageExtensionRange,
    Tag.messageOptions]
  exact Iff.of_eq (by ac_rfl)

variable [FloatFmt]

section
variable {body : List ATok → MessageBody → Prop}
  (hb : ∀ ts b, body ts b → Ord ts → ∀ s M, MsgPath M → Part M [2, 3, 4, 6, 8, 9, 10, 5, 7] ts (· ∈ bodyMarks s b))
include hb

theorem oneof_good {ts o} (h : OneofG body ts o) (ho : Ord ts) : ItemGood ts (.oneof o) := by
  cases h with
  | mk hk h1 _ hm _ =>
    rename_i k is name o ts os fs z _ _
    have hs : ts.Sublist (k :: is ++ o :: ts ++ [z]) := Dist.mid_sub
    have hI := many_all (k :: is ++ o :: ts ++ [z]) (fun s : List Opt × List Field =>
      (∀ x ∈ s.1, Inn (k :: is ++ o :: ts ++ [z]) x.span) ∧
      (∀ x ∈ s.2, FieldGood (k :: is ++ o :: ts ++ [z]) x)) (by
        intro t s s' h ho hs h0
        cases h with
        | option h => exact ⟨snoc h0.1 ((inn_option h).mono hs), h0.2⟩
        | field h _ => exact ⟨h0.1, snoc h0.2 ((field_good hb h ho).mono hs)⟩
        | empty _ => exact h0) hm (ho.sub hs) hs.subset ⟨nofun, nofun⟩
    obtain ⟨i1, i2⟩ := hI
    have hn : Inn (k :: is ++ o :: ts ++ [z]) name.span := (inn_ident h1).mono (by intro x hx; simp [hx])
    refine ⟨fun M => ?_, i2⟩
    refine (Whole.root (c := comments (k :: is) o) ((Part.leaf (c := {}) 1 hn).or
      (Part.under (opts_whole (M := M ++ [2]) i1)) (by decide)) (by simp) ho).congr fun m => ?_
    simp only [oneofMarks, List.mem_cons, Tag.oneofName, Tag.oneofOptions]

theorem extend_good {ts o} (h : ExtendG body ts o) (ho : Ord ts) : ExtendGood ts o := by
  cases h with
  | mk hk h1 _ hm _ =>
    rename_i k ns t o ts fs z _ _
    have hs : ts.Sublist (k :: ns ++ o :: ts ++ [z]) := Dist.mid_sub
    have hs' : ns.Sublist (k :: ns ++ o :: ts ++ [z]) :=
      (List.sublist_cons_self ..).trans ((List.sublist_append_left ..).trans (List.sublist_append_left ..))
    refine ⟨_, fun _ h => h, ho, by simp, rfl, (inn_type h1 (ho.sub hs')).mono hs'.subset, ?_⟩
    refine many_all (k :: ns ++ o :: ts ++ [z]) (fun s : List Field => ∀ x ∈ s, FieldGood (k :: ns ++ o :: ts ++ [z]) x) ?_
      hm (ho.sub hs) hs.subset nofun
    intro t s s' h ho hs h0
    cases h with
    | field h => exact snoc h0 ((field_good hb h ho).mono hs)
    | empty _ => exact h0

omit [FloatFmt] in
theorem message_good {ts o} (h : MessageG body ts o) (ho : Ord ts) : SrcGood ts (.message o) := by
  cases h with
  | mk hk h1 _ hm _ =>
    rename_i k is name o ts b z _ _
    have hs : ts.Sublist (k :: is ++ o :: ts ++ [z]) := Dist.mid_sub
    have hn : Inn (k :: is ++ o :: ts ++ [z]) name.span := (inn_ident h1).mono (by intro x hx; simp [hx])
    intro s M hM
    refine (Whole.root (c := comments (k :: is) o) ((Part.leaf (c := {}) 1 hn).or
      ((hb ts b hm (ho.sub hs) s M hM).mono hs.subset) (by decide)) (by simp) ho).congr fun m => ?_
    simp only [srcMarks, messageMarks, List.mem_cons, Tag.messageName]

theorem bodyMany_part {ts b} (h : Many (BodyElem body) ts ⟨[], [], [], []⟩ b) (ho : Ord ts) (s M) (hM : MsgPath M) :
    Part M [2, 3, 4, 6, 8, 9, 10, 5, 7] ts (· ∈ bodyMarks s b) := by
  have hI := many_all ts (fun b : MessageBody => (∀ x ∈ b.items, ItemGood ts x) ∧ (∀ x ∈ b.extensions, ExtnIn ts x) ∧
    (∀ x ∈ b.options, Inn ts x.span) ∧ (∀ x ∈ b.reserved, ResIn ts x)) (by
      intro t s s' h ho hs h0
      obtain ⟨h1, h2, h3, h4⟩ := h0
      cases h with
      | field h _ => exact ⟨snoc h1 ((field_good hb h ho).mono hs), h2, h3, h4⟩
      | oneof h =>
        have := oneof_good hb h ho
        exact ⟨snoc h1 ⟨fun M => (this.1 M).mono hs, fun f hf => (this.2 f hf).mono hs⟩, h2, h3, h4⟩
      | enum h => exact ⟨snoc h1 (by exact (fun M => (enum_whole h ho).mono hs)), h2, h3, h4⟩
      | message h => exact ⟨snoc h1 (by exact ((message_good hb h ho).mono hs)), h2, h3, h4⟩
      | extend h => exact ⟨snoc h1 (by exact ((extend_good hb h ho).mono hs)), h2, h3, h4⟩
      | option h => exact ⟨h1, h2, snoc h3 ((inn_option h).mono hs), h4⟩
      | reserved h => exact ⟨h1, h2, h3, snoc h4 ((resIn_of h ho).mono hs)⟩
      | extensions h => exact ⟨h1, snoc h2 ((extnIn_of h ho).mono hs), h3, h4⟩
      | empty _ => exact ⟨h1, h2, h3, h4⟩) h ho (fun _ h => h) ⟨nofun, nofun, nofun, nofun⟩
  exact body_part hI.1 hI.2.1 hI.2.2.1 hI.2.2.2 s M hM
end

theorem bodyG_part : ∀ (d : Nat) (ts b), BodyG d ts b → Ord ts → ∀ s M, MsgPath M →
    Part M [2, 3, 4, 6, 8, 9, 10, 5, 7] ts (· ∈ bodyMarks s b)
  | 0, _, _, h, _ => h.elim
  | d + 1, _, _, h, ho => fun s M hM => bodyMany_part (fun ts b h ho => bodyG_part d ts b h ho) h ho s M hM

theorem anyBody_part (ts b) (h : AnyBodyG ts b) (ho : Ord ts) : ∀ s M, MsgPath M →
    Part M [2, 3, 4, 6, 8, 9, 10, 5, 7] ts (· ∈ bodyMarks s b) := by
  obtain ⟨d, h⟩ := h
  exact bodyG_part d ts b h ho

/-! ### Files -/

def FileItemGood (ts : List ATok) : FileItem → Prop
  | .message m => SrcGood ts (.message m)
  | .enum e => ∀ M, Whole M ts (· ∈ enumMarks e)
  | .extend e => ExtendGood ts e
  | .service x => ∀ M, Whole M ts (· ∈ serviceMarks x)

def ImportIn (ts : List ATok) (x : Import) : Prop := Inn ts x.span ∧ ∀ k sp, x.kind = some (k, sp) → Inn ts sp

structure PartsGood (ts : List ATok) (p : Grammar.Parts) : Prop where
  items : ∀ x ∈ p.items, FileItemGood ts x
  opts : ∀ x ∈ p.options, Inn ts x.span
  imports : ∀ x ∈ p.imports, ImportIn ts x
  package : ∀ x, p.package = some x → Inn ts x.span

omit [FloatFmt] in
theorem importIn_of {ts x} (h : ImportG ts x) : ImportIn ts x := by
  cases h with
  | mk _ h _ _ _ =>
    refine ⟨inn_extent (by simp), ?_⟩
    intro k sp e
    cases h with
    | none => cases e
    | weak _ => cases e; exact inn_tok (by simp)
    | publ _ => cases e; exact inn_tok (by simp)

theorem parts_good {ts p} (h : Many StatementG ts {} p) (ho : Ord ts) : PartsGood ts p := by
  refine many_all ts (PartsGood ts) ?_ h ho (fun _ h => h) ⟨nofun, nofun, nofun, nofun⟩
  intro t s s' h ho hs h0
  obtain ⟨h1, h2, h3, h4⟩ := h0
  cases h with
  | package h _ =>
    refine ⟨h1, h2, h3, ?_⟩
    rintro _ ⟨⟩
    cases h with
    | mk _ _ _ => exact (inn_extent (by simp)).mono hs
  | import' h => exact ⟨h1, h2, snoc h3 ⟨(importIn_of h).1.mono hs, fun k sp e => ((importIn_of h).2 k sp e).mono hs⟩, h4⟩
  | option h => exact ⟨h1, snoc h2 ((inn_option h).mono hs), h3, h4⟩
  | message h => exact ⟨snoc h1 (by exact ((message_good anyBody_part h ho).mono hs)), h2, h3, h4⟩
  | enum h => exact ⟨snoc h1 (by exact (fun M => (enum_whole h ho).mono hs)), h2, h3, h4⟩
  | extend h => exact ⟨snoc h1 (by exact ((extend_good anyBody_part h ho).mono hs)), h2, h3, h4⟩
  | service h => exact ⟨snoc h1 (by exact (fun M => (service_whole h ho).mono hs)), h2, h3, h4⟩
  | empty _ => exact ⟨h1, h2, h3, h4⟩

omit [FloatFmt] in
theorem fileExts_blocks : ∀ xs : List FileItem, Spec.fileExts (fil xs) = (Gen.fileExtends (fil xs)).flatMap extendFields
  | [] => rfl
  | x :: xs => by
    rw [fileExts_cons, fileExtends_cons, fileExts_blocks xs]
    cases x <;> simp

omit [FloatFmt] in
theorem rest_part {ts} {f : File} (h : PartsGood ts ⟨f.package, f.imports, f.options, f.items⟩)
    (hs : ∀ x, f.syntaxSpan = some x → Inn ts x.1) :
    Part [] [4, 5, 6, 7, 2, 3, 10, 11, 8, 12] ts (· ∈ restMarks f) := by
  obtain ⟨hi, ho, him, hp⟩ := h
  have pM : Part [] [4] ts (At 0 4 (fileMsgs f) (srcMarks f.syntax')) := Part.at 4 fun i y hy => by
    obtain ⟨x, hx, hy⟩ := List.mem_flatMap.1 hy
    have hx := hi x hx
    refine (?_ : SrcGood ts y) _ _ (.top i)
    cases x with
    | message m => rw [List.mem_singleton.1 hy]; exact hx
    | extend e =>
      obtain ⟨f, hf, hy⟩ := List.mem_flatMap.1 hy
      exact (ExtendGood.fields hx f hf).msgs y hy
    | _ => cases hy
  have pE : Part [] [5] ts (At 0 5 (Spec.fileEnums f) enumMarks) := Part.at 5 fun i y hy => by
    obtain ⟨x, hx, hy⟩ := List.mem_filterMap.1 hy
    have hx := hi x hx
    cases x with
    | enum e => cases hy; exact hx _
    | _ => cases hy
  have pS : Part [] [6] ts (At 0 6 (Spec.fileServices f) serviceMarks) := Part.at 6 fun i y hy => by
    obtain ⟨x, hx, hy⟩ := List.mem_filterMap.1 hy
    have hx := hi x hx
    cases x with
    | service e => cases hy; exact hx _
    | _ => cases hy
  have pX : Part [] [7] ts (fun m => BlockMark 7 (Gen.fileExtends f) m ∨ At 0 7 (Spec.fileExts f) (placeMarks f.syntax') m) := by
    have e : Spec.fileExts f = (Gen.fileExtends f).flatMap extendFields := fileExts_blocks f.items
    rw [e]
    refine extends_part (fun i => .top i) fun e he => ?_
    obtain ⟨x, hx, hy⟩ := List.mem_filterMap.1 he
    have hx := hi x hx
    cases x with
    | extend e => cases hy; exact hx
    | _ => cases hy
  have pP : Part [] [2] ts (· ∈ packageMarks f.package) := by
    refine Part.mem ?_ ?_ <;> intro m hm <;> cases hk : f.package <;> simp [packageMarks, hk] at hm <;> subst hm
    · rfl
    · exact hp _ hk
  have pY : Part [] [12] ts (· ∈ syntaxMarks f.syntaxSpan) := by
    refine Part.mem ?_ ?_ <;> intro m hm <;> cases hk : f.syntaxSpan <;> simp [syntaxMarks, hk] at hm <;> subst hm
    · rfl
    · exact hs _ hk
  have md : ∀ k, ∀ sp ∈ modSpans k f.imports, Inn ts sp := by
    intro k sp hsp
    obtain ⟨x, hx, e⟩ := List.mem_filterMap.1 hsp
    cases hk : x.kind with
    | none => simp [hk] at e
    | some y =>
      obtain ⟨k', sp'⟩ := y
      have := (him x hx).2 k' sp' hk
      simp only [hk, Option.bind_some] at e
      split at e
      · cases e; exact this
      · cases e
  have pI : Part [] ([3] ++ ([10] ++ [11])) ts (· ∈ importMarks 0 0 0 f.imports) := by
    refine ((Part.at (b := 0) (g := fun x => [⟨[], x.span, x.comments⟩]) 3 fun i y hy => Whole.single (him y hy).1).or
      ((Part.at (b := 0) (g := fun s => [⟨[], s, {}⟩]) 10 fun i y hy => Whole.single (md .publ y hy)).or
      (Part.at (b := 0) (g := fun s => [⟨[], s, {}⟩]) 11 fun i y hy => Whole.single (md .weak y hy)) (by decide)) (by decide)).congr fun m => ?_
    rw [importMarks_at]
  refine (pM.or (pE.or (pS.or (pX.or (pP.or (pI.or ((Part.under (opts_whole (M := [] ++ [8]) ho)).or pY (by decide)) (by decide))
    (by decide)) (by decide)) (by decide)) (by decide)) (by decide)).congr fun m => ?_
  rw [restMarks_at]
  exact Iff.of_eq (by ac_rfl)

/-- The marks of a file nest. -/
theorem file_whole {len ts f} (h : FileG len ts f) (ho : Ord ts) : Nest [] (· ∈ fileMarks f) := by
  have key : ∃ T, Part [] T ts (· ∈ restMarks f) ∧ (ts ≠ [] → f.span = extent ts) := by
    cases h with
    | noSyntax h _ =>
      refine ⟨_, rest_part (parts_good h ho) nofun, fun h => ?_⟩
      simp [fileSpan, h]
    | withSyntax hs h =>
      rename_i ss s ssp ts p
      have hp := parts_good h (ho.sub (List.sublist_append_right ..))
      have hsub : ts ⊆ ss ++ ts := List.subset_append_right _ _
      refine ⟨_, rest_part (f := ⟨_, _, _, _, _, _, _⟩) ⟨?_, fun x hx => (hp.opts x hx).mono hsub,
        fun x hx => ⟨(hp.imports x hx).1.mono hsub, fun k sp e => ((hp.imports x hx).2 k sp e).mono hsub⟩,
        fun x hx => (hp.package x hx).mono hsub⟩ ?_, fun h => ?_⟩
      · intro x hx
        have := hp.items x hx
        cases x with
        | message m => exact SrcGood.mono this hsub
        | enum _ => exact fun M => (this M).mono hsub
        | extend _ => exact Stmt.mono this hsub
        | service _ => exact fun M => (this M).mono hsub
      · rintro _ ⟨⟩
        cases hs with
        | proto2 _ _ _ _ => exact (inn_extent (by simp)).mono (List.subset_append_left _ _)
        | proto3 _ _ _ _ => exact (inn_extent (by simp)).mono (List.subset_append_left _ _)
      · simp only [fileSpan, if_neg h]
  obtain ⟨T, hp, hsp⟩ := key
  by_cases hn : ts = []
  · subst hn
    have hnone : ∀ m, m ∉ restMarks f := by
      intro m hm
      obtain ⟨x, hx, _⟩ := hp.inn m hm
      cases hx
    rintro a b ha hb q hq e
    have ha' : a = ⟨[], f.span, {}⟩ := (List.mem_cons.1 ha).resolve_right (hnone a)
    have hb' : b = ⟨[], f.span, {}⟩ := (List.mem_cons.1 hb).resolve_right (hnone b)
    subst ha' hb'
    exact absurd (by simpa using e.symm) hq
  · refine ((Whole.root (c := {}) hp hn ho).nest).congr fun m => ?_
    simp only [fileMarks, List.mem_cons, hsp hn]

end Verif.Nesting
