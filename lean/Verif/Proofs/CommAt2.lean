import Verif.Proofs.CommAt
/-!
Every source location with comments has those of its tokens: all rows.
-/
namespace Verif.Pos
open Verif.Spec Verif.Ast Verif.Places

/-- The comments of a row are those of its tokens, if it has any. -/
def RowHere (T : List ATok) (r : Row) : Prop := r.comments = {} ∨ Here T r.comments r.span

theorem rowHere_below {T r p} (h : RowHere T r) : RowHere T (r.below p) := h

section
variable [FloatFmt] {T : List ATok}

theorem here_indexed {α : Type} {tag : Int} {l : List α} {rows : α → List Row} (h : ∀ x ∈ l, ∀ r ∈ rows x, RowHere T r) :
    ∀ r ∈ indexed tag l rows, RowHere T r := by
  intro r hr
  simp only [indexed, List.mem_flatMap, List.mem_map] at hr
  obtain ⟨⟨x, i⟩, hx, w, hw, rfl⟩ := hr
  exact rowHere_below (h x (List.fst_mem_of_mem_zipIdx hx) w hw)

theorem here_optionRows {os : List Opt} (h : ∀ o ∈ os, In OptionG T o) : ∀ r ∈ optionRows os, RowHere T r := by
  intro r hr
  rcases List.mem_append.1 hr with hr | hr
  · obtain ⟨o, _, rfl⟩ := List.mem_map.1 hr; exact .inl rfl
  · refine here_indexed (fun o ho r hr => ?_) r hr
    cases List.mem_singleton.1 hr
    exact .inr ((h o ho).here here_option)

theorem here_map {p : List Int} {rows : List Row} (h : ∀ r ∈ rows, RowHere T r) : ∀ r ∈ rows.map (Row.below p), RowHere T r := by
  intro r hr
  obtain ⟨w, hw, rfl⟩ := List.mem_map.1 hr
  exact rowHere_below (h w hw)

omit [FloatFmt] in
theorem here_listRows {os kept} : ∀ r ∈ listRows os kept, RowHere T r := by
  intro r hr
  rcases List.mem_append.1 hr with hr | hr
  · obtain ⟨o, _, rfl⟩ := List.mem_map.1 hr; exact .inl rfl
  · simp only [indexed, List.mem_flatMap, List.mem_map, List.mem_singleton] at hr
    obtain ⟨_, _, w, rfl, rfl⟩ := hr
    exact .inl rfl

theorem here_reservedRows {a b : Int} {rs : List Reserved} (h : ∀ o ∈ rs, In ReservedG T o) : ∀ r ∈ reservedRows a b rs, RowHere T r := by
  intro r hr
  simp only [reservedRows, List.mem_append] at hr
  rcases hr with (hr | hr) | hr
  · obtain ⟨o, ho, rfl⟩ := List.mem_map.1 hr
    have := (h o ho).here here_reserved
    split <;> exact .inr this
  · refine here_indexed (fun x _ r hr => ?_) r hr
    simp only [rangeRows, List.mem_cons, List.not_mem_nil, or_false] at hr
    rcases hr with rfl | rfl | rfl <;> exact .inl rfl
  · refine here_indexed (fun x _ r hr => ?_) r hr
    cases List.mem_singleton.1 hr
    exact .inl rfl

theorem here_valueRows {v} (h : In EnumValueG T v) : ∀ r ∈ valueRows v, RowHere T r := by
  intro r hr
  simp only [valueRows, List.mem_append, List.mem_cons, List.not_mem_nil, or_false] at hr
  rcases hr with (rfl | rfl | rfl) | hr
  · exact .inr (h.here here_value)
  · exact .inl rfl
  · exact .inl rfl
  · exact here_map here_listRows r hr

theorem here_enumRows {v} (h : In EnumG T v) : ∀ r ∈ enumRows v, RowHere T r := by
  obtain ⟨h1, h2, h3⟩ := enum_parts h
  intro r hr
  simp only [enumRows, List.mem_append, List.mem_cons, List.not_mem_nil, or_false] at hr
  rcases hr with (((rfl | rfl) | hr) | hr) | hr
  · exact .inr (h.here here_enum)
  · exact .inl rfl
  · exact here_indexed (fun x hx => here_valueRows (h2 x hx)) r hr
  · exact here_reservedRows h3 r hr
  · exact here_map (here_optionRows h1) r hr

theorem here_oneofRows {B v} (h : In (OneofG B) T v) : ∀ r ∈ oneofRows v, RowHere T r := by
  intro r hr
  simp only [oneofRows, List.mem_append, List.mem_cons, List.not_mem_nil, or_false] at hr
  rcases hr with (rfl | rfl) | hr
  · exact .inr (h.here here_oneof)
  · exact .inl rfl
  · exact here_map (here_optionRows (oneof_parts h).1) r hr

theorem here_methodRows {v} (h : In MethodG T v) : ∀ r ∈ methodRows v, RowHere T r := by
  intro r hr
  simp only [methodRows, List.mem_append, List.mem_cons, List.not_mem_nil, or_false] at hr
  rcases hr with (((rfl | rfl | rfl | rfl) | hr) | hr) | hr
  · exact .inr (h.here here_method)
  · exact .inl rfl
  · exact .inl rfl
  · exact .inl rfl
  · obtain ⟨o, _, rfl⟩ := List.mem_map.1 hr; exact .inl rfl
  · obtain ⟨o, _, rfl⟩ := List.mem_map.1 hr; exact .inl rfl
  · exact here_map (here_optionRows (method_parts h)) r hr

theorem here_serviceRows {v} (h : In ServiceG T v) : ∀ r ∈ serviceRows v, RowHere T r := by
  obtain ⟨h1, h2⟩ := service_parts h
  intro r hr
  simp only [serviceRows, List.mem_append, List.mem_cons, List.not_mem_nil, or_false] at hr
  rcases hr with ((rfl | rfl) | hr) | hr
  · exact .inr (h.here here_service)
  · exact .inl rfl
  · exact here_indexed (fun x hx => here_methodRows (h2 x hx)) r hr
  · exact here_map (here_optionRows h1) r hr

theorem here_fieldRows {pl x} (h : In (FieldG AnyBodyG) T x) : ∀ r ∈ fieldRows pl x, RowHere T r := by
  intro r hr
  simp only [fieldRows, List.mem_append, List.mem_cons, List.not_mem_nil, or_false] at hr
  rcases hr with ((((((rfl | rfl | rfl) | hr) | hr) | hr) | hr) | hr) | hr
  · unfold fieldComments
    split
    · exact .inl rfl
    · exact .inr (h.here here_field)
  · exact .inl rfl
  · exact .inl rfl
  · cases pl <;> simp [extendeeRows] at hr
    subst hr; exact .inl rfl
  · obtain ⟨o, _, rfl⟩ := List.mem_map.1 hr; exact .inl rfl
  · unfold typeRows at hr
    split at hr <;> simp at hr
    · subst hr; exact .inl rfl
    · subst hr; exact .inl rfl
    · rcases hr with rfl | rfl <;> exact .inl rfl
    · subst hr; exact .inl rfl
  · obtain ⟨o, _, rfl⟩ := List.mem_map.1 hr; exact .inl rfl
  · obtain ⟨o, _, hr⟩ := List.mem_flatMap.1 hr
    simp only [List.mem_cons, List.not_mem_nil, or_false] at hr
    rcases hr with rfl | rfl <;> exact .inl rfl
  · exact here_map here_listRows r hr

theorem here_bodyRows {b} (h : BodyIn T b) : ∀ r ∈ bodyRows b, RowHere T r := by
  intro r hr
  simp only [bodyRows, List.mem_append] at hr
  rcases hr with ((((hr | hr) | hr) | hr) | hr) | hr
  · refine here_indexed (fun x hx => here_oneofRows (B := AnyBodyG) ?_) r hr
    simp only [bodyOneofs, List.mem_filterMap] at hx
    obtain ⟨it, hit, he⟩ := hx
    cases it <;> cases he
    exact h.items _ hit
  · exact here_reservedRows h.reserved r hr
  · obtain ⟨o, ho, rfl⟩ := List.mem_map.1 hr
    exact .inr ((h.extensions o ho).here here_extensions)
  · refine here_indexed (fun x hx r hr => ?_) r hr
    rcases List.mem_append.1 hr with hr | hr
    · simp only [rangeRows, List.mem_cons, List.not_mem_nil, or_false] at hr
      rcases hr with rfl | rfl | rfl <;> exact .inl rfl
    · exact here_map here_listRows r hr
  · obtain ⟨o, ho, rfl⟩ := List.mem_map.1 hr
    simp only [bodyExtends, List.mem_filterMap] at ho
    obtain ⟨it, hit, he⟩ := ho
    cases it <;> cases he
    have hx : In (ExtendG AnyBodyG) T o := h.items _ hit
    exact .inr (hx.here here_extend)
  · exact here_map (here_optionRows h.options) r hr

/-- Where the messages stand. -/
def SrcIn (T : List ATok) : MsgSrc → Prop
  | .message m => In (MessageG AnyBodyG) T m
  | .group x b => In (FieldG AnyBodyG) T x ∧ ∃ sp, x.kind = .group sp b
  | .map .. => True

theorem srcIn_body {s b} (h : SrcIn T s) (hb : s.body = some b) : BodyIn T b := by
  cases s with
  | message m => cases hb; exact message_body h
  | group x b => cases hb; obtain ⟨h1, sp, h2⟩ := h; exact group_body h1 h2
  | map => cases hb

theorem fieldMsgs_in {x} (h : In (FieldG AnyBodyG) T x) : ∀ s ∈ fieldMsgs x, SrcIn T s := by
  intro s hs
  unfold fieldMsgs at hs
  split at hs
  · cases hs
  · rename_i hk; cases List.mem_singleton.1 hs; exact ⟨h, _, hk⟩
  · cases List.mem_singleton.1 hs; trivial

theorem bodyMsgs_in {b} (h : BodyIn T b) : ∀ s ∈ bodyMsgs b, SrcIn T s := by
  intro s hs
  obtain ⟨it, hit, hs⟩ := List.mem_flatMap.1 hs
  have hi := h.items it hit
  cases it with
  | field f => exact fieldMsgs_in hi s hs
  | enum => cases hs
  | message m => cases List.mem_singleton.1 hs; exact hi
  | extend e =>
    obtain ⟨x, hx, hs⟩ := List.mem_flatMap.1 hs
    exact fieldMsgs_in (extend_parts hi x hx) s hs
  | oneof o =>
    obtain ⟨x, hx, hs⟩ := List.mem_flatMap.1 hs
    exact fieldMsgs_in ((oneof_parts hi).2 x hx) s hs

theorem fileMsgs_in {f} (h : FileIn T f) : ∀ s ∈ fileMsgs f, SrcIn T s := by
  intro s hs
  obtain ⟨it, hit, hs⟩ := List.mem_flatMap.1 hs
  have hi := h.items it hit
  cases it with
  | message m => cases List.mem_singleton.1 hs; exact hi
  | enum => cases hs
  | service => cases hs
  | extend e =>
    obtain ⟨x, hx, hs⟩ := List.mem_flatMap.1 hs
    exact fieldMsgs_in (extend_parts hi x hx) s hs

theorem msgAt_src {f fd p s d} (h : FileIn T f) (hat : MsgAt f fd p s d) : SrcIn T s := by
  induction hat with
  | top h1 _ => exact fileMsgs_in h _ (List.mem_of_getElem? h1)
  | nested _ hb h1 _ ih => exact bodyMsgs_in (srcIn_body ih hb) _ (List.mem_of_getElem? h1)

theorem fieldsFrom_in {items : List MessageItem} (h : ∀ x ∈ items, In (ItemG AnyBodyG) T x) :
    ∀ k, ∀ x ∈ fieldsFrom k items, In (FieldG AnyBodyG) T x.2 := by
  induction items with
  | nil => intro k x hx; cases hx
  | cons it items ih =>
    intro k x hx
    have ih := ih fun y hy => h y (List.mem_cons_of_mem _ hy)
    have hi := h it (List.mem_cons_self ..)
    cases it with
    | field f =>
      rcases List.mem_cons.1 hx with rfl | hx
      · exact hi
      · exact ih _ x hx
    | oneof o =>
      rcases List.mem_append.1 hx with hx | hx
      · obtain ⟨y, hy, rfl⟩ := List.mem_map.1 hx
        exact (oneof_parts hi).2 y hy
      · exact ih _ x hx
    | enum => exact ih _ x hx
    | message => exact ih _ x hx
    | extend => exact ih _ x hx

theorem fieldAt_in {f fd p pl x d} (h : FileIn T f) (hat : FieldAt f fd p pl x d) : In (FieldG AnyBodyG) T x := by
  cases hat with
  | field hm hb h1 _ => exact fieldsFrom_in (srcIn_body (msgAt_src h hm) hb).items 0 _ (List.mem_of_getElem? h1)
  | ext hm hb h1 _ =>
    obtain ⟨it, hit, hs⟩ := List.mem_flatMap.1 (List.mem_of_getElem? h1)
    have hi := (srcIn_body (msgAt_src h hm) hb).items it hit
    cases it with
    | extend e =>
      obtain ⟨y, hy, he⟩ := List.mem_map.1 hs
      cases he
      exact extend_parts hi _ hy
    | _ => cases hs
  | fileExt h1 _ =>
    obtain ⟨it, hit, hs⟩ := List.mem_flatMap.1 (List.mem_of_getElem? h1)
    have hi := h.items it hit
    cases it with
    | extend e =>
      obtain ⟨y, hy, he⟩ := List.mem_map.1 hs
      cases he
      exact extend_parts hi _ hy
    | _ => cases hs

theorem enumAt_in {f fd p x d} (h : FileIn T f) (hat : EnumAt f fd p x d) : In EnumG T x := by
  cases hat with
  | top h1 _ =>
    obtain ⟨it, hit, hs⟩ := List.mem_filterMap.1 (List.mem_of_getElem? h1)
    have hi := h.items it hit
    cases it <;> cases hs
    exact hi
  | nested hm hb h1 _ =>
    obtain ⟨it, hit, hs⟩ := List.mem_filterMap.1 (List.mem_of_getElem? h1)
    have hi := (srcIn_body (msgAt_src h hm) hb).items it hit
    cases it <;> cases hs
    exact hi

theorem serviceAt_in {f fd p x d} (h : FileIn T f) (hat : ServiceAt f fd p x d) : In ServiceG T x := by
  cases hat with
  | mk h1 _ =>
    obtain ⟨it, hit, hs⟩ := List.mem_filterMap.1 (List.mem_of_getElem? h1)
    have hi := h.items it hit
    cases it <;> cases hs
    exact hi

theorem here_fileRows {f} (h : FileIn T f) : ∀ r ∈ fileRows f, RowHere T r := by
  intro r hr
  simp only [fileRows, List.mem_append, List.mem_cons, List.not_mem_nil, or_false] at hr
  rcases hr with ((((((rfl | hr) | hr) | hr) | hr) | hr) | hr) | hr
  · exact .inl rfl
  · obtain ⟨o, ho, rfl⟩ := List.mem_map.1 hr
    exact .inr ((h.syntax' o (by simpa using ho)).here (c := fun x : Span × Comments => x.2) (sp := fun x => x.1) here_syntax)
  · obtain ⟨o, ho, rfl⟩ := List.mem_map.1 hr
    exact .inr ((h.package o (by simpa using ho)).here here_package)
  · refine here_indexed (fun x hx r hr => ?_) r hr
    cases List.mem_singleton.1 hr
    exact .inr ((h.imports x hx).here here_import)
  · refine here_indexed (fun x hx r hr => ?_) r hr
    cases List.mem_singleton.1 hr
    exact .inl rfl
  · refine here_indexed (fun x hx r hr => ?_) r hr
    cases List.mem_singleton.1 hr
    exact .inl rfl
  · obtain ⟨o, ho, rfl⟩ := List.mem_map.1 hr
    obtain ⟨it, hit, he⟩ := List.mem_filterMap.1 ho
    have hi := h.items it hit
    cases it <;> cases he
    have hx : In (ExtendG AnyBodyG) T o := hi
    exact .inr (hx.here here_extend)
  · exact here_map (here_optionRows h.options) r hr

theorem rowOf_here {len f fd r} (h : Places.FileG len T f) (hr : RowOf f fd r) : RowHere T r := by
  have h := fileIn h
  cases hr with
  | file hr => exact here_fileRows h r hr
  | @message p s d r hat hr =>
    refine rowHere_below (p := p) ?_
    have hs := msgAt_src h hat
    cases s with
    | message m =>
      simp only [messageRows, List.mem_append, List.mem_cons, List.not_mem_nil, or_false] at hr
      rcases hr with (rfl | rfl) | hr
      · have hx : In (MessageG AnyBodyG) T m := hs
        exact .inr (hx.here here_message)
      · exact .inl rfl
      · exact here_bodyRows (srcIn_body hs rfl) r hr
    | group x b =>
      simp only [messageRows, List.mem_append, List.mem_cons, List.not_mem_nil, or_false] at hr
      rcases hr with (rfl | rfl) | hr
      · exact .inr (hs.1.here here_field)
      · exact .inl rfl
      · exact here_bodyRows (srcIn_body hs rfl) r hr
    | map => cases hr
  | field hat hr => exact rowHere_below (here_fieldRows (fieldAt_in h hat) _ hr)
  | enum hat hr => exact rowHere_below (here_enumRows (enumAt_in h hat) _ hr)
  | service hat hr => exact rowHere_below (here_serviceRows (serviceAt_in h hat) _ hr)

end
end Verif.Pos
