import Verif.Proofs.Rows2
/-!
The recorded source locations are the rows of the specification: whole files.
-/
namespace Verif.Gen
open Verif.Ast Verif.Spec

theorem body_same {b} {x : MessageBody} (h : x.In 0 b) (m : Mark) :
    (At 0 8 (bodyOneofs x) oneofMarks m ∨ BlockMark 6 (extendBlocks x.items) m ∨
      m ∈ bodyTailMarks x.extensions x.options x.reserved) ↔ toRow m ∈ bodyRows x := by
  have hrest := body_rest h
  have h1 := fun m => same_at (tag := 8) (l := bodyOneofs x) (fun o _ => oneof_same o) m
  have h2 := reserved_same 9 10 x.reserved m
  have h3 := (opts_same x.options).under [7] m
  have h4 : ∀ m, (∃ e ∈ x.extensions, m = ⟨[5], e.span, e.comments⟩) ↔
      toRow m ∈ x.extensions.map (fun e => (⟨[5], e.span, e.comments⟩ : Row)) := by
    intro m; rw [List.mem_map]
    exact ⟨fun ⟨e, he, h⟩ => ⟨e, he, by rw [h]; rfl⟩, fun ⟨e, he, h⟩ => ⟨e, he, toRow_inj h.symm⟩⟩
  have h5 : BlockMark 6 (extendBlocks x.items) m ↔
      toRow m ∈ (bodyExtends x).map (fun e => (⟨[6], e.span, e.comments⟩ : Row)) := by
    have : extendBlocks x.items = bodyExtends x := rfl
    rw [this, List.mem_map]
    exact ⟨fun ⟨e, he, h⟩ => ⟨e, he, by rw [h]; rfl⟩, fun ⟨e, he, h⟩ => ⟨e, he, toRow_inj h.symm⟩⟩
  have h6 : ∀ m, At 0 5 (extensionRanges x.extensions) (fun r => extRangeMarks r.2 r.1) m ↔
      toRow m ∈ indexed 5 (extensionRanges x.extensions) (fun r =>
        rangeRows r.1 ++ (listRows r.2 (listed r.2)).map (Row.below [3])) := by
    intro m
    refine same_at (fun r hr => ?_) m
    simp only [extensionRanges, List.mem_flatMap, List.mem_map] at hr
    obtain ⟨e, he, q, _, rfl⟩ := hr
    exact (range_same q).append ((optList_same (hrest.1 e he).2.1).under [3])
  simp only [bodyTailMarks, bodyRows, List.mem_append, Tag.messageReservedRange, Tag.messageReservedName,
    Tag.messageExtensionRange, Tag.messageOptions, extensionsMarks_at, h1, h2, h3, h4, h5, h6]
  exact Iff.of_eq (by ac_rfl)

/-- The spans of the modifiers of imports. -/
def modSpans (k : ImportKind) (xs : List Import) : List Span :=
  xs.filterMap fun i => i.kind.bind fun q => if q.1 = k then some q.2 else none

theorem importMarks_at : ∀ (xs : List Import) (i j k : Nat) (m : Mark), m ∈ importMarks i j k xs ↔
    At i 3 xs (fun x => [⟨[], x.span, x.comments⟩]) m ∨ At j 10 (modSpans .publ xs) (fun s => [⟨[], s, {}⟩]) m ∨
    At k 11 (modSpans .weak xs) (fun s => [⟨[], s, {}⟩]) m
  | [], i, j, k, m => by simp [importMarks, At_nil, modSpans]
  | ⟨kind, v, vs, c, sp⟩ :: xs, i, j, k, m => by
    have ih := importMarks_at xs
    rcases kind with _ | ⟨kd, ksp⟩
    · have e1 : modSpans .publ (⟨none, v, vs, c, sp⟩ :: xs) = modSpans .publ xs := rfl
      have e2 : modSpans .weak (⟨none, v, vs, c, sp⟩ :: xs) = modSpans .weak xs := rfl
      simp only [importMarks, List.mem_cons, ih, e1, e2, At_cons, under_cons, under_nil, List.not_mem_nil, or_false,
        List.append_nil, Tag.fileDependency]
      exact Iff.of_eq (by ac_rfl)
    · cases kd with
      | publ =>
        have e1 : modSpans .publ (⟨some (.publ, ksp), v, vs, c, sp⟩ :: xs) = ksp :: modSpans .publ xs := by simp [modSpans]
        have e2 : modSpans .weak (⟨some (.publ, ksp), v, vs, c, sp⟩ :: xs) = modSpans .weak xs := by simp [modSpans]
        simp only [importMarks, List.mem_cons, ih, e1, e2, At_cons, under_cons, under_nil, List.not_mem_nil, or_false,
          List.append_nil, Tag.fileDependency, Tag.filePublicDependency]
        exact Iff.of_eq (by ac_rfl)
      | weak =>
        have e1 : modSpans .publ (⟨some (.weak, ksp), v, vs, c, sp⟩ :: xs) = modSpans .publ xs := by simp [modSpans]
        have e2 : modSpans .weak (⟨some (.weak, ksp), v, vs, c, sp⟩ :: xs) = ksp :: modSpans .weak xs := by simp [modSpans]
        simp only [importMarks, List.mem_cons, ih, e1, e2, At_cons, under_cons, under_nil, List.not_mem_nil, or_false,
          List.append_nil, Tag.fileDependency, Tag.fileWeakDependency]
        exact Iff.of_eq (by ac_rfl)

/-- The rows of the file itself, except that of the whole file. -/
theorem file_same (f : File) (m : Mark) :
    (m = ⟨[], f.span, {}⟩ ∨ BlockMark 7 (fileExtends f) m ∨ m ∈ packageMarks f.package ∨
      m ∈ importMarks 0 0 0 f.imports ∨ m ∈ under [8] (optsMarks 0 f.options) ∨ m ∈ syntaxMarks f.syntaxSpan) ↔
    toRow m ∈ fileRows f := by
  have h1 : BlockMark 7 (fileExtends f) m ↔
      toRow m ∈ (Spec.fileExtends f).map (fun e => (⟨[7], e.span, e.comments⟩ : Row)) := by
    have : fileExtends f = Spec.fileExtends f := rfl
    rw [this, List.mem_map]
    exact ⟨fun ⟨e, he, h⟩ => ⟨e, he, by rw [h]; rfl⟩, fun ⟨e, he, h⟩ => ⟨e, he, toRow_inj h.symm⟩⟩
  have h2 : m ∈ packageMarks f.package ↔ toRow m ∈ f.package.toList.map (fun p => (⟨[2], p.span, p.comments⟩ : Row)) := by
    cases f.package with
    | none => simp [packageMarks]
    | some p => simp [packageMarks, toRow_mk, Tag.filePackage]
  have h3 : m ∈ syntaxMarks f.syntaxSpan ↔ toRow m ∈ f.syntaxSpan.toList.map (fun s => (⟨[12], s.1, s.2⟩ : Row)) := by
    rcases f.syntaxSpan with _ | ⟨a, b⟩
    · simp [syntaxMarks]
    · simp [syntaxMarks, toRow_mk, Tag.fileSyntax]
  have h4 := (opts_same f.options).under [8] m
  have h5 := fun m => same_at (tag := 3) (l := f.imports) (g := fun x => [⟨[], x.span, x.comments⟩])
    (rows := fun x => [⟨[], x.span, x.comments⟩]) (fun o _ => Same.one) m
  have h6 := fun (tag : Int) (k : ImportKind) m => same_at (tag := tag) (l := modSpans k f.imports)
    (g := fun s => [⟨[], s, {}⟩]) (rows := fun s => [⟨[], s, {}⟩]) (fun o _ => Same.one) m
  rw [importMarks_at, h1, h2, h3, h4, h5, h6, h6]
  have e : fileRows f = [⟨[], f.span, {}⟩] ++ f.syntaxSpan.toList.map (fun s => ⟨[12], s.1, s.2⟩) ++
    f.package.toList.map (fun p => ⟨[2], p.span, p.comments⟩) ++
    indexed 3 f.imports (fun i => [⟨[], i.span, i.comments⟩]) ++
    indexed 10 (modSpans .publ f.imports) (fun s => [⟨[], s, {}⟩]) ++
    indexed 11 (modSpans .weak f.imports) (fun s => [⟨[], s, {}⟩]) ++
    (Spec.fileExtends f).map (fun e => ⟨[7], e.span, e.comments⟩) ++ (optionRows f.options).map (Row.below [8]) := rfl
  simp only [e, List.mem_append, List.mem_cons, List.not_mem_nil, or_false, toRow_mk]
  exact Iff.of_eq (by ac_rfl)

section
variable [FloatFmt] {L : Nat} {name : Bytes} {f : File} {fd : FileDescriptorProto}

theorem get_of_len {α β : Type} {l : List α} {l' : List β} (h : l'.length = l.length) {i : Nat} {x} (hx : l[i]? = some x) :
    ∃ y, l'[i]? = some y :=
  ⟨l'[i]'(h ▸ (List.getElem?_eq_some_iff.1 hx).1), List.getElem?_eq_getElem _⟩

/-- What the marks of a message are: its own rows, those of its fields and enums, and those of the nested messages. -/
theorem srcMarks_cases (hm : Made name f fd) (hin : f.In L) {p s d} (hat : MsgAt f fd p s d) (m : Mark) :
    m ∈ srcMarks f.syntax' s ↔ toRow m ∈ messageRows s ∨ ∃ b, s.body = some b ∧
      (At 0 2 (bodyFields b) (placeMarks f.syntax') m ∨ At 0 3 (bodyMsgs b) (srcMarks f.syntax') m ∨
       At 0 4 (bodyEnums b) enumMarks m ∨ At 0 6 (bodyExts b) (placeMarks f.syntax') m) := by
  have hb := (msgAt_in hin hat).2
  cases s with
  | message x =>
    rcases x with ⟨n, b, c, sp⟩
    have h := body_same (hb b rfl) m
    simp only [srcMarks, messageMarks, List.mem_cons, bodyMarks_at, messageRows, List.mem_append, toRow_mk, List.not_mem_nil,
      or_false, MsgSrc.body, Option.some.injEq, exists_eq_left', ← h, Tag.messageName]
    exact Iff.of_eq (by ac_rfl)
  | group x b =>
    have h := body_same (hb b rfl) m
    simp only [srcMarks, groupMsgMarks, List.mem_cons, List.mem_append, bodyMarks_at, messageRows, toRow_mk, List.not_mem_nil,
      or_false, MsgSrc.body, Option.some.injEq, exists_eq_left', ← h, Tag.messageName]
    exact Iff.of_eq (by ac_rfl)
  | map x k v => simp [srcMarks, messageRows, MsgSrc.body]

theorem rows_of_marks (hm : Made name f fd) (hin : f.In L) : ∀ (n : Nat) {p s d} (_ : MsgAt f fd p s d) (x : Mark),
    x ∈ srcMarks f.syntax' s → x.path.length ≤ n → RowOf f fd (toRow (x.sub p)) := by
  intro n
  induction n using Nat.strongRecOn with
  | _ n ih =>
    intro p s d hat x hx hn
    have hp := hm.paired
    rcases (srcMarks_cases hm hin hat x).1 hx with h | ⟨b, hb, h | h | h | h⟩
    · exact .message hat h
    · obtain ⟨i, z, hz, hzm⟩ := h
      obtain ⟨y, hy⟩ := get_of_len (hp.body p s d b hat hb).2.1 hz
      have hf : FieldAt f fd (p ++ [2, (i : Int)]) z.1 z.2 y := .field hat hb hz hy
      obtain ⟨w, hw, rfl⟩ := mem_under.1 hzm
      rw [Mark.sub_sub, Nat.zero_add]
      exact .field hf ((field_same hm hin hf w).1 hw)
    · obtain ⟨i, z, hz, hzm⟩ := h
      obtain ⟨y, hy⟩ := get_of_len (hp.body p s d b hat hb).1 hz
      obtain ⟨w, hw, rfl⟩ := mem_under.1 hzm
      rw [Mark.sub_sub, Nat.zero_add]
      refine ih (n - 1) ?_ (.nested hat hb hz hy) w hw ?_
      · simp only [Mark.sub, List.length_append, List.length_cons] at hn; omega
      · simp only [Mark.sub, List.length_append, List.length_cons] at hn; omega
    · obtain ⟨i, z, hz, hzm⟩ := h
      obtain ⟨y, hy⟩ := get_of_len (hp.body p s d b hat hb).2.2.2 hz
      obtain ⟨w, hw, rfl⟩ := mem_under.1 hzm
      rw [Mark.sub_sub, Nat.zero_add]
      have he : EnumAt f fd (p ++ [4, (i : Int)]) z y := .nested hat hb hz hy
      exact .enum he ((enum_same (enumAt_in hin he) w).1 hw)
    · obtain ⟨i, z, hz, hzm⟩ := h
      obtain ⟨y, hy⟩ := get_of_len (hp.body p s d b hat hb).2.2.1 hz
      have hf : FieldAt f fd (p ++ [6, (i : Int)]) z.1 z.2 y := .ext hat hb hz hy
      obtain ⟨w, hw, rfl⟩ := mem_under.1 hzm
      rw [Mark.sub_sub, Nat.zero_add]
      exact .field hf ((field_same hm hin hf w).1 hw)

theorem mem_at {α : Type} {tag : Int} {l : List α} {g : α → List Mark} {i : Nat} {x : α} (h : l[i]? = some x) {w : Mark}
    (hw : w ∈ g x) : At 0 tag l g (w.sub [tag, (i : Int)]) :=
  ⟨i, x, h, mem_under.2 ⟨w, hw, by rw [Nat.zero_add]⟩⟩

theorem marks_of_msg (hm : Made name f fd) (hin : f.In L) {p s d} (hat : MsgAt f fd p s d) :
    ∀ x ∈ srcMarks f.syntax' s, x.sub p ∈ restMarks f := by
  induction hat with
  | top h1 h2 => exact fun x hx => (restMarks_at f _).2 (.inl (mem_at h1 hx))
  | nested hat hb h1 h2 ih =>
    intro x hx
    have := ih _ ((srcMarks_cases hm hin hat _).2 (.inr ⟨_, hb, .inr (.inl (mem_at h1 hx))⟩))
    rwa [Mark.sub_sub] at this

theorem marks_of_field (hm : Made name f fd) (hin : f.In L) {p pl z d} (hat : FieldAt f fd p pl z d) :
    ∀ x ∈ placeMarks f.syntax' (pl, z), x.sub p ∈ restMarks f := by
  intro x hx
  cases hat with
  | field hat hb h1 h2 =>
    have := marks_of_msg hm hin hat _ ((srcMarks_cases hm hin hat _).2 (.inr ⟨_, hb, .inl (mem_at h1 hx)⟩))
    rwa [Mark.sub_sub] at this
  | ext hat hb h1 h2 =>
    have := marks_of_msg hm hin hat _ ((srcMarks_cases hm hin hat _).2 (.inr ⟨_, hb, .inr (.inr (.inr (mem_at h1 hx)))⟩))
    rwa [Mark.sub_sub] at this
  | fileExt h1 h2 => exact (restMarks_at f _).2 (.inr (.inr (.inr (.inl (mem_at h1 hx)))))

theorem marks_of_enum (hm : Made name f fd) (hin : f.In L) {p e d} (hat : EnumAt f fd p e d) :
    ∀ x ∈ enumMarks e, x.sub p ∈ restMarks f := by
  intro x hx
  cases hat with
  | top h1 h2 => exact (restMarks_at f _).2 (.inr (.inl (mem_at h1 hx)))
  | nested hat hb h1 h2 =>
    have := marks_of_msg hm hin hat _ ((srcMarks_cases hm hin hat _).2 (.inr ⟨_, hb, .inr (.inr (.inl (mem_at h1 hx)))⟩))
    rwa [Mark.sub_sub] at this

/-- The recorded locations are exactly the rows of the specification. -/
theorem marks_rows (hm : Made name f fd) (hin : f.In L) (m : Mark) : m ∈ fileMarks f ↔ RowOf f fd (toRow m) := by
  have hp := hm.paired
  constructor
  · intro h
    rcases List.mem_cons.1 h with h | h
    · exact .file ((file_same f m).1 (.inl h))
    · rcases (restMarks_at f m).1 h with h | h | h | h | h
      · obtain ⟨i, z, hz, hzm⟩ := h
        obtain ⟨y, hy⟩ := get_of_len hp.messages hz
        obtain ⟨w, hw, rfl⟩ := mem_under.1 hzm
        rw [Nat.zero_add]
        exact rows_of_marks hm hin _ (.top hz hy) w hw (Nat.le_refl _)
      · obtain ⟨i, z, hz, hzm⟩ := h
        obtain ⟨y, hy⟩ := get_of_len hp.enums hz
        obtain ⟨w, hw, rfl⟩ := mem_under.1 hzm
        rw [Nat.zero_add]
        have he : EnumAt f fd [5, (i : Int)] z y := .top hz hy
        exact .enum he ((enum_same (enumAt_in hin he) w).1 hw)
      · obtain ⟨i, z, hz, hzm⟩ := h
        obtain ⟨y, hy⟩ := get_of_len hp.services hz
        obtain ⟨w, hw, rfl⟩ := mem_under.1 hzm
        rw [Nat.zero_add]
        have he : ServiceAt f fd [6, (i : Int)] z y := .mk hz hy
        exact .service he ((service_same (serviceAt_in hin he) w).1 hw)
      · obtain ⟨i, z, hz, hzm⟩ := h
        obtain ⟨y, hy⟩ := get_of_len hp.extensions hz
        obtain ⟨w, hw, rfl⟩ := mem_under.1 hzm
        rw [Nat.zero_add]
        have hf : FieldAt f fd [7, (i : Int)] z.1 z.2 y := .fileExt hz hy
        exact .field hf ((field_same hm hin hf w).1 hw)
      · exact .file ((file_same f m).1 (.inr h))
  · intro h
    generalize hr : toRow m = r at h
    cases h with
    | file h =>
      subst hr
      rcases (file_same f m).2 h with h | h
      · exact h ▸ .head _
      · exact .tail _ ((restMarks_at f m).2 (.inr (.inr (.inr (.inr h)))))
    | @message p s d r hat h =>
      obtain ⟨w, rfl⟩ := Row.exists_mark r
      rw [← toRow_sub] at hr
      rw [toRow_inj hr]
      exact .tail _ (marks_of_msg hm hin hat w ((srcMarks_cases hm hin hat w).2 (.inl h)))
    | @field p pl x d r hat h =>
      obtain ⟨w, rfl⟩ := Row.exists_mark r
      rw [← toRow_sub] at hr
      rw [toRow_inj hr]
      exact .tail _ (marks_of_field hm hin hat w ((field_same hm hin hat w).2 h))
    | @enum p e d r hat h =>
      obtain ⟨w, rfl⟩ := Row.exists_mark r
      rw [← toRow_sub] at hr
      rw [toRow_inj hr]
      exact .tail _ (marks_of_enum hm hin hat w ((enum_same (enumAt_in hin hat) w).2 h))
    | @service p s d r hat h =>
      obtain ⟨w, rfl⟩ := Row.exists_mark r
      rw [← toRow_sub] at hr
      rw [toRow_inj hr]
      refine .tail _ ?_
      have hw := (service_same (serviceAt_in hin hat) w).2 h
      cases hat with
      | mk h1 h2 => exact (restMarks_at f _).2 (.inr (.inr (.inl (mem_at h1 hw))))

end
end Verif.Gen
