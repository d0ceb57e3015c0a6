import Verif.Proofs.Parse
import Verif.Spec.Source
/-!
The pairs of constructs and descriptor elements of an accepted file.
-/
namespace Verif.Gen
open Verif.Ast Verif.Spec Verif.Grammar

section
variable [FloatFmt]

/-- The descriptor of a message, group or map entry. -/
def srcDesc (s : Syntax') : MsgSrc → DescriptorProto
  | .message m => messageDesc s m
  | .group f b => { bodyDesc s b with name := some f.name.value }
  | .map f k v => entryOf f.name.value k v

theorem fieldNested_eq (s) (f : Field) : fieldNested s f = (fieldMsgs f).map (srcDesc s) := by
  rcases f with ⟨l, name, kind, n, o, c, sp⟩
  cases kind <;> simp [fieldNested, kindNested, fieldMsgs, srcDesc]

theorem fieldsNested_eq (s) : ∀ fs : List Field, fieldsNested s fs = (fs.flatMap fieldMsgs).map (srcDesc s)
  | [] => by simp [fieldsNested]
  | f :: fs => by simp [fieldsNested, fieldNested_eq, fieldsNested_eq s fs]

theorem itemNested_eq (s) (x : MessageItem) : itemNested s x = (itemMsgs x).map (srcDesc s) := by
  cases x with
  | field f => simp [itemNested, itemMsgs, fieldNested_eq]
  | enum e => simp [itemNested, itemMsgs]
  | message m => simp [itemNested, itemMsgs, srcDesc]
  | extend e => rcases e with ⟨_, _, _, _⟩; simp [itemNested, itemMsgs, extendNested, fieldsNested_eq]
  | oneof e => rcases e with ⟨_, _, _, _, _⟩; simp [itemNested, itemMsgs, oneofNested, fieldsNested_eq]

theorem itemsNested_eq (s) : ∀ xs : List MessageItem, itemsNested s xs = (xs.flatMap itemMsgs).map (srcDesc s)
  | [] => by simp [itemsNested]
  | x :: xs => by simp [itemsNested, itemNested_eq, itemsNested_eq s xs]

theorem itemsMsgs_eq (f : File) : itemsMsgs f.syntax' f.items = (fileMsgs f).map (srcDesc f.syntax') := by
  unfold fileMsgs
  generalize f.items = xs
  induction xs with
  | nil => rfl
  | cons x xs ih =>
    cases x <;> simp [itemsMsgs, ih, srcDesc, fieldsNested_eq]

/-- A body's descriptor is that of its source. -/
theorem srcDesc_body {s : Syntax'} {x : MsgSrc} {b} (h : x.body = some b) :
    (srcDesc s x).nestedType = (bodyMsgs b).map (srcDesc s) ∧
    (srcDesc s x).field = itemsFields s 0 (countOneofs b.items) b.items ∧
    (srcDesc s x).extension = itemsExts s b.items ∧
    (srcDesc s x).enumType = itemsEnums b.items ∧
    (srcDesc s x).oneofDecl = itemsOneofs b.items ++ itemsSynth s b.items ∧
    (srcDesc s x).extensionRange = ((allExtRanges b.extensions).map fun y => extRangeDesc (isMessageSet b.options) y.1 y.2) ∧
    (srcDesc s x).reservedRange = (allRanges b.reserved).map (rangeDesc (isMessageSet b.options)) ∧
    (srcDesc s x).reservedName = (allNames b.reserved).map (·.value) ∧
    (srcDesc s x).options = (nonEmpty (optsDesc b.options)).map fun us => { uninterpretedOption := us } := by
  have key : ∀ b : MessageBody, (bodyDesc s b).nestedType = (bodyMsgs b).map (srcDesc s) := by
    rintro ⟨i, e, o, r⟩; simp [bodyDesc, bodyMsgs, itemsNested_eq]
  cases x with
  | message m =>
    rcases m with ⟨n, ⟨i, e, o, r⟩, c, sp⟩
    cases h
    simp only [srcDesc, messageDesc]
    exact ⟨key ⟨i, e, o, r⟩, rfl, rfl, rfl, rfl, rfl, rfl, rfl, rfl⟩
  | group f b' =>
    rcases b' with ⟨i, e, o, r⟩
    cases h
    simp only [srcDesc]
    exact ⟨key ⟨i, e, o, r⟩, rfl, rfl, rfl, rfl, rfl, rfl, rfl, rfl⟩
  | map => cases h
end

/-- The errors of the body of a message or group. -/
def srcErrs (s : Syntax') (x : MsgSrc) : List ParseErrorKind :=
  match x.body with
  | none => []
  | some b => bodyErrs s b

theorem fieldErrs_msgs {s scope} {f : Field} (h : fieldErrs s scope f = []) : ∀ x ∈ fieldMsgs f, srcErrs s x = [] := by
  rcases f with ⟨l, name, kind, n, o, c, sp⟩
  cases kind with
  | normal => simp [fieldMsgs]
  | map => simp [fieldMsgs, srcErrs, MsgSrc.body]
  | group t b =>
    simp only [fieldErrs, kindErrs, List.append_eq_nil_iff] at h
    simp [fieldMsgs, srcErrs, MsgSrc.body, h.1.2.2]

theorem fieldsErrs_mem {s scope} : ∀ {fs : List Field}, fieldsErrs s scope fs = [] → ∀ f ∈ fs, fieldErrs s scope f = []
  | [], _, _, h => by cases h
  | f :: fs, h, g, hg => by
    simp only [fieldsErrs, List.append_eq_nil_iff] at h
    rcases List.mem_cons.1 hg with rfl | hg
    · exact h.1
    · exact fieldsErrs_mem h.2 g hg

theorem itemsErrs_mem {s} : ∀ {xs : List MessageItem}, itemsErrs s xs = [] → ∀ x ∈ xs, itemErrs s x = []
  | [], _, _, h => by cases h
  | f :: fs, h, g, hg => by
    simp only [itemsErrs, List.append_eq_nil_iff] at h
    rcases List.mem_cons.1 hg with rfl | hg
    · exact h.1
    · exact itemsErrs_mem h.2 g hg

theorem itemErrs_msgs {s} {x : MessageItem} (h : itemErrs s x = []) : ∀ y ∈ itemMsgs x, srcErrs s y = [] := by
  cases x with
  | field f => exact fieldErrs_msgs h
  | enum e => simp [itemMsgs]
  | message m =>
    rcases m with ⟨n, b, c, sp⟩
    simpa [itemMsgs, srcErrs, MsgSrc.body, itemErrs, messageErrs] using h
  | extend e =>
    rcases e with ⟨t, fs, c, sp⟩
    intro y hy
    simp only [itemMsgs, List.mem_flatMap] at hy
    obtain ⟨f, hf, hy⟩ := hy
    exact fieldErrs_msgs (fieldsErrs_mem (by simpa [itemErrs, extendErrs] using h) f hf) y hy
  | oneof e =>
    rcases e with ⟨t, o, fs, c, sp⟩
    intro y hy
    simp only [itemMsgs, List.mem_flatMap] at hy
    obtain ⟨f, hf, hy⟩ := hy
    simp only [itemErrs, oneofErrs, List.append_eq_nil_iff] at h
    exact fieldErrs_msgs (fieldsErrs_mem h.2 f hf) y hy

theorem bodyErrs_parts {s} {b : MessageBody} (h : bodyErrs s b = []) :
    (∀ x ∈ b.items, itemErrs s x = []) ∧ (∀ r ∈ allRanges b.reserved, rangeErrs r = []) ∧
    (∀ x ∈ allExtRanges b.extensions, extRangeErrs x.1 x.2 = []) ∧ ∀ o ∈ b.options, optionErrs o.body = [] := by
  rcases b with ⟨i, e, o, r⟩
  simp only [bodyErrs, optsErrs, List.append_eq_nil_iff, List.flatMap_eq_nil_iff] at h
  exact ⟨itemsErrs_mem h.1.1.1, h.1.1.2, h.1.2, h.2⟩

/-- What is known of the file-level descriptor and tree, independently of the source. -/
structure Made [FloatFmt] (name : Bytes) (f : File) (fd : FileDescriptorProto) : Prop where
  noErrs : fileErrs f = []
  desc : { fd with sourceCodeInfo := none } = fileDesc name f

section
variable [FloatFmt] {name : Bytes} {f : File} {fd : FileDescriptorProto}

theorem Parsed.made [LocSort] {src ts} (h : Parsed name src fd f ts) : Made name f fd := by
  refine ⟨h.noErrs, ?_⟩
  rw [h.desc]
  rfl

theorem Parsed.tree [LocSort] {src ts} (h : Parsed name src fd f ts) : TreeOf src f :=
  ⟨ts, h.toks, h.gram⟩

theorem Made.messageType (h : Made name f fd) : fd.messageType = (fileMsgs f).map (srcDesc f.syntax') := by
  have : fd.messageType = (fileDesc name f).messageType := by rw [← h.desc]
  rw [this, ← itemsMsgs_eq]; rfl

theorem Made.itemErrs (h : Made name f fd) : ∀ x ∈ f.items, fileItemErrs f.syntax' x = [] := by
  have := h.noErrs
  simp only [fileErrs, List.append_eq_nil_iff, List.flatMap_eq_nil_iff] at this
  exact this.1

theorem Made.fileMsgs_errs (h : Made name f fd) : ∀ x ∈ fileMsgs f, srcErrs f.syntax' x = [] := by
  intro x hx
  simp only [fileMsgs, List.mem_flatMap] at hx
  obtain ⟨i, hi, hx⟩ := hx
  have he := h.itemErrs i hi
  cases i with
  | message m =>
    rcases m with ⟨n, b, c, sp⟩
    simp only [List.mem_singleton] at hx; subst hx
    simpa [srcErrs, MsgSrc.body, fileItemErrs, messageErrs] using he
  | extend e =>
    rcases e with ⟨t, fs, c, sp⟩
    simp only [List.mem_flatMap] at hx
    obtain ⟨g, hg, hx⟩ := hx
    exact fieldErrs_msgs (fieldsErrs_mem (by simpa [fileItemErrs, extendErrs] using he) g hg) x hx
  | enum => cases hx
  | service => cases hx

/-- Every message descriptor is the one made from the source at the same place, which has no errors. -/
theorem Made.msgAt (h : Made name f fd) {p x d} (hm : MsgAt f fd p x d) :
    d = srcDesc f.syntax' x ∧ srcErrs f.syntax' x = [] := by
  induction hm with
  | top h1 h2 =>
    rw [h.messageType, List.getElem?_map, h1] at h2
    cases h2
    exact ⟨rfl, h.fileMsgs_errs _ (List.mem_of_getElem? h1)⟩
  | @nested p s d b i s' d' _ hb h1 h2 ih =>
    rw [ih.1, (srcDesc_body hb).1, List.getElem?_map, h1] at h2
    cases h2
    refine ⟨rfl, ?_⟩
    have he := ih.2
    simp only [srcErrs, hb] at he
    have hm := List.mem_of_getElem? h1
    simp only [bodyMsgs, List.mem_flatMap] at hm
    obtain ⟨y, hy, hm⟩ := hm
    exact itemErrs_msgs ((bodyErrs_parts he).1 y hy) _ hm

theorem Made.body_errs (h : Made name f fd) {p x d b} (hm : MsgAt f fd p x d) (hb : x.body = some b) :
    bodyErrs f.syntax' b = [] := by
  have := (h.msgAt hm).2
  simpa only [srcErrs, hb] using this

/-! ### Fields -/

/-- The scope of a field written at a place. -/
def _root_.Verif.Spec.Place.scope : Place → FieldScope
  | .message => .message
  | .oneof _ => .oneof
  | .extend _ => .extend

theorem fieldsFrom_errs {s} : ∀ (k : Nat) (xs : List MessageItem), (∀ x ∈ xs, Gen.itemErrs s x = []) →
    ∀ y ∈ fieldsFrom k xs, fieldErrs s y.1.scope y.2 = []
  | _, [], _, y, hy => by cases hy
  | k, .field g :: xs, h, y, hy => by
    rcases List.mem_cons.1 hy with rfl | hy
    · exact h _ (.head _)
    · exact fieldsFrom_errs k xs (fun x hx => h x (.tail _ hx)) y hy
  | k, .oneof o :: xs, h, y, hy => by
    simp only [fieldsFrom, List.mem_append, List.mem_map] at hy
    rcases hy with ⟨g, hg, rfl⟩ | hy
    · have := h _ (.head _)
      rcases o with ⟨n, o, fs, c, sp⟩
      simp only [Gen.itemErrs, oneofErrs, List.append_eq_nil_iff] at this
      exact fieldsErrs_mem this.2 g hg
    · exact fieldsFrom_errs (k + 1) xs (fun x hx => h x (.tail _ hx)) y hy
  | k, .enum _ :: xs, h, y, hy => fieldsFrom_errs k xs (fun x hx => h x (.tail _ hx)) y hy
  | k, .message _ :: xs, h, y, hy => fieldsFrom_errs k xs (fun x hx => h x (.tail _ hx)) y hy
  | k, .extend _ :: xs, h, y, hy => fieldsFrom_errs k xs (fun x hx => h x (.tail _ hx)) y hy

theorem extendFields_errs {s} {e : Extend} (h : extendErrs s e = []) :
    ∀ y ∈ extendFields e, fieldErrs s y.1.scope y.2 = [] := by
  rcases e with ⟨t, fs, c, sp⟩
  intro y hy
  simp only [extendFields, List.mem_map] at hy
  obtain ⟨g, hg, rfl⟩ := hy
  exact fieldsErrs_mem (by simpa [extendErrs, Place.scope] using h) g hg

/-- A written field has no errors. -/
theorem Made.field_errs (h : Made name f fd) {p pl x d} (hf : FieldAt f fd p pl x d) :
    fieldErrs f.syntax' pl.scope x = [] := by
  cases hf with
  | field hm hb h1 h2 =>
    exact fieldsFrom_errs 0 _ (bodyErrs_parts (h.body_errs hm hb)).1 _ (List.mem_of_getElem? h1)
  | ext hm hb h1 h2 =>
    have hmem := List.mem_of_getElem? h1
    simp only [bodyExts, List.mem_flatMap] at hmem
    obtain ⟨i, hi, hmem⟩ := hmem
    have := (bodyErrs_parts (h.body_errs hm hb)).1 i hi
    cases i with
    | extend e => exact extendFields_errs (by simpa [Gen.itemErrs] using this) _ hmem
    | _ => cases hmem
  | fileExt h1 h2 =>
    have hmem := List.mem_of_getElem? h1
    simp only [Spec.fileExts, List.mem_flatMap] at hmem
    obtain ⟨i, hi, hmem⟩ := hmem
    have := h.itemErrs i hi
    cases i with
    | extend e => exact extendFields_errs (by simpa [fileItemErrs] using this) _ hmem
    | _ => cases hmem

/-- Is the field one for which a synthetic oneof is made? -/
def synthetic (s : Syntax') (x : Place × Field) : Bool :=
  match x.1 with
  | .message => isP3 s x.2.label
  | _ => false

/-- The oneof index of a field, when the next synthetic oneof has index `y`. -/
def oneofIdx (s : Syntax') (y : Nat) (x : Place × Field) : Option Int :=
  match x.1 with
  | .message => if isP3 s x.2.label then some (y : Int) else none
  | .oneof k => some (k : Int)
  | .extend _ => none

/-- The descriptor of a field written at a place. -/
def placeDesc (s : Syntax') (y : Nat) (x : Place × Field) : FieldDescriptorProto :=
  match x.1 with
  | .extend t => extFieldDesc s t x.2
  | pl => fieldDesc s pl.scope (oneofIdx s y (pl, x.2)) x.2

/-- The descriptors of a list of fields, numbering the synthetic oneofs. -/
def placeDescs (s : Syntax') : Nat → List (Place × Field) → List FieldDescriptorProto
  | _, [] => []
  | y, x :: xs => placeDesc s y x :: placeDescs s (if synthetic s x then y + 1 else y) xs

theorem placeDescs_append (s) : ∀ (y : Nat) (a b : List (Place × Field)), (∀ x ∈ a, synthetic s x = false) →
    placeDescs s y (a ++ b) = a.map (placeDesc s y) ++ placeDescs s y b
  | _, [], _, _ => rfl
  | y, x :: a, b, h => by
    have h0 := h x (.head _)
    simp [placeDescs, h0, placeDescs_append s y a b (fun z hz => h z (.tail _ hz))]

theorem itemsFields_eq (s) : ∀ (r y : Nat) (xs : List MessageItem),
    itemsFields s r y xs = placeDescs s y (fieldsFrom r xs)
  | _, _, [] => rfl
  | r, y, .field g :: xs => by
    simp only [itemsFields, fieldsFrom, placeDescs, synthetic]
    by_cases hp : isP3 s g.label = true
    · simp [placeDesc, oneofIdx, hp, Place.scope, itemsFields_eq s r _ xs]
    · simp [placeDesc, oneofIdx, hp, Place.scope, itemsFields_eq s r _ xs]
  | r, y, .oneof o :: xs => by
    simp only [itemsFields, fieldsFrom]
    rw [placeDescs_append, itemsFields_eq s (r + 1) y xs]
    · congr 1; simp [placeDesc, oneofIdx, Place.scope]
    · intro x hx
      simp only [List.mem_map] at hx
      obtain ⟨_, _, rfl⟩ := hx
      rfl
  | r, y, .enum _ :: xs => itemsFields_eq s r y xs
  | r, y, .message _ :: xs => itemsFields_eq s r y xs
  | r, y, .extend _ :: xs => itemsFields_eq s r y xs

theorem placeDescs_get (s) : ∀ (y : Nat) (xs : List (Place × Field)) (i : Nat),
    (placeDescs s y xs)[i]? = xs[i]?.map (placeDesc s (y + ((xs.take i).filter (synthetic s)).length))
  | _, [], _ => rfl
  | y, x :: xs, 0 => by simp [placeDescs]
  | y, x :: xs, i + 1 => by
    simp only [placeDescs, List.getElem?_cons_succ, placeDescs_get s _ xs i, List.take_succ_cons]
    cases hx : synthetic s x <;> simp [hx]
    congr 2; omega

theorem placeDescs_length (s) : ∀ (y : Nat) (xs : List (Place × Field)), (placeDescs s y xs).length = xs.length
  | _, [] => rfl
  | y, x :: xs => by simp [placeDescs, placeDescs_length s _ xs]

theorem itemsExts_eq (s) (b : MessageBody) : itemsExts s b.items = (bodyExts b).map (placeDesc s 0) := by
  unfold bodyExts
  generalize b.items = xs
  induction xs with
  | nil => rfl
  | cons x xs ih => cases x <;> simp [itemsExts, ih, extendFields, placeDesc]

theorem fileExts_eq (s) (f : File) : Gen.fileExts s f.items = (Spec.fileExts f).map (placeDesc s 0) := by
  unfold Spec.fileExts
  generalize f.items = xs
  induction xs with
  | nil => rfl
  | cons x xs ih => cases x <;> simp [Gen.fileExts, ih, extendFields, placeDesc]

theorem Made.extension (h : Made name f fd) : fd.extension = (Spec.fileExts f).map (placeDesc f.syntax' 0) := by
  have : fd.extension = (fileDesc name f).extension := by rw [← h.desc]
  rw [this, ← fileExts_eq]; rfl

/-- Every field descriptor is the one made from the field at the same place. -/
theorem Made.fieldAt (h : Made name f fd) {p pl x d} (hf : FieldAt f fd p pl x d) :
    ∃ y, d = placeDesc f.syntax' y (pl, x) := by
  cases hf with
  | field hm hb h1 h2 =>
    rw [(h.msgAt hm).1, (srcDesc_body hb).2.1, itemsFields_eq, placeDescs_get] at h2
    erw [h1] at h2
    cases h2
    exact ⟨_, rfl⟩
  | ext hm hb h1 h2 =>
    rw [(h.msgAt hm).1, (srcDesc_body hb).2.2.1, itemsExts_eq, List.getElem?_map, h1] at h2
    cases h2
    exact ⟨_, rfl⟩
  | fileExt h1 h2 =>
    rw [h.extension, List.getElem?_map, h1] at h2
    cases h2
    exact ⟨_, rfl⟩

/-! ### Enums and services -/

theorem itemsEnums_eq (b : MessageBody) : itemsEnums b.items = (bodyEnums b).map enumDesc := by
  unfold bodyEnums
  generalize b.items = xs
  induction xs with
  | nil => rfl
  | cons x xs ih => cases x <;> simp [itemsEnums, ih]

theorem fileEnums_eq (f : File) : Gen.fileEnums f.items = (Spec.fileEnums f).map enumDesc := by
  unfold Spec.fileEnums
  generalize f.items = xs
  induction xs with
  | nil => rfl
  | cons x xs ih => cases x <;> simp [Gen.fileEnums, ih]

theorem fileServices_eq (f : File) : Gen.fileServices f.items = (Spec.fileServices f).map serviceDesc := by
  unfold Spec.fileServices
  generalize f.items = xs
  induction xs with
  | nil => rfl
  | cons x xs ih => cases x <;> simp [Gen.fileServices, ih]

theorem Made.enumType (h : Made name f fd) : fd.enumType = (Spec.fileEnums f).map enumDesc := by
  have : fd.enumType = (fileDesc name f).enumType := by rw [← h.desc]
  rw [this, ← fileEnums_eq]; rfl

theorem Made.service (h : Made name f fd) : fd.service = (Spec.fileServices f).map serviceDesc := by
  have : fd.service = (fileDesc name f).service := by rw [← h.desc]
  rw [this, ← fileServices_eq]; rfl

theorem Made.enumAt (h : Made name f fd) {p e d} (he : EnumAt f fd p e d) : d = enumDesc e ∧ enumErrs e = [] := by
  cases he with
  | top h1 h2 =>
    rw [h.enumType, List.getElem?_map, h1] at h2
    cases h2
    refine ⟨rfl, ?_⟩
    have hmem := List.mem_of_getElem? h1
    simp only [Spec.fileEnums, List.mem_filterMap] at hmem
    obtain ⟨i, hi, hmem⟩ := hmem
    have := h.itemErrs i hi
    cases i <;> cases hmem
    exact this
  | nested hm hb h1 h2 =>
    rw [(h.msgAt hm).1, (srcDesc_body hb).2.2.2.1, itemsEnums_eq, List.getElem?_map, h1] at h2
    cases h2
    refine ⟨rfl, ?_⟩
    have hmem := List.mem_of_getElem? h1
    simp only [bodyEnums, List.mem_filterMap] at hmem
    obtain ⟨i, hi, hmem⟩ := hmem
    have := (bodyErrs_parts (h.body_errs hm hb)).1 i hi
    cases i <;> cases hmem
    simpa [Gen.itemErrs] using this

theorem Made.serviceAt (h : Made name f fd) {p s d} (hs : ServiceAt f fd p s d) :
    d = serviceDesc s ∧ serviceErrs s = [] := by
  cases hs with
  | mk h1 h2 =>
    rw [h.service, List.getElem?_map, h1] at h2
    cases h2
    refine ⟨rfl, ?_⟩
    have hmem := List.mem_of_getElem? h1
    simp only [Spec.fileServices, List.mem_filterMap] at hmem
    obtain ⟨i, hi, hmem⟩ := hmem
    have := h.itemErrs i hi
    cases i <;> cases hmem
    exact this

/-- Everything is paired. -/
theorem Made.paired (h : Made name f fd) : Paired f fd := by
  refine ⟨?_, ?_, ?_, ?_, ?_, ?_⟩
  · rw [h.messageType, List.length_map]
  · rw [h.enumType, List.length_map]
  · rw [h.service, List.length_map]
  · rw [h.extension, List.length_map]
  · intro p s d b hm hb
    have hd := srcDesc_body (s := f.syntax') hb
    rw [(h.msgAt hm).1, hd.1, hd.2.1, hd.2.2.1, hd.2.2.2.1, itemsExts_eq, itemsEnums_eq, itemsFields_eq]
    simp [placeDescs_length, bodyFields]
  · intro p s d hm hb
    rw [(h.msgAt hm).1]
    cases s with
    | message => cases hb
    | group => cases hb
    | map f k v => exact ⟨rfl, rfl, rfl, rfl, rfl, rfl, rfl, rfl⟩

/-- Every message descriptor of the file is paired with a source. -/
theorem Made.msgIn (h : Made name f fd) {d} (hd : MsgIn fd d) : ∃ p s, MsgAt f fd p s d := by
  have hp := h.paired
  induction hd with
  | @top d hd =>
    obtain ⟨i, hi⟩ := List.mem_iff_getElem?.1 hd
    have : i < (fileMsgs f).length := hp.messages ▸ (List.getElem?_eq_some_iff.1 hi).1
    exact ⟨_, _, .top (List.getElem?_eq_getElem this) hi⟩
  | @nested d d' _ hd ih =>
    obtain ⟨p, s, hm⟩ := ih
    cases hb : s.body with
    | none => rw [(hp.entry p s d hm hb).1] at hd; cases hd
    | some b =>
      obtain ⟨i, hi⟩ := List.mem_iff_getElem?.1 hd
      have : i < (bodyMsgs b).length := (hp.body p s d b hm hb).1 ▸ (List.getElem?_eq_some_iff.1 hi).1
      exact ⟨_, _, .nested hm hb (List.getElem?_eq_getElem this) hi⟩

/-- Every field descriptor of the file is paired with a field, or is one of the two fields of a map entry. -/
theorem Made.fieldIn (h : Made name f fd) {d} (hd : FieldIn fd d) :
    (∃ p pl x, FieldAt f fd p pl x d) ∨
    (∃ p g k v e, MsgAt f fd p (.map g k v) e ∧ d ∈ e.field) := by
  have hp := h.paired
  cases hd with
  | @field m x hm hx =>
    obtain ⟨p, s, hm⟩ := h.msgIn hm
    cases hb : s.body with
    | none => cases s <;> cases hb; exact .inr ⟨_, _, _, _, _, hm, hx⟩
    | some b =>
      obtain ⟨i, hi⟩ := List.mem_iff_getElem?.1 hx
      have hl : i < (bodyFields b).length := (hp.body p s m b hm hb).2.1 ▸ (List.getElem?_eq_some_iff.1 hi).1
      exact .inl ⟨_, _, _, .field hm hb (List.getElem?_eq_getElem hl) hi⟩
  | @ext m x hm hx =>
    obtain ⟨p, s, hm⟩ := h.msgIn hm
    cases hb : s.body with
    | none => rw [(hp.entry p s m hm hb).2.2.1] at hx; cases hx
    | some b =>
      obtain ⟨i, hi⟩ := List.mem_iff_getElem?.1 hx
      have hl : i < (bodyExts b).length := (hp.body p s m b hm hb).2.2.1 ▸ (List.getElem?_eq_some_iff.1 hi).1
      exact .inl ⟨_, _, _, .ext hm hb (List.getElem?_eq_getElem hl) hi⟩
  | @fileExt x hx =>
    obtain ⟨i, hi⟩ := List.mem_iff_getElem?.1 hx
    have hl : i < (Spec.fileExts f).length := hp.extensions ▸ (List.getElem?_eq_some_iff.1 hi).1
    exact .inl ⟨_, _, _, .fileExt (List.getElem?_eq_getElem hl) hi⟩

end
end Verif.Gen
