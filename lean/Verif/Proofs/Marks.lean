import Verif.Proofs.Source2
import Mathlib.Tactic.Tauto
/-!
The source locations of a file, by the places of the constructs: the counters of the generator are the indices of the
constructs in their lists.
-/
namespace Verif.Gen
open Verif.Ast Verif.Spec

/-- A mark moved below a path. -/
def Mark.sub (p : List Int) (m : Mark) : Mark := { m with path := p ++ m.path }

theorem mem_under {p : List Int} {ms : List Mark} {m : Mark} : m ∈ under p ms ↔ ∃ x ∈ ms, m = x.sub p := by
  simp only [under, List.mem_map, Mark.sub]
  exact ⟨fun ⟨x, h, e⟩ => ⟨x, h, e.symm⟩, fun ⟨x, h, e⟩ => ⟨x, h, e.symm⟩⟩

theorem Mark.sub_sub (p q : List Int) (m : Mark) : (m.sub q).sub p = m.sub (p ++ q) := by simp [Mark.sub]

/-- The mark `m` belongs to an element of the list `l`, whose first element has index `b`. -/
def At {α : Type} (b : Nat) (tag : Int) (l : List α) (g : α → List Mark) (m : Mark) : Prop :=
  ∃ (i : Nat) (x : α), l[i]? = some x ∧ m ∈ under [tag, ((b + i : Nat) : Int)] (g x)

theorem At_nil {α : Type} {b tag} {g : α → List Mark} {m} : At b tag [] g m ↔ False := by simp [At]

theorem At_append {α : Type} {b tag} {l l' : List α} {g : α → List Mark} {m} :
    At b tag (l ++ l') g m ↔ At b tag l g m ∨ At (b + l.length) tag l' g m := by
  constructor
  · rintro ⟨i, x, h, hm⟩
    by_cases hi : i < l.length
    · rw [List.getElem?_append_left hi] at h; exact .inl ⟨i, x, h, hm⟩
    · rw [List.getElem?_append_right (by omega)] at h
      refine .inr ⟨i - l.length, x, h, ?_⟩
      have : b + l.length + (i - l.length) = b + i := by omega
      rwa [this]
  · rintro (⟨i, x, h, hm⟩ | ⟨i, x, h, hm⟩)
    · exact ⟨i, x, by rw [List.getElem?_append_left (List.getElem?_eq_some_iff.1 h).1]; exact h, hm⟩
    · refine ⟨l.length + i, x, by rw [List.getElem?_append_right (by omega)]; simpa using h, ?_⟩
      rwa [← Nat.add_assoc]

theorem At_one {α : Type} {b tag} {a : α} {g : α → List Mark} {m} :
    At b tag [a] g m ↔ m ∈ under [tag, (b : Int)] (g a) := by
  constructor
  · rintro ⟨i, x, h, hm⟩
    obtain ⟨hi, rfl⟩ := List.getElem?_eq_some_iff.1 h
    simp only [List.length_cons, List.length_nil, Nat.zero_add, Nat.lt_one_iff] at hi
    subst hi; simpa using hm
  · intro h; exact ⟨0, a, rfl, by simpa using h⟩

theorem At_cons {α : Type} {b tag} {a : α} {l : List α} {g : α → List Mark} {m} :
    At b tag (a :: l) g m ↔ m ∈ under [tag, (b : Int)] (g a) ∨ At (b + 1) tag l g m := by
  rw [show a :: l = [a] ++ l from rfl, At_append, At_one]; rfl

theorem At_map {α β : Type} {b tag} {l : List α} {f : α → β} {g : β → List Mark} {m} :
    At b tag (l.map f) g m ↔ At b tag l (g ∘ f) m := by
  induction l generalizing b with
  | nil => simp [At_nil]
  | cons x xs ih => simp [At_cons, ih]

/-- The marks of the field descriptor itself. -/
def kindOwn (s : Syntax') (scope : FieldScope) (label : Option (FieldLabel × Span))
    (name : Ident) (span : Span) (comments : Comments) (dflt : Option OptionBody) : FieldKind → List Mark
  | .normal (.named t) _ => namedMarks s scope label span comments t dflt
  | .normal _ tySpan => scalarMarks s scope label span comments tySpan dflt
  | .group tySpan _ => groupFieldMarks s scope label span tySpan name
  | .map tySpan _ _ _ _ => mapMarks span comments tySpan

def ownMarks (s : Syntax') (scope : FieldScope) (f : Field) : List Mark :=
  headMarks f.name f.number ++ kindOwn s scope f.label f.name f.span f.comments (dfltOf f.options) f.kind ++
    tailMarks f.options

def extendeeMarks : Place → List Mark
  | .extend t => [⟨[Tag.fieldExtendee], tspan t, {}⟩]
  | _ => []

def placeMarks (s : Syntax') (z : Place × Field) : List Mark :=
  extendeeMarks z.1 ++ ownMarks s z.1.scope z.2

/-- The marks of a message descriptor and everything in it. -/
def srcMarks (s : Syntax') : MsgSrc → List Mark
  | .message m => messageMarks s m
  | .group f b => groupMsgMarks f.span f.comments f.name ++ bodyMarks s b
  | .map .. => []

theorem nestedCount_eq (f : Field) : nestedCount f = (fieldMsgs f).length := by
  unfold nestedCount fieldMsgs
  cases f.kind <;> rfl

theorem nestedCounts_eq : ∀ fs : List Field, nestedCounts fs = (fs.flatMap fieldMsgs).length
  | [] => rfl
  | f :: fs => by simp [nestedCounts, nestedCount_eq, nestedCounts_eq fs]

theorem fieldMarks_at (s : Syntax') (scope) (ft mt : Int) (i k : Nat) (f : Field) (m : Mark) :
    m ∈ fieldMarks s scope ft mt i k f ↔
      m ∈ under [ft, (i : Int)] (ownMarks s scope f) ∨ At k mt (fieldMsgs f) (srcMarks s) m := by
  rcases f with ⟨label, name, kind, number, options, comments, span⟩
  cases kind with
  | normal ty sp =>
    have : kindMarks s scope ft mt i k label name span comments (dfltOf options) (.normal ty sp) =
        under [ft, (i : Int)] (kindOwn s scope label name span comments (dfltOf options) (.normal ty sp)) := by
      cases ty <;> simp [kindMarks, kindOwn]
    simp [fieldMarks, ownMarks, this, fieldMsgs, At_nil, or_assoc]
  | group sp body =>
    simp only [fieldMarks, kindMarks, ownMarks, kindOwn, fieldMsgs, At_one, srcMarks, under_append, List.mem_append]
    tauto
  | map sp a b c d =>
    simp only [fieldMarks, kindMarks, ownMarks, kindOwn, fieldMsgs, At_one, srcMarks, under_append, List.mem_append,
      under_nil, List.not_mem_nil, or_false]

theorem oneofFieldsMarks_at (s : Syntax') (r : Nat) : ∀ (fs : List Field) (i k : Nat) (m : Mark),
    m ∈ oneofFieldsMarks s i k fs ↔ At i 2 (fs.map fun f => (Place.oneof r, f)) (placeMarks s) m ∨
      At k 3 (fs.flatMap fieldMsgs) (srcMarks s) m
  | [], i, k, m => by simp [oneofFieldsMarks, At_nil]
  | f :: fs, i, k, m => by
    simp only [oneofFieldsMarks, List.mem_append, fieldMarks_at, oneofFieldsMarks_at s r fs, List.map_cons, At_cons,
      List.flatMap_cons, At_append, nestedCount_eq, placeMarks, extendeeMarks, List.nil_append, Place.scope, Tag.messageField,
      Tag.messageNestedType]
    tauto

theorem extFieldsMarks_at (s : Syntax') (t : TypeName) (et mt : Int) : ∀ (fs : List Field) (i k : Nat) (m : Mark),
    m ∈ extFieldsMarks s t et mt i k fs ↔ At i et (fs.map fun f => (Place.extend t, f)) (placeMarks s) m ∨
      At k mt (fs.flatMap fieldMsgs) (srcMarks s) m
  | [], i, k, m => by simp [extFieldsMarks, At_nil]
  | f :: fs, i, k, m => by
    simp only [extFieldsMarks, List.cons_append, List.mem_cons, List.mem_append, fieldMarks_at,
      extFieldsMarks_at s t et mt fs, List.map_cons, At_cons, List.flatMap_cons, At_append, nestedCount_eq, placeMarks, extendeeMarks,
      Place.scope, List.nil_append, under_cons]
    tauto

/-- The `extend` blocks of a message body. -/
def extendBlocks (xs : List MessageItem) : List Extend := xs.filterMap fun
  | .extend e => some e
  | _ => none

theorem extendMarks_at (s : Syntax') (et mt : Int) (i k : Nat) (e : Extend) (m : Mark) :
    m ∈ extendMarks s et mt i k e ↔ m = ⟨[et], e.span, e.comments⟩ ∨ At i et (extendFields e) (placeMarks s) m ∨
      At k mt (e.fields.flatMap fieldMsgs) (srcMarks s) m := by
  rcases e with ⟨t, fs, c, sp⟩
  simp only [extendMarks, List.mem_cons, extFieldsMarks_at, extendFields]

/-- A message body with these elements. -/
def bdy (xs : List MessageItem) : MessageBody := ⟨xs, [], [], []⟩

theorem bodyMsgs_cons (x xs) : bodyMsgs (bdy (x :: xs)) = itemMsgs x ++ bodyMsgs (bdy xs) := rfl
theorem bodyEnums_cons (x xs) : bodyEnums (bdy (x :: xs)) =
    (match x with | .enum e => [e] | _ => []) ++ bodyEnums (bdy xs) := by cases x <;> rfl
theorem bodyOneofs_cons (x xs) : bodyOneofs (bdy (x :: xs)) =
    (match x with | .oneof e => [e] | _ => []) ++ bodyOneofs (bdy xs) := by cases x <;> rfl
theorem bodyExts_cons (x xs) : bodyExts (bdy (x :: xs)) =
    (match x with | .extend e => extendFields e | _ => []) ++ bodyExts (bdy xs) := by cases x <;> rfl
theorem extendBlocks_cons (x xs) : extendBlocks (x :: xs) =
    (match x with | .extend e => [e] | _ => []) ++ extendBlocks xs := by cases x <;> rfl

def BlockMark (tag : Int) (es : List Extend) (m : Mark) : Prop := ∃ e ∈ es, m = ⟨[tag], e.span, e.comments⟩

theorem BlockMark_append {tag es es' m} : BlockMark tag (es ++ es') m ↔ BlockMark tag es m ∨ BlockMark tag es' m := by
  simp only [BlockMark, List.mem_append, or_and_right, exists_or]
theorem BlockMark_one {tag e m} : BlockMark tag [e] m ↔ m = ⟨[tag], e.span, e.comments⟩ := by simp [BlockMark]
theorem BlockMark_nil {tag m} : BlockMark tag [] m ↔ False := by simp [BlockMark]

theorem itemsMarks_at (s : Syntax') : ∀ (xs : List MessageItem) (c : Cnt) (m : Mark),
    m ∈ itemsMarks s c xs ↔
      At c.field 2 (fieldsFrom c.oneof xs) (placeMarks s) m ∨
      At c.nested 3 (bodyMsgs (bdy xs)) (srcMarks s) m ∨
      At c.enum 4 (bodyEnums (bdy xs)) enumMarks m ∨
      At c.ext 6 (bodyExts (bdy xs)) (placeMarks s) m ∨
      At c.oneof 8 (bodyOneofs (bdy xs)) oneofMarks m ∨ BlockMark 6 (extendBlocks xs) m
  | [], c, m => by
    simp [itemsMarks, At_nil, fieldsFrom, extendBlocks, bodyMsgs, bodyEnums, bodyExts, bodyOneofs, bdy, BlockMark]
  | x :: xs, c, m => by
    have ih := itemsMarks_at s xs (c.next x) m
    rw [itemsMarks, List.mem_append, ih]
    clear ih
    rw [bodyMsgs_cons, bodyEnums_cons, bodyExts_cons, bodyOneofs_cons, extendBlocks_cons]
    cases x with
    | field f =>
      simp only [itemMarks, fieldMarks_at, Cnt.next, fieldsFrom, At_cons, itemMsgs, At_append,
        nestedCount_eq, placeMarks, extendeeMarks, Place.scope, List.nil_append, Tag.messageField, Tag.messageNestedType]
      generalize At _ _ _ _ _ = A1, At _ _ _ _ _ = A2, At _ _ _ _ _ = A3
      tauto
    | enum e =>
      simp only [itemMarks, Cnt.next, fieldsFrom, At_append, At_one, itemMsgs, List.nil_append, List.length_singleton,
        Tag.messageEnumType]
      tauto
    | message e =>
      simp only [itemMarks, Cnt.next, fieldsFrom, At_append, At_one, itemMsgs, List.nil_append,
        Tag.messageNestedType, srcMarks, List.length_singleton]
      tauto
    | extend e =>
      simp only [itemMarks, extendMarks_at, Cnt.next, fieldsFrom, itemMsgs, List.nil_append,
        At_append, nestedCounts_eq, Tag.messageExtension, Tag.messageNestedType, BlockMark_append, BlockMark_one]
      simp only [extendFields, List.length_map]
      tauto
    | oneof o =>
      rcases o with ⟨name, options, fields, comments, span⟩
      simp only [itemMarks, oneofAllMarks, oneofFieldsMarks_at s c.oneof, Cnt.next, fieldsFrom,
        itemMsgs, List.nil_append, At_append, At_one, nestedCounts_eq, Tag.messageOneofDecl,
        List.mem_append, List.length_map, List.length_singleton]
      tauto

/-- The marks of the ranges, names and options of a message body. -/
theorem bodyMarks_at (s : Syntax') (b : MessageBody) (m : Mark) :
    m ∈ bodyMarks s b ↔
      At 0 2 (bodyFields b) (placeMarks s) m ∨ At 0 3 (bodyMsgs b) (srcMarks s) m ∨ At 0 4 (bodyEnums b) enumMarks m ∨
      At 0 6 (bodyExts b) (placeMarks s) m ∨ At 0 8 (bodyOneofs b) oneofMarks m ∨
      BlockMark 6 (extendBlocks b.items) m ∨ m ∈ bodyTailMarks b.extensions b.options b.reserved := by
  rcases b with ⟨items, exts, opts, res⟩
  rw [bodyMarks, List.mem_append, itemsMarks_at]
  simp only [or_assoc]
  exact Iff.rfl

/-- The `extend` blocks of a file. -/
def fileExtends (f : File) : List Extend := f.items.filterMap fun
  | .extend e => some e
  | _ => none

/-- A file with these elements. -/
def fil (xs : List FileItem) : File := ⟨⟨0, 0⟩, .proto2, none, none, [], [], xs⟩

theorem fileMsgs_cons (x xs) : fileMsgs (fil (x :: xs)) =
    (match x with | .message m => [.message m] | .extend e => e.fields.flatMap fieldMsgs | _ => []) ++ fileMsgs (fil xs) := by
  cases x <;> rfl
theorem fileEnums_cons (x xs) : Spec.fileEnums (fil (x :: xs)) =
    (match x with | .enum e => [e] | _ => []) ++ Spec.fileEnums (fil xs) := by cases x <;> rfl
theorem fileServices_cons (x xs) : Spec.fileServices (fil (x :: xs)) =
    (match x with | .service e => [e] | _ => []) ++ Spec.fileServices (fil xs) := by cases x <;> rfl
theorem fileExts_cons (x xs) : Spec.fileExts (fil (x :: xs)) =
    (match x with | .extend e => extendFields e | _ => []) ++ Spec.fileExts (fil xs) := by cases x <;> rfl
theorem fileExtends_cons (x xs) : fileExtends (fil (x :: xs)) =
    (match x with | .extend e => [e] | _ => []) ++ fileExtends (fil xs) := by cases x <;> rfl

theorem fileItemsMarks_at (s : Syntax') : ∀ (xs : List FileItem) (c : FCnt) (m : Mark),
    m ∈ fileItemsMarks s c xs ↔
      At c.msg 4 (fileMsgs (fil xs)) (srcMarks s) m ∨ At c.enum 5 (Spec.fileEnums (fil xs)) enumMarks m ∨
      At c.service 6 (Spec.fileServices (fil xs)) serviceMarks m ∨
      At c.ext 7 (Spec.fileExts (fil xs)) (placeMarks s) m ∨ BlockMark 7 (fileExtends (fil xs)) m
  | [], c, m => by
    simp [fileItemsMarks, At_nil, fil, fileMsgs, Spec.fileEnums, Spec.fileServices, Spec.fileExts, fileExtends, BlockMark]
  | x :: xs, c, m => by
    have ih := fileItemsMarks_at s xs (c.next x) m
    rw [fileItemsMarks, List.mem_append, ih]
    clear ih
    rw [fileMsgs_cons, fileEnums_cons, fileServices_cons, fileExts_cons, fileExtends_cons]
    cases x with
    | message x =>
      simp only [fileItemMarks, FCnt.next, List.nil_append, At_append, At_one, List.length_singleton,
        Tag.fileMessageType, srcMarks]
      tauto
    | enum e =>
      simp only [fileItemMarks, FCnt.next, List.nil_append, At_append, At_one, List.length_singleton, Tag.fileEnumType]
      tauto
    | service e =>
      simp only [fileItemMarks, FCnt.next, List.nil_append, At_append, At_one, List.length_singleton, Tag.fileService]
      tauto
    | extend e =>
      simp only [fileItemMarks, extendMarks_at, FCnt.next, List.nil_append,
        At_append, nestedCounts_eq, Tag.fileExtension, Tag.fileMessageType, BlockMark_append, BlockMark_one]
      simp only [extendFields, List.length_map]
      tauto

theorem restMarks_at (f : File) (m : Mark) :
    m ∈ restMarks f ↔
      At 0 4 (fileMsgs f) (srcMarks f.syntax') m ∨ At 0 5 (Spec.fileEnums f) enumMarks m ∨
      At 0 6 (Spec.fileServices f) serviceMarks m ∨ At 0 7 (Spec.fileExts f) (placeMarks f.syntax') m ∨
      BlockMark 7 (fileExtends f) m ∨
      m ∈ packageMarks f.package ∨ m ∈ importMarks 0 0 0 f.imports ∨ m ∈ under [8] (optsMarks 0 f.options) ∨
      m ∈ syntaxMarks f.syntaxSpan := by
  have h := fileItemsMarks_at f.syntax' f.items {} m
  have e1 : fileMsgs (fil f.items) = fileMsgs f := rfl
  have e2 : Spec.fileEnums (fil f.items) = Spec.fileEnums f := rfl
  have e3 : Spec.fileServices (fil f.items) = Spec.fileServices f := rfl
  have e4 : Spec.fileExts (fil f.items) = Spec.fileExts f := rfl
  have e5 : fileExtends (fil f.items) = fileExtends f := rfl
  rw [e1, e2, e3, e4, e5] at h
  simp only [restMarks, List.mem_append, h, Tag.fileOptions]
  tauto

end Verif.Gen
