import Verif.Proofs.MoveG
/-!
The source locations of a tree move with its places.
-/
namespace Verif.Gen
open Verif.Ast Verif.Spec

/-- The location at its new place. -/
def Mark.mv (g : Nat → Nat) (m : Mark) : Mark := { m with span := Move.mv g m.span }
abbrev mks (g : Nat → Nat) (ms : List Mark) : List Mark := ms.map (Mark.mv g)

section
variable {g : Nat → Nat}

theorem mv_list {α : Type} [Move α] (l : List α) : mv g l = l.map (mv g) := rfl
theorem mv_some {α : Type} [Move α] (a : α) : mv g (some a) = some (mv g a) := rfl

theorem under_mv (p : List Int) (ms : List Mark) : under p (mks g ms) = mks g (under p ms) := by
  simp [under, mks, Function.comp_def, Mark.mv]

theorem optsMarks_mv : ∀ (os : List Opt) (k : Nat), optsMarks k (mv g os) = mks g (optsMarks k os)
  | [], _ => rfl
  | o :: os, k => by
    have := optsMarks_mv os (k + 1)
    rw [mv_list] at this ⊢
    rw [List.map_cons, optsMarks, this]
    rfl

theorem nameSpan_mv (o : OptionBody) : (mv g o).span = o.span.map (mv g) := by
  obtain ⟨name, v⟩ := o
  show (OptionBody.mk (mv g name) (mv g v)).span = _
  have hv : (mv g v).span = mv g v.span := by cases v <;> rfl
  have hp : ∀ p : OptionNamePart, (mv g p).span = mv g p.span := fun p => by cases p <;> rfl
  have hh : (mv g name).head? = name.head?.map (mv g) := by rw [mv_list, List.head?_map]
  have hl : (mv g name).getLast? = name.getLast?.map (mv g) := by rw [mv_list, List.getLast?_map]
  unfold OptionBody.span OptionBody.nameSpan
  simp only [hh, hl, hv]
  cases name.head? <;> cases name.getLast? <;> simp [hp] <;> rfl

theorem ospan_mv (hg : g 0 = 0) (o : OptionBody) : ospan (mv g o) = mv g (ospan o) := by
  unfold ospan
  rw [nameSpan_mv]
  cases o.span with
  | none => show (⟨0, 0⟩ : Span) = ⟨g 0, g 0⟩; rw [hg]
  | some s => rfl

theorem vspan_mv (v : OptionValue) : (mv g v).span = mv g v.span := by cases v <;> rfl

theorem fullSpan_mv (f : FullIdent) : (mv g f).span = f.span.map (mv g) := by
  obtain ⟨ps⟩ := f
  have hh : (mv g ps).head? = ps.head?.map (mv g) := by rw [mv_list, List.head?_map]
  have hl : (mv g ps).getLast? = ps.getLast?.map (mv g) := by rw [mv_list, List.getLast?_map]
  show (FullIdent.mk (mv g ps)).span = _
  unfold FullIdent.span
  simp only [hh, hl]
  cases ps.head? <;> cases ps.getLast? <;> rfl

theorem tspan_mv (hg : g 0 = 0) (t : Ast.TypeName) : tspan (mv g t) = mv g (tspan t) := by
  have : (mv g t).span = t.span.map (mv g) := by
    obtain ⟨d, n⟩ := t
    show (Ast.TypeName.mk (mv g d) (mv g n)).span = _
    unfold Ast.TypeName.span
    simp only [fullSpan_mv]
    cases d with
    | none => rfl
    | some d => cases n.span <;> rfl
  unfold tspan
  rw [this]
  cases t.span with
  | none => show (⟨0, 0⟩ : Span) = ⟨g 0, g 0⟩; rw [hg]
  | some s => rfl

variable (hg : g 0 = 0)
include hg

theorem bodiesMarks_mv : ∀ (os : List OptionBody) (k : Nat), bodiesMarks k (mv g os) = mks g (bodiesMarks k os)
  | [], _ => rfl
  | o :: os, k => by
    have := bodiesMarks_mv os (k + 1)
    rw [mv_list] at this ⊢
    rw [List.map_cons, bodiesMarks, this, ospan_mv hg]
    rfl

theorem optListMarks_mv (l : Option OptionList) : optListMarks (mv g l) = mks g (optListMarks l) := by
  cases l with
  | none => rfl
  | some l =>
    show _ :: bodiesMarks 0 (mv g l.options) = _
    rw [bodiesMarks_mv hg]
    rfl

omit hg in
theorem rangeMarks_mv (r : ReservedRange) : rangeMarks (mv g r) = mks g (rangeMarks r) := by
  obtain ⟨a, b⟩ := r
  cases b <;> rfl

theorem extRangeMarks_mv (os : Option OptionList) (r : ReservedRange) : extRangeMarks (mv g os) (mv g r) = mks g (extRangeMarks os r) := by
  unfold extRangeMarks
  rw [rangeMarks_mv, optListMarks_mv hg, under_mv, mks, mks, mks, List.map_append]

omit hg in
theorem rangesMarks_mv {F F' : ReservedRange → List Mark} (h : ∀ r, F' (mv g r) = mks g (F r)) : ∀ (rs : List ReservedRange) (k : Nat),
    rangesMarks F' k (mv g rs) = mks g (rangesMarks F k rs)
  | [], _ => rfl
  | o :: os, k => by
    have := rangesMarks_mv h os (k + 1)
    rw [mv_list] at this ⊢
    rw [List.map_cons, rangesMarks, this, h, under_mv, rangesMarks, mks, mks, mks, List.map_append]

omit hg in
theorem namesMarks_mv : ∀ (ns : List Ident) (k : Nat), namesMarks k (mv g ns) = mks g (namesMarks k ns)
  | [], _ => rfl
  | o :: os, k => by
    have := namesMarks_mv os (k + 1)
    rw [mv_list] at this ⊢
    rw [List.map_cons, namesMarks, this]
    rfl

omit hg in
theorem mv_len {α : Type} [Move α] (l : List α) : (mv g l).length = l.length := by rw [mv_list, List.length_map]

omit hg in
theorem reservedMarks_mv (a b : Int) : ∀ (rs : List Reserved) (k j : Nat), reservedMarks a b k j (mv g rs) = mks g (reservedMarks a b k j rs)
  | [], _, _ => rfl
  | r :: rs, k, j => by
    have ih := reservedMarks_mv a b rs
    have h1 : (resRanges (mv g r)).length = (resRanges r).length := by
      obtain ⟨k, _, _⟩ := r
      cases k with
      | ranges xs => exact mv_len xs
      | names xs => rfl
    have h2 : (resNames (mv g r)).length = (resNames r).length := by
      obtain ⟨k, _, _⟩ := r
      cases k with
      | ranges xs => rfl
      | names xs => exact mv_len xs
    rw [mv_list, List.map_cons, reservedMarks, h1, h2, ← mv_list, ih, reservedMarks, mks, mks, List.map_append]
    congr 1
    obtain ⟨kd, c, s⟩ := r
    cases kd with
    | ranges xs =>
      show under [a] (_ :: rangesMarks rangeMarks k (mv g xs)) = mks g _
      rw [rangesMarks_mv rangeMarks_mv]
      exact under_mv [a] (⟨[], s, c⟩ :: rangesMarks rangeMarks k xs)
    | names xs =>
      show under [b] (_ :: namesMarks j (mv g xs)) = mks g _
      rw [namesMarks_mv]
      exact under_mv [b] (⟨[], s, c⟩ :: namesMarks j xs)

theorem extensionsMarks_mv : ∀ (es : List Extensions) (k : Nat), extensionsMarks k (mv g es) = mks g (extensionsMarks k es)
  | [], _ => rfl
  | e :: es, k => by
    have ih := extensionsMarks_mv es
    obtain ⟨rs, os, c, s⟩ := e
    show _ :: rangesMarks (extRangeMarks (mv g os)) k (mv g rs) ++ extensionsMarks (k + (mv g rs).length) (mv g es) = _
    rw [rangesMarks_mv (extRangeMarks_mv hg os), mv_len, ih, extensionsMarks, mks, mks, mks, List.map_append]
    rfl

theorem enumValueMarks_mv (v : EnumValue) : enumValueMarks (mv g v) = mks g (enumValueMarks v) := by
  show _ :: _ :: _ :: under _ (optListMarks (mv g v.options)) = _
  rw [optListMarks_mv hg, under_mv]
  rfl

theorem valuesMarks_mv : ∀ (vs : List EnumValue) (k : Nat), valuesMarks k (mv g vs) = mks g (valuesMarks k vs)
  | [], _ => rfl
  | v :: vs, k => by
    have ih := valuesMarks_mv vs
    rw [mv_list, List.map_cons, valuesMarks, ← mv_list, ih, enumValueMarks_mv hg, under_mv, valuesMarks, mks, mks, mks, List.map_append]

theorem enumMarks_mv (e : Enum) : enumMarks (mv g e) = mks g (enumMarks e) := by
  show _ :: _ :: valuesMarks 0 (mv g e.values) ++ reservedMarks _ _ 0 0 (mv g e.reserved) ++ under _ (optsMarks 0 (mv g e.options)) = _
  rw [valuesMarks_mv hg, reservedMarks_mv, optsMarks_mv, under_mv]
  unfold enumMarks
  simp only [mks, List.map_append, List.map_cons, List.cons_append]
  rfl

omit hg in
theorem optMark_mv (t : Int) (s : Option Span) : optMark t (mv g s) = mks g (optMark t s) := by cases s <;> rfl

theorem methodMarks_mv (x : Method) : methodMarks (mv g x) = mks g (methodMarks x) := by
  show _ :: _ :: ⟨_, tspan (mv g x.inputTy), _⟩ :: ⟨_, tspan (mv g x.outputTy), _⟩ :: optMark _ (mv g x.clientStreaming) ++
    optMark _ (mv g x.serverStreaming) ++ under _ (optsMarks 0 (mv g x.options)) = _
  rw [tspan_mv hg, tspan_mv hg, optMark_mv, optMark_mv, optsMarks_mv, under_mv]
  unfold methodMarks
  simp only [mks, List.map_append, List.map_cons, List.cons_append]
  rfl

theorem methodsMarks_mv : ∀ (vs : List Method) (k : Nat), methodsMarks k (mv g vs) = mks g (methodsMarks k vs)
  | [], _ => rfl
  | v :: vs, k => by
    have ih := methodsMarks_mv vs
    rw [mv_list, List.map_cons, methodsMarks, ← mv_list, ih, methodMarks_mv hg, under_mv, methodsMarks, mks, mks, mks, List.map_append]

theorem serviceMarks_mv (x : Service) : serviceMarks (mv g x) = mks g (serviceMarks x) := by
  show _ :: _ :: under _ (methodsMarks 0 (mv g x.methods)) ++ under _ (optsMarks 0 (mv g x.options)) = _
  rw [methodsMarks_mv hg, optsMarks_mv, under_mv, under_mv]
  unfold serviceMarks
  simp only [mks, List.map_append, List.map_cons, List.cons_append]
  rfl

/-! ### Fields -/

omit hg in
theorem labelMarks_mv (s scope) (l : Option (FieldLabel × Span)) : labelMarks s scope (mv g l) = mks g (labelMarks s scope l) := by
  rcases l with _ | ⟨a, b⟩
  · rfl
  · cases scope <;> cases a <;> cases s <;> rfl

omit hg in
theorem hasName_mv (o : OptionBody) (n : Bytes) : (mv g o).hasName n = o.hasName n := by
  obtain ⟨name, v⟩ := o
  rcases name with _ | ⟨_ | _, _ | _⟩ <;> rfl

omit hg in
theorem takeFirst_mv (n : Bytes) : ∀ os : List OptionBody, takeFirst n (mv g os) = mv g (takeFirst n os)
  | [] => rfl
  | o :: os => by
    have ih := takeFirst_mv n os
    rw [mv_list] at ih
    rw [mv_list, List.map_cons, takeFirst, takeFirst, hasName_mv, ih]
    split
    · rfl
    · cases takeFirst n os with
      | none => rfl
      | some x => rfl

omit hg in
theorem takeOption_mv (l : Option OptionList) (n : Bytes) : takeOption (mv g l) n = mv g (takeOption l n) := by
  cases l with
  | none => rfl
  | some l =>
    have := takeFirst_mv (g := g) n l.options
    show (match takeFirst n (mv g l.options) with
      | none => (none, some (mv g l))
      | some (o, rest) => (some o, some ⟨rest, mv g l.span⟩)) = mv g (match takeFirst n l.options with
      | none => (none, some l)
      | some (o, rest) => (some o, some ⟨rest, l.span⟩))
    rw [this]
    cases takeFirst n l.options with
    | none => rfl
    | some x => rfl

omit hg in
theorem pick_mv (l : Option OptionList) (n : Bytes) : pick (mv g l) n = mv g (pick l n) := by
  unfold pick; rw [takeOption_mv]; rfl
omit hg in
theorem drop1_mv (l : Option OptionList) (n : Bytes) : drop1 (mv g l) n = mv g (drop1 l n) := by
  unfold drop1; rw [takeOption_mv]; rfl
omit hg in
theorem dfltOf_mv (l : Option OptionList) : dfltOf (mv g l) = mv g (dfltOf l) := pick_mv _ _
omit hg in
theorem jsonOf_mv (l : Option OptionList) : jsonOf (mv g l) = mv g (jsonOf l) := by unfold jsonOf opts1; rw [drop1_mv, pick_mv]
omit hg in
theorem opts2_mv (l : Option OptionList) : opts2 (mv g l) = mv g (opts2 l) := by unfold opts2 opts1; rw [drop1_mv, drop1_mv]

omit hg in
theorem dfltMarks_mv (d : Option OptionBody) : dfltMarks (mv g d) = mks g (dfltMarks d) := by
  cases d with
  | none => rfl
  | some o =>
    show [(⟨_, (mv g o.value).span, _⟩ : Mark)] = _
    rw [vspan_mv]; rfl

theorem jsonMarks_mv (d : Option OptionBody) : jsonMarks (mv g d) = mks g (jsonMarks d) := by
  cases d with
  | none => rfl
  | some o =>
    show [(⟨_, ospan (mv g o), _⟩ : Mark), ⟨_, (mv g o.value).span, _⟩] = _
    rw [vspan_mv, ospan_mv hg]; rfl

theorem tailMarks_mv (l : Option OptionList) : tailMarks (mv g l) = mks g (tailMarks l) := by
  unfold tailMarks
  rw [jsonOf_mv, opts2_mv, jsonMarks_mv hg, optListMarks_mv hg, under_mv]
  simp only [mks, List.map_append]

omit hg in
theorem oneofMarks_mv (name : Ident) (os : List Opt) (fs fs' : List Field) (c : Comments) (s : Span) :
    oneofMarks ⟨mv g name, mv g os, fs', c, mv g s⟩ = mks g (oneofMarks ⟨name, os, fs, c, s⟩) := by
  show _ :: _ :: under _ (optsMarks 0 (mv g os)) = _
  rw [optsMarks_mv, under_mv]
  rfl

theorem bodyTailMarks_mv (es : List Extensions) (os : List Opt) (rs : List Reserved) :
    bodyTailMarks (mv g es) (mv g os) (mv g rs) = mks g (bodyTailMarks es os rs) := by
  unfold bodyTailMarks
  rw [reservedMarks_mv, extensionsMarks_mv hg, optsMarks_mv, under_mv, under_mv]
  simp only [mks, List.map_append]

omit hg in
theorem nestedCount_mv (f : Field) : nestedCount (mvField g f) = nestedCount f := by
  obtain ⟨_, _, k, _, _, _, _⟩ := f
  cases k <;> rfl

omit hg in
theorem nestedCounts_mv : ∀ fs : List Field, nestedCounts (mvFields g fs) = nestedCounts fs
  | [] => rfl
  | f :: fs => by rw [mvFields, nestedCounts, nestedCounts, nestedCount_mv, nestedCounts_mv fs]

omit hg in
theorem mvFields_len (fs : List Field) : (mvFields g fs).length = fs.length := by rw [Pos.mvFields_eq, mv_len]

omit hg in
theorem next_mv (c : Cnt) (x : MessageItem) : c.next (mvItem g x) = c.next x := by
  cases x with
  | field f => rw [mvItem]; simp only [Cnt.next, nestedCount_mv]
  | enum e => rfl
  | message x => rfl
  | extend e =>
    obtain ⟨t, fs, _, _⟩ := e
    rw [mvItem, mvExtend]; simp only [Cnt.next, nestedCounts_mv, mvFields_len]
  | oneof o =>
    obtain ⟨t, os, fs, _, _⟩ := o
    rw [mvItem, mvOneof]; simp only [Cnt.next, nestedCounts_mv, mvFields_len]

mutual
theorem bodyMarks_mv (s : Syntax') : ∀ b : MessageBody, bodyMarks s (mvBody g b) = mks g (bodyMarks s b)
  | ⟨items, exts, opts, res⟩ => by
    rw [mvBody, bodyMarks, bodyMarks, itemsMarks_mv s {} items, bodyTailMarks_mv hg]
    simp only [mks, List.map_append]
theorem itemsMarks_mv (s : Syntax') : ∀ (c : Cnt) (l : List MessageItem), itemsMarks s c (mvItems g l) = mks g (itemsMarks s c l)
  | _, [] => by simp [mvItems, itemsMarks]
  | c, x :: xs => by
    rw [mvItems, itemsMarks, itemsMarks, itemMarks_mv s c x, next_mv, itemsMarks_mv s _ xs]
    simp only [mks, List.map_append]
theorem itemMarks_mv (s : Syntax') (c : Cnt) : ∀ x : MessageItem, itemMarks s c (mvItem g x) = mks g (itemMarks s c x)
  | .field f => by rw [mvItem, itemMarks, itemMarks, fieldMarks_mv]
  | .enum e => by rw [mvItem, itemMarks, itemMarks, enumMarks_mv hg, under_mv]
  | .message x => by rw [mvItem, itemMarks, itemMarks, messageMarks_mv s x, under_mv]
  | .extend e => by rw [mvItem, itemMarks, itemMarks, extendMarks_mv s _ _ _ _ e]
  | .oneof o => by rw [mvItem, itemMarks, itemMarks, oneofAllMarks_mv s c o]
theorem oneofAllMarks_mv (s : Syntax') (c : Cnt) : ∀ o : Oneof, oneofAllMarks s c (mvOneof g o) = mks g (oneofAllMarks s c o)
  | ⟨name, options, fields, comments, span⟩ => by
    rw [mvOneof, oneofAllMarks, oneofAllMarks, oneofFieldsMarks_mv s _ _ fields]
    have := oneofMarks_mv (g := g) name options fields (mvFields g fields) comments span
    simp only [show mv g comments = comments from rfl, this, under_mv]
    simp only [mks, List.map_append]
theorem extendMarks_mv (s : Syntax') (et mt : Int) (i k : Nat) : ∀ e : Extend, extendMarks s et mt i k (mvExtend g e) = mks g (extendMarks s et mt i k e)
  | ⟨t, fields, comments, span⟩ => by
    rw [mvExtend, extendMarks, extendMarks, extFieldsMarks_mv s t _ _ _ _ fields]
    rfl
theorem oneofFieldsMarks_mv (s : Syntax') : ∀ (i k : Nat) (l : List Field), oneofFieldsMarks s i k (mvFields g l) = mks g (oneofFieldsMarks s i k l)
  | _, _, [] => by simp [mvFields, oneofFieldsMarks]
  | i, k, f :: fs => by
    rw [mvFields, oneofFieldsMarks, oneofFieldsMarks, fieldMarks_mv s _ _ _ _ _ f, nestedCount_mv, oneofFieldsMarks_mv s _ _ fs]
    simp only [mks, List.map_append]
theorem extFieldsMarks_mv (s : Syntax') (t : Ast.TypeName) (et mt : Int) : ∀ (i k : Nat) (l : List Field),
    extFieldsMarks s (mv g t) et mt i k (mvFields g l) = mks g (extFieldsMarks s t et mt i k l)
  | _, _, [] => by simp [mvFields, extFieldsMarks]
  | i, k, f :: fs => by
    rw [mvFields, extFieldsMarks, extFieldsMarks, fieldMarks_mv s _ _ _ _ _ f, nestedCount_mv, extFieldsMarks_mv s t et mt _ _ fs, tspan_mv hg]
    simp only [mks, List.map_append, List.map_cons, List.cons_append]
    rfl
theorem fieldMarks_mv (s : Syntax') (scope : FieldScope) (ft mt : Int) (i k : Nat) : ∀ f : Field,
    fieldMarks s scope ft mt i k (mvField g f) = mks g (fieldMarks s scope ft mt i k f)
  | ⟨label, name, kind, number, options, comments, span⟩ => by
    rw [mvField, fieldMarks, fieldMarks, dfltOf_mv, tailMarks_mv hg, kindMarks_mv s scope ft mt i k label name span comments _ kind, under_mv]
    have : headMarks (mv g name) (mv g number) = mks g (headMarks name number) := rfl
    rw [this, under_mv]
    simp only [mks, List.map_append]
theorem kindMarks_mv (s : Syntax') (scope : FieldScope) (ft mt : Int) (i k : Nat) (label : Option (FieldLabel × Span))
    (name : Ident) (span : Span) (comments : Comments) (dflt : Option OptionBody) : ∀ kd : FieldKind,
    kindMarks s scope ft mt i k (mv g label) (mv g name) (mv g span) (mv g comments) (mv g dflt) (mvKind g kd) =
      mks g (kindMarks s scope ft mt i k label name span comments dflt kd)
  | .normal ty tySpan => by
    have hs : scalarMarks s scope (mv g label) (mv g span) (mv g comments) (mv g tySpan) (mv g dflt) =
        mks g (scalarMarks s scope label span comments tySpan dflt) := by
      unfold scalarMarks
      rw [labelMarks_mv, dfltMarks_mv]
      simp only [mks, List.map_append, List.map_cons, List.map_nil]
      rfl
    rw [mvKind]
    cases ty with
    | named t =>
      show under _ (namedMarks s scope (mv g label) (mv g span) (mv g comments) (mv g t) (mv g dflt)) = _
      have : namedMarks s scope (mv g label) (mv g span) (mv g comments) (mv g t) (mv g dflt) = mks g (namedMarks s scope label span comments t dflt) := by
        unfold namedMarks
        rw [labelMarks_mv, dfltMarks_mv, tspan_mv hg]
        simp only [mks, List.map_append, List.map_cons]
        rfl
      rw [this, under_mv]; rfl
    | _ => exact (congrArg (under _) hs).trans (under_mv _ _)
  | .group tySpan body => by
    have : groupFieldMarks s scope (mv g label) (mv g span) (mv g tySpan) (mv g name) = mks g (groupFieldMarks s scope label span tySpan name) := by
      unfold groupFieldMarks
      rw [labelMarks_mv]
      simp only [mks, List.map_append, List.map_cons, List.map_nil]
      rfl
    rw [mvKind, kindMarks, kindMarks, this, bodyMarks_mv s body, under_mv]
    have h2 : groupMsgMarks (mv g span) (mv g comments) (mv g name) = mks g (groupMsgMarks span comments name) := rfl
    have h3 : mks g (groupMsgMarks span comments name) ++ mks g (bodyMarks s body) = mks g (groupMsgMarks span comments name ++ bodyMarks s body) := by
      simp only [mks, List.map_append]
    rw [h2, h3, under_mv]
    simp only [mks, List.map_append]
  | .map tySpan _ _ _ _ => by
    rw [mvKind, kindMarks, kindMarks]
    exact under_mv [ft, (i : Int)] (mapMarks span comments tySpan)
theorem messageMarks_mv (s : Syntax') : ∀ x : Message, messageMarks s (mvMessage g x) = mks g (messageMarks s x)
  | ⟨name, body, comments, span⟩ => by
    rw [mvMessage, messageMarks, messageMarks, bodyMarks_mv s body]
    rfl
end

omit hg in
theorem importMarks_mv : ∀ (l : List Import) (i j k : Nat), importMarks i j k (mv g l) = mks g (importMarks i j k l)
  | [], _, _, _ => rfl
  | x :: xs, i, j, k => by
    have ih := importMarks_mv xs
    obtain ⟨kd, v, vs, c, s⟩ := x
    rcases kd with _ | ⟨_ | _, sp⟩
    · show _ :: importMarks _ _ _ (mv g xs) = _
      rw [ih]; rfl
    · show _ :: _ :: importMarks _ _ _ (mv g xs) = _
      rw [ih]; rfl
    · show _ :: _ :: importMarks _ _ _ (mv g xs) = _
      rw [ih]; rfl

theorem fileItemMarks_mv (s : Syntax') (c : FCnt) (x : FileItem) : fileItemMarks s c (mv g x) = mks g (fileItemMarks s c x) := by
  cases x with
  | enum e =>
    show under _ (enumMarks (mv g e)) = _
    rw [enumMarks_mv hg, under_mv]; rfl
  | message e =>
    show under _ (messageMarks s (mvMessage g e)) = _
    rw [messageMarks_mv hg, under_mv]; rfl
  | extend e => exact extendMarks_mv hg s _ _ _ _ e
  | service e =>
    show under _ (serviceMarks (mv g e)) = _
    rw [serviceMarks_mv hg, under_mv]; rfl

omit hg in
theorem fnext_mv (c : FCnt) (x : FileItem) : c.next (mv g x) = c.next x := by
  cases x with
  | extend e =>
    obtain ⟨t, fs, a, b⟩ := e
    show c.next (.extend (mvExtend g ⟨t, fs, a, b⟩)) = _
    rw [mvExtend]; simp only [FCnt.next, nestedCounts_mv, mvFields_len]
  | _ => rfl

theorem fileItemsMarks_mv (s : Syntax') : ∀ (l : List FileItem) (c : FCnt), fileItemsMarks s c (mv g l) = mks g (fileItemsMarks s c l)
  | [], _ => rfl
  | x :: xs, c => by
    have ih := fileItemsMarks_mv s xs
    rw [mv_list, List.map_cons, fileItemsMarks, fnext_mv, ← mv_list, ih, fileItemMarks_mv hg, fileItemsMarks, mks, mks, mks, List.map_append]

/-- The source locations of a moved tree. -/
theorem fileMarks_mv (f : File) : fileMarks (mv g f) = mks g (fileMarks f) := by
  have hp : packageMarks (mv g f.package) = mks g (packageMarks f.package) := by cases f.package <;> rfl
  have hs : syntaxMarks (mv g f.syntaxSpan) = mks g (syntaxMarks f.syntaxSpan) := by cases f.syntaxSpan <;> rfl
  show _ :: (packageMarks (mv g f.package) ++ importMarks 0 0 0 (mv g f.imports) ++ fileItemsMarks f.syntax' {} (mv g f.items) ++
    under _ (optsMarks 0 (mv g f.options)) ++ syntaxMarks (mv g f.syntaxSpan)) = _
  rw [hp, hs, importMarks_mv, fileItemsMarks_mv hg, optsMarks_mv, under_mv]
  unfold fileMarks restMarks
  simp only [mks, List.map_append, List.map_cons]
  rfl
end
end Verif.Gen
