import Verif.Proofs.Marks
import Verif.Spec.Locations
import Verif.Props.Descriptor3
/-!
The recorded source locations are the rows of the specification.
-/
namespace Verif.Gen
open Verif.Ast Verif.Spec

def toRow (m : Mark) : Row := ⟨m.path, m.span, m.comments⟩

theorem toRow_sub (p : List Int) (m : Mark) : toRow (m.sub p) = (toRow m).below p := rfl

theorem toRow_inj {m m' : Mark} (h : toRow m = toRow m') : m = m' := by
  rcases m with ⟨_, _, _⟩; rcases m' with ⟨_, _, _⟩
  simp only [toRow, Row.mk.injEq] at h
  simp [h]

theorem toRow_mk {m : Mark} {p sp c} : toRow m = ⟨p, sp, c⟩ ↔ m = ⟨p, sp, c⟩ := by
  constructor
  · intro h; exact toRow_inj h
  · rintro rfl; rfl

/-- The same locations. -/
def Same (ms : List Mark) (rs : List Row) : Prop := ∀ m, m ∈ ms ↔ toRow m ∈ rs

theorem Same.append {ms ms' rs rs'} (h : Same ms rs) (h' : Same ms' rs') : Same (ms ++ ms') (rs ++ rs') := by
  intro m; rw [List.mem_append, List.mem_append, h m, h' m]

theorem Same.nil : Same [] [] := by intro m; simp

theorem Same.one {p sp c} : Same [⟨p, sp, c⟩] [⟨p, sp, c⟩] := by
  intro m; simp [toRow_mk]

theorem Same.cons {p sp c ms rs} (h : Same ms rs) : Same (⟨p, sp, c⟩ :: ms) (⟨p, sp, c⟩ :: rs) := Same.append Same.one h

theorem Row.exists_mark (r : Row) : ∃ m : Mark, toRow m = r := ⟨⟨r.path, r.span, r.comments⟩, rfl⟩

theorem Same.under {ms rs} (p) (h : Same ms rs) : Same (under p ms) (rs.map (Row.below p)) := by
  intro m
  rw [mem_under, List.mem_map]
  constructor
  · rintro ⟨x, hx, rfl⟩; exact ⟨toRow x, (h x).1 hx, rfl⟩
  · rintro ⟨r, hr, he⟩
    obtain ⟨x, rfl⟩ := Row.exists_mark r
    exact ⟨x, (h x).2 hr, toRow_inj he.symm⟩

theorem mem_indexed {α : Type} {tag : Int} {l : List α} {rows : α → List Row} {r : Row} :
    r ∈ indexed tag l rows ↔ ∃ (i : Nat) (x : α), l[i]? = some x ∧ r ∈ (rows x).map (Row.below [tag, (i : Int)]) := by
  simp only [indexed, List.mem_flatMap, Prod.exists]
  constructor
  · rintro ⟨x, i, h, hr⟩
    exact ⟨i, x, List.mem_zipIdx_iff_getElem?.1 h, hr⟩
  · rintro ⟨i, x, h, hr⟩
    exact ⟨x, i, List.mem_zipIdx_iff_getElem?.2 h, hr⟩

/-- Elements of a list, by index. -/
theorem same_at {α : Type} {tag : Int} {l : List α} {g : α → List Mark} {rows : α → List Row}
    (h : ∀ x ∈ l, Same (g x) (rows x)) (m : Mark) : At 0 tag l g m ↔ toRow m ∈ indexed tag l rows := by
  rw [mem_indexed]
  constructor
  · rintro ⟨i, x, hx, hm⟩
    rw [Nat.zero_add] at hm
    exact ⟨i, x, hx, ((h x (List.mem_of_getElem? hx)).under _ m).1 hm⟩
  · rintro ⟨i, x, hx, hm⟩
    refine ⟨i, x, hx, ?_⟩
    rw [Nat.zero_add]
    exact ((h x (List.mem_of_getElem? hx)).under _ m).2 hm

/-! ### Options -/

theorem optsMarks_at : ∀ (os : List Opt) (k : Nat) (m : Mark), m ∈ optsMarks k os ↔
    (∃ o ∈ os, m = ⟨[], o.span, {}⟩) ∨ At k 999 os (fun o => [⟨[], o.span, o.comments⟩]) m
  | [], k, m => by simp [optsMarks, At_nil]
  | o :: os, k, m => by
    simp only [optsMarks, List.mem_cons, optsMarks_at os, At_cons, exists_eq_or_imp, under_cons, under_nil,
      List.not_mem_nil, or_false, Tag.uninterpretedOption, List.append_nil]
    exact Iff.of_eq (by ac_rfl)

theorem opts_same (os : List Opt) : Same (optsMarks 0 os) (optionRows os) := by
  intro m
  rw [optsMarks_at, same_at (fun o _ => Same.one), optionRows, List.mem_append, List.mem_map]
  refine or_congr ⟨?_, ?_⟩ Iff.rfl
  · rintro ⟨o, ho, rfl⟩; exact ⟨o, ho, rfl⟩
  · rintro ⟨o, ho, h⟩; exact ⟨o, ho, toRow_inj h.symm⟩

theorem spanOfAll_two {l : List Span} {a b} (h1 : l.head? = some a) (h2 : l.getLast? = some b) :
    spanOfAll l = ⟨a.start, b.stop⟩ := by simp [spanOfAll, spanTo, h1, h2]

theorem typeSpan_eq {a b} {t : TypeName} (h : t.In a b) : tspan t = typeSpan t := by
  have hne : t.name.parts ≠ [] := by
    unfold TypeName.In at h
    split at h
    · exact h.1
    · obtain ⟨c, _, h⟩ := h; exact h.1
  obtain ⟨x, hx⟩ := Option.ne_none_iff_exists'.1 (mt List.head?_eq_none_iff.1 hne)
  obtain ⟨y, hy⟩ := Option.ne_none_iff_exists'.1 (mt List.getLast?_eq_none_iff.1 hne)
  have hs : t.name.span = some ⟨x.span.start, y.span.stop⟩ := by simp [FullIdent.span, hx, hy]
  unfold tspan TypeName.span typeSpan
  cases hd : t.leadingDot with
  | none =>
    simp only [hs, Option.getD_some, Option.toList_none, List.nil_append]
    rw [spanOfAll_two (a := x.span) (b := y.span) (by simp [hx]) (by simp [hy])]
  | some d =>
    simp only [hs, Option.map_some, Option.getD_some, Option.toList_some]
    rw [spanOfAll_two (a := d) (b := y.span) (by simp) (by simp [List.getLast?_cons, List.getLast?_map, hy])]
    rfl

theorem optionSpan_eq {a b} {o : OptionBody} (h : o.In a b) : ospan o = optionSpan o := by
  obtain ⟨x, hx⟩ := Option.ne_none_iff_exists'.1 (mt List.head?_eq_none_iff.1 h.1)
  obtain ⟨y, hy⟩ := Option.ne_none_iff_exists'.1 (mt List.getLast?_eq_none_iff.1 h.1)
  have hv : o.value.span = valueSpan o.value := by cases o.value <;> rfl
  have hp : x.span = partSpan x := by cases x <;> rfl
  simp [ospan, OptionBody.span, OptionBody.nameSpan, hx, hy, optionSpan, joinSpan, spanTo, hv, hp]

theorem valueSpan_eq (v : OptionValue) : v.span = valueSpan v := by cases v <;> rfl

theorem bodiesMarks_at : ∀ (os : List OptionBody) (k : Nat) (m : Mark), m ∈ bodiesMarks k os ↔
    At k 999 os (fun o => [⟨[], ospan o, {}⟩]) m
  | [], k, m => by simp [bodiesMarks, At_nil]
  | o :: os, k, m => by
    simp only [bodiesMarks, List.mem_cons, bodiesMarks_at os, At_cons, under_cons, under_nil,
      List.not_mem_nil, or_false, Tag.uninterpretedOption, List.append_nil]

theorem optList_same {a b} {l : Option OptionList} (h : optListIn a b l) : Same (optListMarks l) (listRows l (listed l)) := by
  cases l with
  | none => intro m; simp [optListMarks, listRows, listed, indexed]
  | some l =>
    refine Same.append (ms := [_]) Same.one fun m => ?_
    rw [bodiesMarks_at]
    refine same_at (fun o ho => ?_) m
    rw [optionSpan_eq ((h l rfl).1 o ho)]
    exact Same.one

/-! ### Ranges -/

theorem range_same (r : ReservedRange) : Same (rangeMarks r) (rangeRows r) := by
  have : r.endSpan = stopSpan r := by unfold ReservedRange.endSpan stopSpan; cases r.stop <;> rfl
  unfold rangeMarks rangeRows ReservedRange.span ReservedRange.startSpan
  rw [this]
  exact Same.cons (Same.cons Same.one)

theorem rangesMarks_at (g : ReservedRange → List Mark) (tag : Int) : ∀ (rs : List ReservedRange) (k : Nat) (m : Mark),
    m ∈ under [tag] (rangesMarks g k rs) ↔ At k tag rs g m
  | [], k, m => by simp [rangesMarks, At_nil]
  | r :: rs, k, m => by
    simp only [rangesMarks, under_append, List.mem_append, rangesMarks_at g tag rs, At_cons, under_under]
    rfl

theorem namesMarks_at (tag : Int) : ∀ (rs : List Ident) (k : Nat) (m : Mark),
    m ∈ under [tag] (namesMarks k rs) ↔ At k tag rs (fun n => [⟨[], n.span, {}⟩]) m
  | [], k, m => by simp [namesMarks, At_nil]
  | r :: rs, k, m => by
    simp only [namesMarks, under_cons, List.mem_cons, namesMarks_at tag rs, At_cons, under_nil, List.not_mem_nil, or_false,
      List.append_nil, List.cons_append, List.nil_append]

/-- The names in `reserved` statements. -/
def resIdents (rs : List Reserved) : List Ident := rs.flatMap fun r =>
  match r.kind with
  | .ranges _ => []
  | .names ns => ns

def resRow (tagR tagN : Int) (r : Reserved) : Row :=
  match r.kind with
  | .ranges _ => ⟨[tagR], r.span, r.comments⟩
  | .names _ => ⟨[tagN], r.span, r.comments⟩

theorem reservedMarks_at (tagR tagN : Int) : ∀ (rs : List Reserved) (k j : Nat) (m : Mark),
    m ∈ reservedMarks tagR tagN k j rs ↔ (∃ r ∈ rs, toRow m = resRow tagR tagN r) ∨
      At k tagR (reservedRanges rs) rangeMarks m ∨ At j tagN (resIdents rs) (fun n => [⟨[], n.span, {}⟩]) m
  | [], k, j, m => by simp [reservedMarks, reservedRanges, resIdents, At_nil]
  | ⟨kind, c, sp⟩ :: rs, k, j, m => by
    have ih := reservedMarks_at tagR tagN rs
    cases kind with
    | ranges xs =>
      have e1 : reservedRanges (⟨.ranges xs, c, sp⟩ :: rs) = xs ++ reservedRanges rs := rfl
      have e2 : resIdents (⟨.ranges xs, c, sp⟩ :: rs) = resIdents rs := rfl
      simp only [reservedMarks, List.mem_append, ih, e1, e2, At_append, List.mem_cons, exists_eq_or_imp, resRow,
        under_cons, List.append_nil, rangesMarks_at, resRanges, resNames, List.length_nil, Nat.add_zero, toRow_mk]
      exact Iff.of_eq (by ac_rfl)
    | names xs =>
      have e1 : reservedRanges (⟨.names xs, c, sp⟩ :: rs) = reservedRanges rs := rfl
      have e2 : resIdents (⟨.names xs, c, sp⟩ :: rs) = xs ++ resIdents rs := rfl
      simp only [reservedMarks, List.mem_append, ih, e1, e2, At_append, List.mem_cons, exists_eq_or_imp, resRow,
        under_cons, List.append_nil, namesMarks_at, resRanges, resNames, List.length_nil, Nat.add_zero, toRow_mk]
      exact Iff.of_eq (by ac_rfl)

theorem reserved_same (tagR tagN : Int) (rs : List Reserved) :
    Same (reservedMarks tagR tagN 0 0 rs) (reservedRows tagR tagN rs) := by
  intro m
  rw [reservedMarks_at, same_at (fun r _ => range_same r), same_at (fun n _ => Same.one), reservedRows, List.mem_append,
    List.mem_append, or_assoc]
  refine or_congr ?_ Iff.rfl
  rw [List.mem_map]
  constructor
  · rintro ⟨r, hr, h⟩; exact ⟨r, hr, h.symm⟩
  · rintro ⟨r, hr, h⟩; exact ⟨r, hr, h.symm⟩

theorem extensionsMarks_at (tag : Int) : ∀ (es : List Extensions) (k : Nat) (m : Mark),
    m ∈ under [tag] (extensionsMarks k es) ↔ (∃ e ∈ es, m = ⟨[tag], e.span, e.comments⟩) ∨
      At k tag (extensionRanges es) (fun r => extRangeMarks r.2 r.1) m
  | [], k, m => by simp [extensionsMarks, extensionRanges, At_nil]
  | e :: es, k, m => by
    have e1 : extensionRanges (e :: es) = e.ranges.map (fun r => (r, e.options)) ++ extensionRanges es := rfl
    simp only [extensionsMarks, under_cons, under_append, List.mem_cons, List.mem_append, extensionsMarks_at tag es,
      rangesMarks_at, e1, At_append, At_map, List.length_map, exists_eq_or_imp, List.append_nil, List.cons_append]
    have : ((fun r => extRangeMarks r.2 r.1) ∘ fun r => (r, e.options)) = extRangeMarks e.options := rfl
    rw [this]
    exact Iff.of_eq (by ac_rfl)

/-! ### Enums, services, oneofs -/

theorem valuesMarks_at : ∀ (vs : List EnumValue) (k : Nat) (m : Mark),
    m ∈ valuesMarks k vs ↔ At k 2 vs enumValueMarks m
  | [], k, m => by simp [valuesMarks, At_nil]
  | v :: vs, k, m => by simp only [valuesMarks, List.mem_append, valuesMarks_at vs, At_cons, Tag.enumValue]

theorem value_same {a b} {v : EnumValue} (h : v.In a b) : Same (enumValueMarks v) (valueRows v) :=
  Same.cons (Same.cons (Same.cons ((optList_same h.2.2.1).under _)))

theorem enum_same {a b} {e : Enum} (h : e.In a b) : Same (enumMarks e) (enumRows e) := by
  have h1 : Same (valuesMarks 0 e.values) (indexed 2 e.values valueRows) := fun m => by
    rw [valuesMarks_at]; exact same_at (fun v hv => value_same (h.2.2.1 v hv)) m
  have := Same.cons (p := []) (sp := e.span) (c := e.comments) <| Same.cons (p := [1]) (sp := e.name.span) (c := {}) <|
    (h1.append (reserved_same 4 5 e.reserved)).append ((opts_same e.options).under [3])
  exact this

theorem methodsMarks_at : ∀ (vs : List Method) (k : Nat) (m : Mark),
    m ∈ under [2] (methodsMarks k vs) ↔ At k 2 vs methodMarks m
  | [], k, m => by simp [methodsMarks, At_nil]
  | v :: vs, k, m => by
    simp only [methodsMarks, under_append, List.mem_append, methodsMarks_at vs, At_cons, under_under]
    rfl

theorem optMark_same (tag : Int) (s : Option Span) : Same (optMark tag s) (s.toList.map fun s => ⟨[tag], s, {}⟩) := by
  cases s with
  | none => exact Same.nil
  | some s => exact Same.one

theorem method_same {a b} {x : Method} (h : x.In a b) : Same (methodMarks x) (methodRows x) := by
  unfold methodMarks methodRows
  rw [typeSpan_eq h.2.1, typeSpan_eq h.2.2.1]
  exact ((Same.cons (Same.cons (Same.cons (Same.cons (optMark_same _ _))))).append (optMark_same _ _)).append
    ((opts_same x.options).under [4])

theorem service_same {a b} {s : Service} (h : s.In a b) : Same (serviceMarks s) (serviceRows s) := by
  have h1 : Same (under [2] (methodsMarks 0 s.methods)) (indexed 2 s.methods methodRows) := fun m => by
    rw [methodsMarks_at]; exact same_at (fun v hv => method_same (h.2.2.1 v hv)) m
  exact (Same.cons (Same.cons h1)).append ((opts_same s.options).under [3])

theorem oneof_same (o : Oneof) : Same (oneofMarks o) (oneofRows o) :=
  Same.cons (Same.cons ((opts_same o.options).under [2]))

end Verif.Gen
