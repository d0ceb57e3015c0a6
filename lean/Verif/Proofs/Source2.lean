import Verif.Proofs.Source
import Verif.Spec.Content
/-!
Names in paired constructs are non-empty; facts about the small functions of the generator.
-/
namespace Verif.Gen
open Verif.Ast Verif.Spec Verif.Grammar

/-! ### Placement -/

def srcIn (L : Nat) (x : MsgSrc) : Prop :=
  match x with
  | .message m => m.In 0 L
  | .group f _ => f.In 0 L
  | .map f _ _ => f.In 0 L

def srcBodyIn (L : Nat) (x : MsgSrc) : Prop := ∀ b, x.body = some b → b.In 0 L

theorem itemsIn_mem {a b : Nat} : ∀ {xs : List MessageItem}, itemsIn a b xs → ∀ x ∈ xs, x.In a b
  | [], _, _, h => by cases h
  | y :: ys, h, x, hx => by
    simp only [itemsIn] at h
    rcases List.mem_cons.1 hx with rfl | hx
    · exact h.1
    · exact itemsIn_mem h.2 x hx

theorem fieldsIn_mem {a b : Nat} : ∀ {xs : List Field}, fieldsIn a b xs → ∀ x ∈ xs, x.In a b
  | [], _, _, h => by cases h
  | y :: ys, h, x, hx => by
    simp only [fieldsIn] at h
    rcases List.mem_cons.1 hx with rfl | hx
    · exact h.1
    · exact fieldsIn_mem h.2 x hx

theorem body_items {L : Nat} {b : MessageBody} (h : b.In 0 L) : ∀ x ∈ b.items, x.In 0 L := by
  rcases b with ⟨i, e, o, r⟩
  simp only [MessageBody.In] at h
  exact itemsIn_mem h.1

theorem body_rest {L : Nat} {b : MessageBody} (h : b.In 0 L) : (∀ e ∈ b.extensions, e.In 0 L) ∧
    (∀ o ∈ b.options, o.In 0 L) ∧ ∀ r ∈ b.reserved, r.In 0 L := by
  rcases b with ⟨i, e, o, r⟩
  simp only [MessageBody.In] at h
  exact h.2

theorem fieldMsgs_in {L : Nat} {f : Field} (h : f.In 0 L) : ∀ x ∈ fieldMsgs f, srcIn L x ∧ srcBodyIn L x := by
  intro x hx
  rcases f with ⟨l, n, k, nu, o, c, sp⟩
  cases k with
  | normal => simp [fieldMsgs] at hx
  | group s b =>
    simp only [fieldMsgs, List.mem_singleton] at hx; subst hx
    refine ⟨h, ?_⟩
    rintro b' hb; cases hb
    simp only [Field.In, FieldKind.In] at h
    exact h.2.2.1.2
  | map =>
    simp only [fieldMsgs, List.mem_singleton] at hx; subst hx
    exact ⟨h, nofun⟩

theorem extend_in {L : Nat} {e : Extend} (h : e.In 0 L) : e.extendee.In 0 L ∧ ∀ x ∈ e.fields, x.In 0 L := by
  rcases e with ⟨t, fs, c, sp⟩
  simp only [Extend.In] at h
  exact ⟨h.1, fieldsIn_mem h.2.1⟩

theorem oneof_in {L : Nat} {e : Oneof} (h : e.In 0 L) : (∀ o ∈ e.options, o.In 0 L) ∧ ∀ x ∈ e.fields, x.In 0 L := by
  rcases e with ⟨t, o, fs, c, sp⟩
  simp only [Oneof.In] at h
  exact ⟨h.2.1, fieldsIn_mem h.2.2.1⟩

theorem itemMsgs_in {L : Nat} {x : MessageItem} (h : x.In 0 L) : ∀ y ∈ itemMsgs x, srcIn L y ∧ srcBodyIn L y := by
  cases x with
  | field f => exact fieldMsgs_in (by simpa [MessageItem.In] using h)
  | enum e => simp [itemMsgs]
  | message m =>
    simp only [MessageItem.In] at h
    intro y hy
    simp only [itemMsgs, List.mem_singleton] at hy; subst hy
    refine ⟨h, ?_⟩
    rcases m with ⟨n, b, c, sp⟩
    rintro b' hb; cases hb
    simp only [Message.In] at h
    exact h.2.1
  | extend e =>
    simp only [MessageItem.In] at h
    intro y hy
    simp only [itemMsgs, List.mem_flatMap] at hy
    obtain ⟨f, hf, hy⟩ := hy
    exact fieldMsgs_in ((extend_in h).2 f hf) y hy
  | oneof e =>
    simp only [MessageItem.In] at h
    intro y hy
    simp only [itemMsgs, List.mem_flatMap] at hy
    obtain ⟨f, hf, hy⟩ := hy
    exact fieldMsgs_in ((oneof_in h).2 f hf) y hy

theorem msgAt_in {L : Nat} {f : File} (hf : f.In L) {fd p x d} (hm : MsgAt f fd p x d) : srcIn L x ∧ srcBodyIn L x := by
  induction hm with
  | top h1 _ =>
    have hm := List.mem_of_getElem? h1
    simp only [fileMsgs, List.mem_flatMap] at hm
    obtain ⟨i, hi, hm⟩ := hm
    have hi := hf.items i hi
    cases i with
    | message m =>
      simp only [List.mem_singleton] at hm; subst hm
      exact itemMsgs_in (x := .message m) (by simpa [FileItem.In, MessageItem.In] using hi) _ (by simp [itemMsgs])
    | extend e =>
      simp only [List.mem_flatMap] at hm
      obtain ⟨g, hg, hm⟩ := hm
      exact fieldMsgs_in ((extend_in hi).2 g hg) _ hm
    | enum => cases hm
    | service => cases hm
  | nested _ hb h1 _ ih =>
    have hm := List.mem_of_getElem? h1
    simp only [bodyMsgs, List.mem_flatMap] at hm
    obtain ⟨i, hi, hm⟩ := hm
    exact itemMsgs_in (body_items (ih.2 _ hb) i hi) _ hm

/-- The extendee of a place. -/
def placeIn (L : Nat) : Place → Prop
  | .extend t => t.In 0 L
  | _ => True

theorem fieldsFrom_in {L : Nat} : ∀ (k : Nat) (xs : List MessageItem), (∀ x ∈ xs, x.In 0 L) →
    ∀ y ∈ fieldsFrom k xs, placeIn L y.1 ∧ y.2.In 0 L
  | _, [], _, y, hy => by cases hy
  | k, .field g :: xs, h, y, hy => by
    rcases List.mem_cons.1 hy with rfl | hy
    · exact ⟨trivial, by have := h _ (.head _); simpa only [MessageItem.In] using this⟩
    · exact fieldsFrom_in k xs (fun x hx => h x (.tail _ hx)) y hy
  | k, .oneof o :: xs, h, y, hy => by
    simp only [fieldsFrom, List.mem_append, List.mem_map] at hy
    rcases hy with ⟨g, hg, rfl⟩ | hy
    · have := h _ (.head _)
      simp only [MessageItem.In] at this
      exact ⟨trivial, (oneof_in this).2 g hg⟩
    · exact fieldsFrom_in (k + 1) xs (fun x hx => h x (.tail _ hx)) y hy
  | k, .enum _ :: xs, h, y, hy => fieldsFrom_in k xs (fun x hx => h x (.tail _ hx)) y hy
  | k, .message _ :: xs, h, y, hy => fieldsFrom_in k xs (fun x hx => h x (.tail _ hx)) y hy
  | k, .extend _ :: xs, h, y, hy => fieldsFrom_in k xs (fun x hx => h x (.tail _ hx)) y hy

theorem extendFields_in {L : Nat} {e : Extend} (h : e.In 0 L) : ∀ y ∈ extendFields e, placeIn L y.1 ∧ y.2.In 0 L := by
  intro y hy
  simp only [extendFields, List.mem_map] at hy
  obtain ⟨g, hg, rfl⟩ := hy
  exact ⟨(extend_in h).1, (extend_in h).2 g hg⟩

theorem fieldAt_in {L : Nat} {f : File} (hf : f.In L) {fd p pl x d} (h : FieldAt f fd p pl x d) :
    placeIn L pl ∧ x.In 0 L := by
  cases h with
  | field hm hb h1 _ =>
    exact fieldsFrom_in 0 _ (body_items ((msgAt_in hf hm).2 _ hb)) _ (List.mem_of_getElem? h1)
  | ext hm hb h1 _ =>
    have hmem := List.mem_of_getElem? h1
    simp only [bodyExts, List.mem_flatMap] at hmem
    obtain ⟨i, hi, hmem⟩ := hmem
    have := body_items ((msgAt_in hf hm).2 _ hb) i hi
    cases i with
    | extend e => exact extendFields_in (by simpa only [MessageItem.In] using this) _ hmem
    | _ => cases hmem
  | fileExt h1 _ =>
    have hmem := List.mem_of_getElem? h1
    simp only [Spec.fileExts, List.mem_flatMap] at hmem
    obtain ⟨i, hi, hmem⟩ := hmem
    have := hf.items i hi
    cases i with
    | extend e => exact extendFields_in this _ hmem
    | _ => cases hmem

theorem enumAt_in {L : Nat} {f : File} (hf : f.In L) {fd p e d} (h : EnumAt f fd p e d) : e.In 0 L := by
  cases h with
  | top h1 _ =>
    have hmem := List.mem_of_getElem? h1
    simp only [Spec.fileEnums, List.mem_filterMap] at hmem
    obtain ⟨i, hi, hmem⟩ := hmem
    have := hf.items i hi
    cases i <;> cases hmem
    exact this
  | nested hm hb h1 _ =>
    have hmem := List.mem_of_getElem? h1
    simp only [bodyEnums, List.mem_filterMap] at hmem
    obtain ⟨i, hi, hmem⟩ := hmem
    have := body_items ((msgAt_in hf hm).2 _ hb) i hi
    cases i <;> cases hmem
    simpa only [MessageItem.In] using this

theorem serviceAt_in {L : Nat} {f : File} (hf : f.In L) {fd p e d} (h : ServiceAt f fd p e d) : e.In 0 L := by
  cases h with
  | mk h1 _ =>
    have hmem := List.mem_of_getElem? h1
    simp only [Spec.fileServices, List.mem_filterMap] at hmem
    obtain ⟨i, hi, hmem⟩ := hmem
    have := hf.items i hi
    cases i <;> cases hmem
    exact this

/-! ### Names -/

theorem dotJoin_eq : ∀ ps : List Ident, dotJoin ps = joinWith 46 (ps.map (·.value))
  | [] => rfl
  | [_] => rfl
  | i :: j :: is => by simp only [dotJoin, dotJoin_eq (j :: is), List.map_cons, joinWith]

theorem identText_eq (f : FullIdent) : f.display.getD [] = identText f := by
  unfold FullIdent.display identText
  cases hp : f.parts with
  | nil => rfl
  | cons p ps => simp [dotJoin_eq]

theorem typeText_eq (t : TypeName) : tname t = typeText t := by
  simp only [tname, typeText, identText, dotJoin_eq]

theorem chain_mem {α : Type} {P : Nat → Nat → α → Prop} : ∀ {xs : List α} {a b : Nat}, ChainIn P a xs b →
    ∀ x ∈ xs, ∃ c d, P c d x
  | [], _, _, _, _, h => by cases h
  | y :: ys, a, b, h, x, hx => by
    obtain ⟨c, h1, h2⟩ := h
    rcases List.mem_cons.1 hx with rfl | hx
    · exact ⟨_, _, h1⟩
    · exact chain_mem h2 x hx

/-! ### Options -/

theorem nameParts_eq (o : OptionBody) : o.name.map namePartDesc = o.name.map partOf := by
  refine List.map_congr_left fun x _ => ?_
  cases x with
  | ident => rfl
  | extension t sp => simp only [namePartDesc, partOf, typeText_eq]

theorem asI64_neg {i : Int'} (hn : i.negative = true) (h : i.asI64 ≠ none) :
    i.asI64 = some (-(i.value : Int)) ∧ i.value ≤ 2 ^ 63 := by
  unfold Int'.asI64 tryI64 at *
  rw [if_pos hn] at *
  split
  · rename_i hv; rw [hv]; exact ⟨by decide, by decide⟩
  · rename_i hv
    rw [if_neg hv] at h
    split at h
    · rename_i hle; rw [if_pos hle]; exact ⟨rfl, by omega⟩
    · simp at h

theorem optionDesc_eq {o : OptionBody} (he : optionErrs o = []) :
    optionDesc o = optionOf o ∧ representable o := by
  unfold optionDesc optionOf representable
  unfold optionErrs at he
  rw [nameParts_eq]
  cases hv : o.value with
  | ident neg i sp => cases neg <;> simp_all
  | int i =>
    simp only [hv] at he ⊢
    by_cases hn : i.negative = true
    · have := asI64_neg hn (by
        intro h0; rw [if_pos ⟨hn, h0⟩] at he; cases he)
      simp [hn, this.1, this.2]
    · simp [hn]
  | float => simp
  | string => simp
  | aggregate => simp

theorem carried_list {os : List OptionBody} (he : ∀ o ∈ os, optionErrs o = []) :
    CarriedOver os (nonEmpty (os.map optionDesc)) := by
  refine ⟨fun o ho => (optionDesc_eq (he o ho)).2, ?_⟩
  have : os.map optionDesc = os.map optionOf :=
    List.map_congr_left fun o ho => (optionDesc_eq (he o ho)).1
  rw [this]
  unfold nonEmpty
  cases os <;> simp

theorem carried_opts {os : List Opt} (he : ∀ o ∈ os, optionErrs o.body = []) :
    CarriedOver (os.map (·.body)) (nonEmpty (optsDesc os)) := by
  have := carried_list (os := os.map (·.body)) (by simpa using he)
  simpa [optsDesc, Function.comp_def] using this

theorem carried_optList {l : Option OptionList} (he : optListErrs l = []) :
    CarriedOver (listed l) (optListDesc l) := by
  cases l with
  | none => exact ⟨nofun, rfl⟩
  | some l =>
    simp only [optListErrs, List.flatMap_eq_nil_iff] at he
    exact carried_list he

theorem takeFirst_eq (name : Bytes) : ∀ os : List OptionBody,
    takeFirst name os = (os.find? (named name)).map fun o => (o, os.eraseP (named name))
  | [] => rfl
  | o :: os => by
    have hn : o.hasName name = named name o := rfl
    unfold takeFirst
    rw [hn, takeFirst_eq name os]
    cases h : named name o with
    | true => simp [h, List.eraseP]
    | false =>
      simp only [List.find?_cons, h, List.eraseP]
      cases os.find? (named name) <;> rfl

theorem pick_eq (l : Option OptionList) (name : Bytes) : pick l name = (listed l).find? (named name) := by
  cases l with
  | none => rfl
  | some l =>
    simp only [pick, takeOption, takeFirst_eq, listed]
    cases List.find? (named name) l.options <;> rfl

theorem drop1_eq (l : Option OptionList) (name : Bytes) : listed (drop1 l name) = (listed l).eraseP (named name) := by
  cases l with
  | none => rfl
  | some l =>
    simp only [drop1, takeOption, takeFirst_eq, listed]
    cases h : List.find? (named name) l.options with
    | none =>
      have : l.options.eraseP (named name) = l.options := by
        rw [List.eraseP_of_forall_not]
        intro a ha; have := List.find?_eq_none.1 h a ha; simpa using this
      simp [this]
    | some o => rfl

theorem drop1_none {l : Option OptionList} {name : Bytes} : drop1 l name = none ↔ l = none := by
  cases l with
  | none => simp [drop1, takeOption]
  | some l =>
    simp only [drop1, takeOption]
    cases takeFirst name l.options <;> simp

/-! ### Numbers -/

theorem asI32_toInt {i : Int'} {n : Int} (h : i.asI32 = some n) :
    n = i.toInt ∧ -(2 ^ 31) ≤ i.toInt ∧ i.toInt ≤ 2 ^ 31 - 1 := by
  unfold Int'.asI32 tryI32 at h
  unfold Int'.toInt
  split at h
  · rename_i hn
    split at h
    · rename_i hv; cases h; simp only [hn, if_true, hv]; omega
    · rename_i hv
      split at h
      · cases h; simp only [hn, if_true]; exact ⟨trivial, by omega, by omega⟩
      · cases h
  · rename_i hn
    split at h
    · cases h; simp only [hn]; refine ⟨by simp, ?_, ?_⟩ <;> simp <;> omega
    · cases h

theorem messageNumber_toInt {i : Int'} {n : Int} (h : messageNumber i = some n) :
    n = i.toInt ∧ 1 ≤ i.toInt ∧ i.toInt ≤ 536870911 := by
  unfold messageNumber at h
  split at h
  · rename_i m hm
    split at h
    · rename_i hr; cases h
      have := (asI32_toInt hm).1
      subst this
      exact ⟨rfl, hr⟩
    · cases h
  · cases h

theorem messageNumber_ok {i : Int'} (h : messageNumberErrs i = []) :
    messageNumber i = some i.toInt ∧ 1 ≤ i.toInt ∧ i.toInt ≤ 536870911 := by
  unfold messageNumberErrs at h
  split at h
  · cases h
  · rename_i hn
    cases hm : messageNumber i with
    | none => exact absurd hm hn
    | some n => have := messageNumber_toInt hm; exact ⟨by rw [this.1], this.2⟩

theorem enumNumber_ok {i : Int'} (h : enumNumberErrs i = []) :
    i.asI32 = some i.toInt ∧ -(2 ^ 31) ≤ i.toInt ∧ i.toInt ≤ 2 ^ 31 - 1 := by
  unfold enumNumberErrs at h
  split at h
  · cases h
  · rename_i hn
    cases hm : i.asI32 with
    | none => exact absurd hm hn
    | some n => have := asI32_toInt hm; exact ⟨by rw [this.1], this.2⟩

/-- The largest number `max` stands for in a message. -/
def topOf (ms : Bool) : Int := if ms then 2147483646 else 536870911

theorem rangeDesc_ok (ms : Bool) {r : ReservedRange} (h : rangeErrs r = []) :
    rangeDesc ms r = ⟨some r.start.toInt, some (lastOf (topOf ms) r + 1)⟩ ∧
    1 ≤ r.start.toInt ∧ r.start.toInt ≤ 536870911 ∧ 1 ≤ lastOf (topOf ms) r ∧ lastOf (topOf ms) r ≤ topOf ms := by
  unfold rangeErrs at h
  rw [List.append_eq_nil_iff] at h
  have h1 := messageNumber_ok h.1
  have htop : (536870911 : Int) ≤ topOf ms := by unfold topOf; split <;> decide
  unfold rangeDesc rangeEndNum lastOf
  rw [h1.1]
  cases hs : r.stop with
  | none => refine ⟨rfl, h1.2.1, h1.2.2, h1.2.1, ?_⟩; show r.start.toInt ≤ _; omega
  | int j =>
    rw [hs] at h
    have h2 := messageNumber_ok h.2
    simp only [h2.1]
    refine ⟨rfl, h1.2.1, h1.2.2, h2.2.1, ?_⟩; show j.toInt ≤ _; omega
  | max sp =>
    refine ⟨?_, h1.2.1, h1.2.2, ?_, ?_⟩
    · simp [topOf, maxFieldNumber]
    · show 1 ≤ topOf ms; omega
    · exact Int.le_refl _

theorem enumRangeDesc_ok {r : ReservedRange} (h : enumRangeErrs r = []) :
    enumRangeDesc r = ⟨some r.start.toInt, some (lastOf 2147483647 r)⟩ ∧
    -(2 ^ 31) ≤ r.start.toInt ∧ r.start.toInt ≤ 2 ^ 31 - 1 ∧
    -(2 ^ 31) ≤ lastOf 2147483647 r ∧ lastOf 2147483647 r ≤ 2 ^ 31 - 1 := by
  unfold enumRangeErrs at h
  rw [List.append_eq_nil_iff] at h
  have h1 := enumNumber_ok h.1
  unfold enumRangeDesc lastOf
  rw [h1.1]
  cases hs : r.stop with
  | none => exact ⟨rfl, h1.2.1, h1.2.2, h1.2.1, h1.2.2⟩
  | int j =>
    rw [hs] at h
    have h2 := enumNumber_ok h.2
    exact ⟨congrArg (RangeProto.mk _) h2.1, h1.2.1, h1.2.2, h2.2.1, h2.2.2⟩
  | max sp => exact ⟨rfl, h1.2.1, h1.2.2, by simp, by simp⟩

theorem allRanges_eq (rs : List Reserved) : allRanges rs = reservedRanges rs := rfl

theorem allNames_eq (rs : List Reserved) : (allNames rs).map (·.value) = reservedNames rs := by
  simp only [allNames, reservedNames, List.map_flatMap]
  congr 1; funext r
  unfold resNames
  cases r.kind <;> rfl

theorem isMessageSet_iff (b : MessageBody) : isMessageSet b.options = true ↔ MessageSet b := by
  unfold isMessageSet MessageSet
  constructor
  · intro h
    split at h
    · rename_i o ho
      obtain ⟨ho1, pre, post, ho2, ho3⟩ := List.find?_eq_some_iff_append.1 ho
      have hv : o.body.value.asBool = some true := by
        cases hb : o.body.value.asBool with
        | none => rw [hb] at h; cases h
        | some v => rw [hb] at h; cases v <;> simp_all
      unfold OptionValue.asBool at hv
      split at hv
      · rename_i neg i sp hvv
        split at hv
        · cases hv
        · rename_i hneg
          split at hv
          · cases hv
          · split at hv
            · rename_i hi
              refine ⟨pre, o, post, i, sp, ho2, fun x hx => ?_, ho1, ?_, hi⟩
              · have := ho3 x hx; simp only [Bool.not_eq_true', Bool.not_eq_true] at this; exact this
              · rw [hvv]; simp at hneg; rw [hneg]
            · cases hv
      · cases hv
    · cases h
  · rintro ⟨pre, o, post, i, sp, h1, h2, h3, h4, h5⟩
    have : b.options.find? (fun o => o.body.hasName b!"message_set_wire_format") = some o := by
      refine List.find?_eq_some_iff_append.2 ⟨h3, pre, post, h1, fun x hx => ?_⟩
      have := h2 x hx
      show (!named b!"message_set_wire_format" x.body) = true
      rw [this]; rfl
    rw [this]
    simp [h4, OptionValue.asBool, h5]

/-! ### Decimal text -/

theorem digitsValue_append : ∀ (a b : Bytes) (n : Nat), digitsValue n (a ++ b) = (digitsValue n a).bind fun m => digitsValue m b
  | [], _, _ => rfl
  | x :: a, b, n => by
    simp only [List.cons_append, digitsValue]
    split
    · exact digitsValue_append a b _
    · rfl

theorem decimal_digit (d : Nat) (h : d < 10) : isDigit (UInt8.ofNat (48 + d)) = true ∧
    (UInt8.ofNat (48 + d)).toNat - 48 = d := by
  have : ∀ d : Fin 10, isDigit (UInt8.ofNat (48 + d.val)) = true ∧ (UInt8.ofNat (48 + d.val)).toNat - 48 = d.val := by
    decide
  exact this ⟨d, h⟩

theorem decimal_value (n : Nat) : digitsValue 0 (decimal n) = some n := by
  induction n using decimal.induct with
  | case1 n h =>
    unfold decimal
    rw [if_pos h]
    have := decimal_digit n h
    simp only [digitsValue, this.1, this.2, if_true]; simp
  | case2 n h ih =>
    unfold decimal
    rw [if_neg h, digitsValue_append, ih]
    have := decimal_digit (n % 10) (Nat.mod_lt _ (by decide))
    simp only [Option.bind_some, digitsValue, this.1, this.2, if_true]
    congr 1; omega

theorem decimal_ne_nil (n : Nat) : decimal n ≠ [] := by
  unfold decimal; split <;> simp

theorem decimal_head (n : Nat) : (decimal n).head? = some 48 → n = 0 := by
  induction n using decimal.induct with
  | case1 n h =>
    unfold decimal
    rw [if_pos h]
    intro h0
    simp only [List.head?_cons, Option.some.injEq] at h0
    have : ∀ d : Fin 10, UInt8.ofNat (48 + d.val) = 48 → d.val = 0 := by decide
    exact this ⟨n, h⟩ h0
  | case2 n h ih =>
    unfold decimal
    rw [if_neg h, List.head?_append, Option.or_of_isSome (by
      cases hd : decimal (n / 10) with
      | nil => exact absurd hd (decimal_ne_nil _)
      | cons => rfl)]
    intro h0
    have := ih h0
    omega

theorem decimalInt_canonical (v : Int) : CanonicalDecimal (decimalInt v) v := by
  unfold decimalInt
  split
  · rename_i n
    refine ⟨false, decimal n, n, rfl, decimal_ne_nil n, fun h => ⟨?_, rfl⟩, decimal_value n, rfl⟩
    have := decimal_head n h
    subst this; decide +kernel
  · rename_i n
    refine ⟨true, decimal (n + 1), n + 1, rfl, decimal_ne_nil _, fun h => ?_, decimal_value _, ?_⟩
    · have := decimal_head _ h; omega
    · simp only [if_true]; omega

/-! ### Case -/

theorem pascalLoop_eq (s : Bytes) : pascalLoop true s = pascalCase s ∧
    pascalLoop false s = (match splitAt 95 s with
      | [] => []
      | p :: ps => p ++ ps.flatMap capitalize) := by
  induction s with
  | nil => exact ⟨rfl, rfl⟩
  | cons c cs ih =>
    have hne := splitAt_ne_nil 95 cs
    unfold pascalLoop pascalCase splitAt
    by_cases h : c = 95
    · subst h
      simp only [if_true]
      refine ⟨?_, ?_⟩
      · rw [ih.1]; simp [pascalCase, capitalize]
      · rw [ih.1]; simp [pascalCase]
    · simp only [h, if_false]
      cases hs : splitAt 95 cs with
      | nil => exact absurd hs hne
      | cons p ps =>
        rw [hs] at ih
        simp only [ih.2]
        exact ⟨by simp [capitalize], by simp⟩

theorem toPascalCase_eq (s : Bytes) : toPascalCase s = pascalCase s := (pascalLoop_eq s).1

theorem synthName_eq (s : Bytes) : synthName s = syntheticName s := by
  unfold synthName syntheticName
  cases s with
  | nil => rfl
  | cons c cs =>
    by_cases h : c = 95
    · subst h; rfl
    · simp only [List.head?_cons, Option.some.injEq, h, if_false]
      split
      · rename_i heq; cases heq; exact absurd rfl h
      · rfl

end Verif.Gen
