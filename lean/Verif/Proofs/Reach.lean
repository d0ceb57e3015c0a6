import Verif.Proofs.Rows3
import Verif.Proofs.Derive
import Verif.Spec.DescPath
/-!
The paths of the rows lead to elements of the descriptor.
-/
namespace Verif.Gen
open Verif.Ast Verif.Spec Verif.Grammar

/-- All paths satisfy `P`. -/
def Ok (P : List Int → Prop) (rs : List Row) : Prop := ∀ r ∈ rs, P r.path

variable {P : List Int → Prop}

theorem Ok.append {rs rs'} (h : Ok P rs) (h' : Ok P rs') : Ok P (rs ++ rs') := by
  intro r hr
  rcases List.mem_append.1 hr with hr | hr
  · exact h r hr
  · exact h' r hr

theorem Ok.nil : Ok P [] := nofun

theorem Ok.cons {r rs} (h : P r.path) (h' : Ok P rs) : Ok P (r :: rs) := by
  intro x hx
  rcases List.mem_cons.1 hx with rfl | hx
  · exact h
  · exact h' x hx

theorem Ok.below {q rs} (h : Ok (fun p => P (q ++ p)) rs) : Ok P (rs.map (Row.below q)) := by
  intro x hx
  obtain ⟨r, hr, rfl⟩ := List.mem_map.1 hx
  exact h r hr

theorem Ok.map {α : Type} {l : List α} {g : α → Row} (h : ∀ x ∈ l, P (g x).path) : Ok P (l.map g) := by
  intro r hr
  obtain ⟨x, hx, rfl⟩ := List.mem_map.1 hr
  exact h x hx

theorem Ok.indexed {α : Type} {tag : Int} {l : List α} {rows : α → List Row}
    (h : ∀ (i : Nat) x, l[i]? = some x → Ok (fun p => P (tag :: (i : Int) :: p)) (rows x)) : Ok P (indexed tag l rows) := by
  intro r hr
  obtain ⟨i, x, hx, hr⟩ := mem_indexed.1 hr
  exact Ok.below (h i x hx) r hr

theorem Ok.mono {P Q : List Int → Prop} {rs} (h : Ok P rs) (hi : ∀ p, P p → Q p) : Ok Q rs := fun r hr => hi _ (h r hr)

/-- An element of a repeated field. -/
theorem repeated_map {α β : Type} {inside : β → List Int → Prop} {l : List α} {g : α → β} {i : Nat} {x : α} {p}
    (hx : l[i]? = some x) (h : inside (g x) p) : repeated inside (l.map g) ((i : Int) :: p) :=
  ⟨i, g x, rfl, by rw [List.getElem?_map, hx]; rfl, h⟩

theorem repeated_get {α : Type} {inside : α → List Int → Prop} {l : List α} {i : Nat} {x : α} {p}
    (hx : l[i]? = some x) (h : inside x p) : repeated inside l ((i : Int) :: p) :=
  ⟨i, x, rfl, hx, h⟩

/-! ### Options -/

theorem optionRows_ok (os : List Opt) : Ok (optionsPath (nonEmpty (optsDesc os))) (optionRows os) := by
  cases os with
  | nil => nofun
  | cons o os =>
    have : nonEmpty (optsDesc (o :: os)) = some (optsDesc (o :: os)) := by simp [nonEmpty, optsDesc]
    rw [this]
    refine Ok.append (Ok.map fun _ _ => rfl) (Ok.indexed fun i x hx => Ok.cons ?_ Ok.nil)
    exact ⟨_, rfl, repeated_map hx rfl⟩

theorem bodies_ok (os : List OptionBody) (g : OptionBody → Span) :
    Ok (optionsPath (nonEmpty (os.map optionDesc))) (indexed 999 os fun o => [⟨[], g o, {}⟩]) := by
  cases os with
  | nil => nofun
  | cons o os =>
    have : nonEmpty ((o :: os).map optionDesc) = some ((o :: os).map optionDesc) := by simp [nonEmpty]
    rw [this]
    exact Ok.indexed fun i x hx => Ok.cons ⟨_, rfl, repeated_map hx rfl⟩ Ok.nil

theorem nonEmpty_some {α : Type} {l : List α} (h : l ≠ []) : (nonEmpty l).isSome = true := by simp [nonEmpty, h]

theorem listRows_ok {l : Option OptionList} (h : ∀ x, l = some x → x.options ≠ []) :
    Ok (optionsPath (optListDesc l)) (listRows l (listed l)) := by
  cases l with
  | none => nofun
  | some l =>
    refine Ok.append (Ok.cons ?_ Ok.nil) (bodies_ok _ _)
    simp only [optionsPath, optListDesc]
    exact nonEmpty_some (by simpa using h l rfl)

theorem sepBy_ne {α : Type} {sep : Token} {item : List Token → α → Prop} {ts as} (h : SepBy sep item ts as) : as ≠ [] := by
  cases h <;> nofun

theorem optListG_ne [FloatFmt] {t : List Token} {l} (h : OptListG t l) : ∀ x, l = some x → x.options ≠ [] := by
  cases h with
  | none => nofun
  | some h => rintro x ⟨⟩; exact sepBy_ne h

/-! ### Ranges -/

theorem range_ok {ms : Bool} {r : ReservedRange} (h : rangeErrs r = []) :
    (messageNumber r.start).isSome = true ∧ ((rangeEndNum ms r).map (· + 1)).isSome = true := by
  simp only [rangeErrs, List.append_eq_nil_iff] at h
  have h1 := (messageNumber_ok h.1).1
  refine ⟨by rw [h1]; rfl, ?_⟩
  have h2 := h.2
  unfold rangeEndNum
  cases hs : r.stop with
  | none => simp [h1]
  | int v => simp only [hs] at h2; simp [(messageNumber_ok h2).1]
  | max => rfl

theorem rangeRows_ok {ms : Bool} {r : ReservedRange} (h : rangeErrs r = []) : Ok (rangePath (rangeDesc ms r)) (rangeRows r) :=
  Ok.cons trivial <| Ok.cons ⟨(range_ok (ms := ms) h).1, rfl⟩ <| Ok.cons ⟨(range_ok (ms := ms) h).2, rfl⟩ Ok.nil

theorem extRangeRows_ok {ms : Bool} {os : Option OptionList} {r : ReservedRange} (h : rangeErrs r = [])
    (ho : ∀ x, os = some x → x.options ≠ []) :
    Ok (extensionRangePath (extRangeDesc ms os r)) (rangeRows r ++ (listRows os (listed os)).map (Row.below [3])) :=
  Ok.append (Ok.cons trivial <| Ok.cons ⟨(range_ok (ms := ms) h).1, rfl⟩ <| Ok.cons ⟨(range_ok (ms := ms) h).2, rfl⟩ Ok.nil)
    (Ok.below (listRows_ok ho))

theorem enumRangeRows_ok {r : ReservedRange} (h : enumRangeErrs r = []) : Ok (rangePath (enumRangeDesc r)) (rangeRows r) := by
  simp only [enumRangeErrs, List.append_eq_nil_iff] at h
  have h1 := (enumNumber_ok h.1).1
  refine Ok.cons trivial <| Ok.cons ⟨by simp [enumRangeDesc, h1], rfl⟩ <| Ok.cons ⟨?_, rfl⟩ Ok.nil
  have h2 := h.2
  unfold enumRangeDesc
  cases hs : r.stop with
  | none => simp [h1]
  | int v => simp only [hs] at h2; simp [(enumNumber_ok h2).1]
  | max => rfl

theorem reservedRows_ok {rt nt : Int} {rs : List Reserved} (ranges : ReservedRange → RangeProto)
    (hr : ∀ p, repeated rangePath ((allRanges rs).map ranges) p → P (rt :: p))
    (hn : ∀ p, repeated leaf ((allNames rs).map (·.value)) p → P (nt :: p))
    (h : ∀ r ∈ allRanges rs, Ok (rangePath (ranges r)) (rangeRows r)) : Ok P (reservedRows rt nt rs) := by
  refine Ok.append (Ok.append (Ok.map ?_) (Ok.indexed ?_)) (Ok.indexed ?_)
  · intro r _
    cases r.kind
    · exact hr [] trivial
    · exact hn [] trivial
  · intro i x hx r hrm
    exact hr _ (repeated_map hx (h x (List.mem_of_getElem? hx) r hrm))
  · intro i x hx
    exact Ok.cons (hn _ (repeated_map hx rfl)) Ok.nil

/-! ### Enums -/

theorem enumRows_ok {e : Enum} (he : enumErrs e = []) (ho : ∀ v ∈ e.values, ∀ x, v.options = some x → x.options ≠ []) :
    Ok (enumPath (enumDesc e)) (enumRows e) := by
  simp only [enumErrs, List.append_eq_nil_iff, List.flatMap_eq_nil_iff] at he
  obtain ⟨⟨h1, h2⟩, h3⟩ := he
  refine Ok.append (Ok.append (Ok.append ?_ (Ok.indexed ?_)) ?_) (Ok.below (optionRows_ok e.options))
  · exact Ok.cons trivial <| Ok.cons ⟨rfl, rfl⟩ Ok.nil
  · intro i v hv
    have hm := List.mem_of_getElem? hv
    have hv1 := h1 v hm
    simp only [enumValueErrs, List.append_eq_nil_iff] at hv1
    have : Ok (enumValuePath (enumValueDesc v)) (valueRows v) :=
      Ok.append (Ok.cons trivial <| Ok.cons ⟨rfl, rfl⟩ <|
        Ok.cons ⟨by simp [enumValueDesc, (enumNumber_ok hv1.1).1], rfl⟩ Ok.nil) (Ok.below (listRows_ok (ho v hm)))
    exact this.mono fun p hp => repeated_map hv hp
  · exact reservedRows_ok enumRangeDesc (fun _ h => h) (fun _ h => h) fun r hr => enumRangeRows_ok (h2 r hr)

/-! ### Services -/

theorem methodRows_ok (x : Method) : Ok (methodPath (methodDesc x)) (methodRows x) := by
  refine Ok.append (Ok.append (Ok.append ?_ (Ok.map ?_)) (Ok.map ?_)) (Ok.below (optionRows_ok x.options))
  · exact Ok.cons trivial <| Ok.cons ⟨rfl, rfl⟩ <| Ok.cons ⟨rfl, rfl⟩ <| Ok.cons ⟨rfl, rfl⟩ Ok.nil
  · intro s hs
    have : x.clientStreaming = some s := by simpa using hs
    exact ⟨by simp [methodDesc, this], rfl⟩
  · intro s hs
    have : x.serverStreaming = some s := by simpa using hs
    exact ⟨by simp [methodDesc, this], rfl⟩

theorem serviceRows_ok (s : Service) : Ok (servicePath (serviceDesc s)) (serviceRows s) := by
  refine Ok.append (Ok.append ?_ (Ok.indexed ?_)) (Ok.below (optionRows_ok s.options))
  · exact Ok.cons trivial <| Ok.cons ⟨rfl, rfl⟩ Ok.nil
  · exact fun i x hx => (methodRows_ok x).mono fun p hp => repeated_map hx hp

theorem oneofRows_ok (o : Oneof) : Ok (oneofPath (oneofDesc o)) (oneofRows o) :=
  Ok.append (Ok.cons trivial <| Ok.cons ⟨rfl, rfl⟩ Ok.nil) (Ok.below (optionRows_ok o.options))

/-! ### Messages -/

theorem itemsOneofs_eq' (b : MessageBody) : itemsOneofs b.items = (bodyOneofs b).map oneofDesc := by
  unfold bodyOneofs
  generalize b.items = xs
  induction xs with
  | nil => rfl
  | cons x xs ih => cases x <;> simp [itemsOneofs, ih]

section
variable [FloatFmt] {L : Nat} {name : Bytes} {f : File} {fd : FileDescriptorProto} {ts : List Token}

theorem bodyRows_ok {s : MsgSrc} {syn} {b : MessageBody} (hb : s.body = some b) (he : bodyErrs syn b = [])
    (hf : BodyFrom ts b) : Ok (descriptorPath (srcDesc syn s)) (bodyRows b) := by
  obtain ⟨-, -, d3, -, d5, d6, d7, d8, d9⟩ := srcDesc_body (s := syn) hb
  obtain ⟨-, e2, e3, -⟩ := bodyErrs_parts he
  refine Ok.append (Ok.append (Ok.append (Ok.append (Ok.append (Ok.indexed ?_) ?_) (Ok.map ?_)) (Ok.indexed ?_)) (Ok.map ?_))
    (Ok.below ?_)
  · intro i o ho
    refine (oneofRows_ok o).mono fun p hp => ?_
    simp only [descriptorPath, d5]
    refine repeated_get ?_ hp
    rw [itemsOneofs_eq', List.getElem?_append_left, List.getElem?_map, ho]
    · rfl
    · rw [List.length_map]; exact (List.getElem?_eq_some_iff.1 ho).1
  · refine reservedRows_ok (rangeDesc (isMessageSet b.options)) (fun p h => ?_) (fun p h => ?_) fun r hr => rangeRows_ok (e2 r hr)
    · simpa only [descriptorPath, d7] using h
    · simpa only [descriptorPath, d8] using h
  · intro e _; simp [descriptorPath, repeated]
  · intro i r hr
    have hm := List.mem_of_getElem? hr
    have hlist : extensionRanges b.extensions = (allExtRanges b.extensions).map fun y => (y.2, y.1) := by
      simp [extensionRanges, allExtRanges, List.map_flatMap, Function.comp_def]
    rw [hlist, List.getElem?_map] at hr
    obtain ⟨y, hy, hyr⟩ := Option.map_eq_some_iff.1 hr
    subst hyr
    have hy' := e3 y (List.mem_of_getElem? hy)
    simp only [extRangeErrs, List.append_eq_nil_iff] at hy'
    refine (extRangeRows_ok (ms := isMessageSet b.options) hy'.2 ?_).mono fun p hp => ?_
    · have hmem := List.mem_of_getElem? hy
      simp only [allExtRanges, List.mem_flatMap, List.mem_map] at hmem
      obtain ⟨e, he, r, hr, rfl⟩ := hmem
      obtain ⟨t, _, hg⟩ := hf.extensions e he
      cases hg with
      | mk _ h2 _ => exact optListG_ne h2
    · simp only [descriptorPath, d6]
      exact repeated_map hy hp
  · intro e _; simp [descriptorPath, repeated]
  · refine (optionRows_ok b.options).mono fun p hp => ?_
    simp only [List.cons_append, List.nil_append, descriptorPath, d9, Option.map_map, Function.comp_def]
    cases h : nonEmpty (optsDesc b.options) with
    | none => rw [h] at hp; exact hp
    | some l => rw [h] at hp; exact hp

theorem messageRows_ok {s : MsgSrc} {syn} (he : srcErrs syn s = []) (hf : ∀ b, s.body = some b → BodyFrom ts b) :
    Ok (descriptorPath (srcDesc syn s)) (messageRows s) := by
  cases s with
  | message m =>
    have := bodyRows_ok (s := .message m) (syn := syn) (b := m.body) rfl (by simpa [srcErrs, MsgSrc.body] using he) (hf _ rfl)
    refine Ok.append (Ok.cons (by simp [descriptorPath]) <| Ok.cons ?_ Ok.nil) this
    rcases m with ⟨n, b, c, sp⟩
    simp [descriptorPath, single, srcDesc, messageDesc]
  | group x b =>
    have := bodyRows_ok (s := .group x b) (syn := syn) (b := b) rfl (by simpa [srcErrs, MsgSrc.body] using he) (hf _ rfl)
    refine Ok.append (Ok.cons (by simp [descriptorPath]) <| Ok.cons ?_ Ok.nil) this
    simp [descriptorPath, single, srcDesc]
  | map => nofun

/-- Where a message stands. -/
theorem msgAt_path {p s d} (h : MsgAt f fd p s d) {q} (hq : descriptorPath d q) : filePath fd (p ++ q) := by
  induction h generalizing q with
  | top h1 h2 => exact repeated_get h2 hq
  | nested h1 h2 h3 h4 ih =>
    rw [List.append_assoc]
    exact ih ⟨_, _, rfl, h4, hq⟩

theorem fieldAt_path {p pl x d} (h : FieldAt f fd p pl x d) {q} (hq : fieldPath d q) : filePath fd (p ++ q) := by
  cases h with
  | field hat hb h1 h2 =>
    rw [List.append_assoc]
    exact msgAt_path hat (by simpa only [List.cons_append, List.nil_append, descriptorPath] using repeated_get h2 hq)
  | ext hat hb h1 h2 =>
    rw [List.append_assoc]
    exact msgAt_path hat (by simpa only [List.cons_append, List.nil_append, descriptorPath] using repeated_get h2 hq)
  | fileExt h1 h2 => exact repeated_get h2 hq

theorem enumAt_path {p e d} (h : EnumAt f fd p e d) {q} (hq : enumPath d q) : filePath fd (p ++ q) := by
  cases h with
  | top h1 h2 => exact repeated_get h2 hq
  | nested hat hb h1 h2 =>
    rw [List.append_assoc]
    exact msgAt_path hat (by simpa only [List.cons_append, List.nil_append, descriptorPath] using repeated_get h2 hq)

theorem serviceAt_path {p s d} (h : ServiceAt f fd p s d) {q} (hq : servicePath d q) : filePath fd (p ++ q) := by
  cases h with
  | mk h1 h2 => exact repeated_get h2 hq

end
end Verif.Gen
