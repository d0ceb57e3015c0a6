import Verif.Proofs.Rows
/-!
The recorded source locations are the rows of the specification: fields, messages and files.
-/
namespace Verif.Gen
open Verif.Ast Verif.Spec

theorem drop1_span (l : Option OptionList) (name : Bytes) : (drop1 l name).map (·.span) = l.map (·.span) := by
  cases l with
  | none => rfl
  | some l =>
    simp only [drop1, takeOption]
    cases takeFirst name l.options with
    | none => rfl
    | some p => rcases p with ⟨o, rest⟩; rfl

theorem listRows_span {l l' : Option OptionList} (h : l.map (·.span) = l'.map (·.span)) (ks) :
    listRows l ks = listRows l' ks := by
  cases l with
  | none => cases l' with
    | none => rfl
    | some _ => cases h
  | some l => cases l' with
    | none => cases h
    | some l' =>
      simp only [Option.map_some, Option.some.injEq] at h
      simp [listRows, h]

theorem tail_same {a b} {x : Field} (h : optListIn a b x.options) :
    Same (tailMarks x.options) (((listed x.options).find? (named b!"json_name")).toList.flatMap
      (fun o => [⟨[10], optionSpan o, {}⟩, ⟨[10], valueSpan o.value, {}⟩]) ++
      (listRows x.options (keptOptions x)).map (Row.below [8])) := by
  have hj : jsonOf x.options = (listed x.options).find? (named b!"json_name") := by
    rw [jsonOf, pick_eq, opts1, drop1_eq, find_eraseP (by decide)]
  have ho : listRows x.options (keptOptions x) = listRows (opts2 x.options) (listed (opts2 x.options)) := by
    have : listed (opts2 x.options) = keptOptions x := by simp only [opts2, opts1, drop1_eq, keptOptions]
    rw [this]
    exact listRows_span (by rw [opts2, drop1_span, opts1, drop1_span]) _
  unfold tailMarks
  rw [ho]
  refine Same.append ?_ ((optList_same (drop1_in (drop1_in h))).under [8])
  rw [hj]
  cases hf : (listed x.options).find? (named b!"json_name") with
  | none => exact Same.nil
  | some o =>
    have hin : o.In a b := by
      have := List.mem_of_find?_eq_some hf
      cases hl : x.options with
      | none => rw [hl] at this; cases this
      | some l => rw [hl] at this; exact (h l hl).1 o this
    simp only [jsonMarks, optionSpan_eq hin, valueSpan_eq, Option.toList_some, List.flatMap_cons, List.flatMap_nil,
      List.append_nil]
    exact Same.cons Same.one

theorem label_same {s scope} {label : Option (FieldLabel × Span)} {sp} (h : labelErrs s scope label sp = []) :
    Same (labelMarks s scope label) (label.toList.map fun l => ⟨[4], l.2, {}⟩) := by
  have := (label_ok h).1
  cases label with
  | none => exact Same.nil
  | some l =>
    rcases l with ⟨l, lsp⟩
    simp only [labelMarks, this]
    exact Same.one

theorem dflt_same (x : Field) : Same (dfltMarks (dfltOf x.options))
    (((listed x.options).find? (named b!"default")).toList.map (fun o => ⟨[7], valueSpan o.value, {}⟩)) := by
  rw [dfltOf, pick_eq]
  cases (listed x.options).find? (named b!"default") with
  | none => exact Same.nil
  | some o =>
    simp only [dfltMarks, valueSpan_eq]
    exact Same.one

theorem Same.of_iff {ms rs} (h : ∀ m, m ∈ ms ↔ toRow m ∈ rs) : Same ms rs := h

theorem field_same [FloatFmt] {L : Nat} {name f fd} (hm : Made name f fd) (hin : f.In L) {p pl x d}
    (hf : FieldAt f fd p pl x d) : Same (placeMarks f.syntax' (pl, x)) (fieldRows pl x) := by
  obtain ⟨_, e2, e3, _⟩ := field_errs hm hf
  have hx := fieldAt_in hin hf
  have hfo : optListIn 0 L x.options := by
    have := hx.2; rcases x with ⟨l, n, kd, nu, o, c, sp⟩; exact this.2.2.2.2.1
  have hkind : x.kind.In 0 L := by
    have := hx.2; rcases x with ⟨l, n, kd, nu, o, c, sp⟩; exact this.2.2.1
  have hE : Same (extendeeMarks pl) (extendeeRows pl) := by
    clear hf e3
    cases pl with
    | extend t => simp only [extendeeMarks, extendeeRows, typeSpan_eq (t := t) hx.1]; exact Same.one
    | _ => exact Same.nil
  have hdf : dfltOf x.options = (listed x.options).find? (named b!"default") := by rw [dfltOf, pick_eq]
  intro m
  have hT := tail_same hfo m
  have hD := dflt_same x m
  have hE := hE m
  simp only [List.mem_append] at hT
  simp only [placeMarks, ownMarks, headMarks, List.mem_append, hT, hE, fieldRows, List.mem_cons, toRow_mk,
    List.not_mem_nil, or_false, Tag.fieldName, Tag.fieldNumber]
  cases hk : x.kind with
  | normal t sp =>
    rw [hk] at e3 hkind
    simp only [kindErrs, List.append_eq_nil_iff] at e3
    have hL := label_same e3.1 m
    by_cases hn : ∃ n, t = .named n
    · obtain ⟨n, rfl⟩ := hn
      simp only [typeRows, fieldComments, hk, kindOwn, namedMarks, List.mem_append, List.mem_cons, hL, hD, typeSpan_eq hkind.1, toRow_mk, List.not_mem_nil,
        or_false, Tag.fieldTypeName]
      exact Iff.of_eq (by ac_rfl)
    · have h1 : kindOwn f.syntax' pl.scope x.label x.name x.span x.comments (dfltOf x.options) (.normal t sp) =
          scalarMarks f.syntax' pl.scope x.label x.span x.comments sp (dfltOf x.options) := by
        cases t with
        | named n => exact absurd ⟨n, rfl⟩ hn
        | _ => rfl
      have h2 : typeRows x = [⟨[5], sp, {}⟩] := by
        unfold typeRows; rw [hk]
        cases t with
        | named n => exact absurd ⟨n, rfl⟩ hn
        | _ => rfl
      simp only [fieldComments, hk, h1, h2, scalarMarks, List.mem_append, List.mem_cons, hL, hD, toRow_mk, List.not_mem_nil,
        or_false, Tag.fieldType]
      exact Iff.of_eq (by ac_rfl)
  | group sp b =>
    rw [hk] at e3
    simp only [kindErrs, groupErrs, List.append_eq_nil_iff] at e3
    have hL := label_same e3.1.1.1 m
    have hnone : (listed x.options).find? (named b!"default") = none := by
      cases hd : (listed x.options).find? (named b!"default") with
      | none => rfl
      | some o => rw [hdf, hd] at e3; simp [groupDfltErrs] at e3
    simp only [typeRows, fieldComments, hk, kindOwn, groupFieldMarks, List.mem_append, List.mem_cons, hL, hnone, toRow_mk, List.not_mem_nil,
      or_false, Tag.fieldType, Tag.fieldTypeName, Option.toList_none, List.map_nil]
    exact Iff.of_eq (by ac_rfl)
  | map sp k ks v vs =>
    rw [hk] at e2 e3
    simp only [kindErrs, List.append_eq_nil_iff] at e3
    have hl : x.label = none := by
      cases hl : x.label with
      | none => rfl
      | some l =>
        have := e3.1
        rw [hl] at this
        cases pl <;> simp [mapScopeErrs, Place.scope] at this
    have hnone : (listed x.options).find? (named b!"default") = none := by
      cases hd : (listed x.options).find? (named b!"default") with
      | none => rfl
      | some o => rw [hdf, hd] at e2; simp [defaultCheckErrs, isMap] at e2
    simp only [typeRows, fieldComments, hk, kindOwn, mapMarks, List.mem_append, List.mem_cons, hl, hnone, toRow_mk, List.not_mem_nil,
      or_false, false_or, Tag.fieldTypeName, Option.toList_none, List.map_nil]
    exact Iff.of_eq (by ac_rfl)

end Verif.Gen
