import Verif.Proofs.Reach
/-!
The paths of the rows of fields and of the file lead to elements of the descriptor.
-/
namespace Verif.Gen
open Verif.Ast Verif.Spec Verif.Grammar

section
variable [FloatFmt] {L : Nat} {name : Bytes} {f : File} {fd : FileDescriptorProto} {ts : List Token}

theorem scalarDefault_some {ty : Ty} {v : OptionValue} (hty : ∀ t, ty ≠ .named t) (h : scalarErrs ty v = []) :
    (scalarDefault ty v).isSome = true := by
  have hint : ∀ c : IntSort, integerErrs c v = [] → (integerDefault c.conv v).isSome = true := by
    intro conv h
    obtain ⟨i, n, -, -, h⟩ := integerDefault_ok h
    rw [h]; rfl
  cases ty with
  | named t => exact absurd rfl (hty t)
  | double | float =>
    simp only [scalarErrs] at h
    simp only [scalarDefault]
    cases hv : v.asF64 with
    | none => rw [hv] at h; simp at h
    | some => rfl
  | bool =>
    simp only [scalarErrs] at h
    simp only [scalarDefault]
    cases hv : v.asBool with
    | none => rw [hv] at h; simp at h
    | some => rfl
  | bytes =>
    simp only [scalarErrs] at h
    simp only [scalarDefault]
    cases hv : bytesDefault v with
    | none => rw [hv] at h; simp at h
    | some => rfl
  | string =>
    simp only [scalarErrs] at h
    simp only [scalarDefault]
    cases v with
    | string s =>
      simp only [stringErrs] at h
      simp only [stringDefault]
      cases hu : utf8Valid s.value with
      | true => rfl
      | false => simp [hu] at h
    | _ => simp [stringErrs] at h
  | _ => exact hint _ h

theorem stringDefault_some {v : OptionValue} (h : stringErrs v = []) : (stringDefault v).isSome = true := by
  cases v with
  | string s =>
    simp only [stringErrs] at h
    simp only [stringDefault]
    cases hu : utf8Valid s.value with
    | true => rfl
    | false => simp [hu] at h
  | _ => simp [stringErrs] at h

/-- A path below a field leads somewhere, or to options that were all taken for `default` and `json_name`. -/
def FieldReach (x : Field) (d : FieldDescriptorProto) (p : List Int) : Prop :=
  fieldPath d p ∨ p = [8] ∧ d.options = none ∧ x.options.isSome = true ∧ keptOptions x = []

theorem fieldRows_ok (hm : Made name f fd) {p pl x d} (hf : FieldAt f fd p pl x d) :
    Ok (FieldReach x d) (fieldRows pl x) := by
  obtain ⟨p1, p2, p3, p4, p5, p6, p7, p8, p9⟩ := field_parts hm hf
  obtain ⟨e1, e2, e3, e4⟩ := field_errs hm hf
  have hnum : d.number = messageNumber x.number := by
    obtain ⟨y, rfl⟩ := hm.fieldAt hf
    cases pl <;> rfl
  have up : ∀ {rs}, Ok (fieldPath d) rs → Ok (FieldReach x d) rs := fun h => h.mono fun _ h => .inl h
  have hdef : (listed x.options).find? (named b!"default") = dfltOf x.options := (pick_eq _ _).symm
  have hjson : (listed x.options).find? (named b!"json_name") = jsonOf x.options := by
    rw [jsonOf, pick_eq, opts1, drop1_eq, find_eraseP (by decide)]
  refine Ok.append (up (Ok.append (Ok.append (Ok.append (Ok.append (Ok.append ?_ ?_) (Ok.map ?_)) ?_) (Ok.map ?_)) ?_)) ?_
  · refine Ok.cons trivial <| Ok.cons ⟨by rw [p1]; rfl, rfl⟩ <| Ok.cons ⟨by rw [hnum, (messageNumber_ok e1).1]; rfl, rfl⟩ Ok.nil
  · cases pl with
    | extend t => exact Ok.cons ⟨by rw [p9]; rfl, rfl⟩ Ok.nil
    | _ => nofun
  · intro l hl
    refine ⟨?_, rfl⟩
    rw [p2]
    cases hk : x.kind with
    | map => rfl
    | normal ty sp =>
      simp only [hk, kindErrs, List.append_eq_nil_iff] at e3
      simp only [kindLabel, (label_ok e3.1).1, Option.isSome_some]
    | group sp b =>
      simp only [hk, kindErrs, groupErrs, List.append_eq_nil_iff] at e3
      simp only [kindLabel]
      rw [(label_ok (s := f.syntax') (scope := pl.scope) (sp := x.span) (label := x.label) (by tauto)).1]
      rfl
  · unfold typeRows
    cases hk : x.kind with
    | map => exact Ok.cons ⟨by rw [p4, hk]; rfl, rfl⟩ Ok.nil
    | group => exact Ok.cons ⟨by rw [p3, hk]; rfl, rfl⟩ <| Ok.cons ⟨by rw [p4, hk]; rfl, rfl⟩ Ok.nil
    | normal ty sp =>
      cases ty with
      | named t => exact Ok.cons ⟨by rw [p4, hk]; rfl, rfl⟩ Ok.nil
      | _ => exact Ok.cons ⟨by rw [p3, hk]; rfl, rfl⟩ Ok.nil
  · intro o ho
    rw [hdef] at ho
    have ho : dfltOf x.options = some o := by simpa using ho
    refine ⟨?_, rfl⟩
    rw [p5, ho]
    cases hk : x.kind with
    | map => simp [defaultCheckErrs, ho, hk, isMap] at e2
    | group => simp [kindErrs, ho, hk, groupErrs, groupDfltErrs] at e3
    | normal ty sp =>
      simp only [hk, kindErrs, ho, scalarDfltErrs, List.append_eq_nil_iff] at e3
      cases ty with
      | named t => rfl
      | _ => exact scalarDefault_some (fun _ h => by cases h) e3.2
  · rw [hjson]
    intro r hr
    simp only [List.mem_flatMap, Option.mem_toList] at hr
    obtain ⟨o, ho, hr⟩ := hr
    have ho : jsonOf x.options = some o := by simpa using ho
    simp only [tailErrs, ho, jsonErrs, List.append_eq_nil_iff] at e4
    have : fieldPath d [10] := ⟨by rw [p7, ho]; exact stringDefault_some e4.1, rfl⟩
    simp only [List.mem_cons, List.not_mem_nil, or_false] at hr
    rcases hr with rfl | rfl <;> exact this
  · have hk : listed (opts2 x.options) = keptOptions x := by simp only [opts2, opts1, drop1_eq, keptOptions]
    have hn : opts2 x.options = none ↔ x.options = none := by simp only [opts2, opts1, drop1_none]
    have hd : d.options = nonEmpty ((keptOptions x).map optionDesc) := by
      rw [p6, ← hk]
      cases opts2 x.options <;> rfl
    refine Ok.below (Ok.append (Ok.map ?_) ?_)
    · intro l hl
      have hl : x.options = some l := by simpa using hl
      by_cases h : keptOptions x = []
      · exact .inr ⟨rfl, by rw [hd, h]; rfl, by rw [hl]; rfl, h⟩
      · refine .inl ?_
        show optionsPath d.options []
        rw [hd]
        exact nonEmpty_some (by simpa using h)
    · refine (bodies_ok (keptOptions x) optionSpan).mono fun p hp => .inl ?_
      show optionsPath d.options p
      rw [hd]
      exact hp

theorem enumG_values {t : List Token} {e : Enum} (h : EnumG t e) :
    ∀ v ∈ e.values, ∀ x, v.options = some x → x.options ≠ [] := by
  cases h with
  | mk h1 h2 =>
    refine many_inv h2 (fun a => ∀ v ∈ a.2.1, ∀ x, v.options = some x → x.options ≠ []) nofun ?_
    intro t a b _ he ha
    cases he with
    | value hv _ =>
      refine snoc_mem ha ?_
      cases hv with
      | mk _ _ h3 => exact optListG_ne h3
    | _ => exact ha

theorem importIdx_length (k : ImportKind) : ∀ (n : Nat) (xs : List Import),
    (importIdx k n xs).length = (modSpans k xs).length
  | _, [] => rfl
  | n, ⟨kind, v, vs, c, sp⟩ :: xs => by
    have ih := importIdx_length k (n + 1) xs
    rcases kind with _ | ⟨k', s⟩
    · simp only [importIdx, modSpans, List.filterMap_cons] at ih ⊢
      simpa using ih
    · by_cases h : k' = k
      · simp only [importIdx, modSpans, List.filterMap_cons, h] at ih ⊢
        simpa using ih
      · simp only [importIdx, modSpans, List.filterMap_cons] at ih ⊢
        simpa [h] using ih

theorem fileRows_ok (hm : Made name f fd) :
    Ok (fun p => filePath fd p ∨ p = [12] ∧ f.syntaxSpan.isSome = true ∧ f.syntax' = .proto2 ∧ fd.syntax' = none) (fileRows f) := by
  have hd := hm.desc
  have d2 : fd.package = (fileDesc name f).package := by rw [← hd]
  have d3 : fd.dependency = (fileDesc name f).dependency := by rw [← hd]
  have d8 : fd.options = (fileDesc name f).options := by rw [← hd]
  have d10 : fd.publicDependency = (fileDesc name f).publicDependency := by rw [← hd]
  have d11 : fd.weakDependency = (fileDesc name f).weakDependency := by rw [← hd]
  have d12 : fd.syntax' = (fileDesc name f).syntax' := by rw [← hd]
  refine Ok.append (Ok.append (Ok.append (Ok.append (Ok.append (Ok.append (Ok.append (Ok.cons (.inl trivial) Ok.nil)
    (Ok.map ?_)) (Ok.map ?_)) (Ok.indexed ?_)) (Ok.indexed ?_)) (Ok.indexed ?_)) (Ok.map ?_)) (Ok.below ?_)
  · intro s hs
    have hs : f.syntaxSpan = some s := by simpa using hs
    by_cases h : f.syntax' = .proto2
    · exact .inr ⟨rfl, by rw [hs]; rfl, h, by rw [d12, fileDesc, if_pos h]⟩
    · exact .inl ⟨by rw [d12, fileDesc, if_neg h]; rfl, rfl⟩
  · intro p hp
    have hp : f.package = some p := by simpa using hp
    exact .inl ⟨by rw [d2]; simp [fileDesc, hp], rfl⟩
  · intro i x hx
    refine Ok.cons (.inl ?_) Ok.nil
    show repeated leaf fd.dependency [(i : Int)]
    rw [d3]
    exact repeated_map hx rfl
  · intro i x hx
    refine Ok.cons (.inl ?_) Ok.nil
    show repeated leaf fd.publicDependency [(i : Int)]
    rw [d10]
    obtain ⟨y, hy⟩ := get_of_len (importIdx_length .publ 0 f.imports) hx
    exact repeated_get hy rfl
  · intro i x hx
    refine Ok.cons (.inl ?_) Ok.nil
    show repeated leaf fd.weakDependency [(i : Int)]
    rw [d11]
    obtain ⟨y, hy⟩ := get_of_len (importIdx_length .weak 0 f.imports) hx
    exact repeated_get hy rfl
  · intro e _; exact .inl trivial
  · refine (optionRows_ok f.options).mono fun p hp => .inl ?_
    show optionsPath fd.options p
    rw [d8]
    exact hp

/-- The path of a row leads somewhere, with two exceptions. -/
theorem row_reaches (hm : Made name f fd) (hg : FileG ts f) {r : Row} (hr : RowOf f fd r) :
    filePath fd r.path ∨
    (r.path = [12] ∧ f.syntaxSpan.isSome = true ∧ f.syntax' = .proto2 ∧ fd.syntax' = none) ∨
    ∃ p pl x d, FieldAt f fd p pl x d ∧ r.path = p ++ [8] ∧ d.options = none ∧ x.options.isSome = true ∧
      keptOptions x = [] := by
  cases hr with
  | file h =>
    rcases fileRows_ok hm r h with h | h
    · exact .inl h
    · exact .inr (.inl h)
  | @message p s d r hat h =>
    have := hm.msgAt hat
    refine .inl (msgAt_path hat ?_)
    rw [this.1]
    exact messageRows_ok this.2 (fun b hb => srcFrom_body (msgAt_from hg hat) hb) r h
  | @field p pl x d r hat h =>
    rcases fieldRows_ok hm hat r h with h | ⟨h1, h2⟩
    · exact .inl (fieldAt_path hat h)
    · exact .inr (.inr ⟨p, pl, x, d, hat, by simp only [Row.below, h1], h2⟩)
  | @enum p e d r hat h =>
    have := hm.enumAt hat
    refine .inl (enumAt_path hat ?_)
    rw [this.1]
    refine enumRows_ok this.2 ?_ r h
    obtain ⟨t, _, hg⟩ := enumAt_from hg hat
    exact enumG_values hg
  | @service p s d r hat h =>
    refine .inl (serviceAt_path hat ?_)
    rw [(hm.serviceAt hat).1]
    exact serviceRows_ok s r h

end
end Verif.Gen
