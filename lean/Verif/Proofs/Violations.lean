import Verif.Spec.Rules
import Verif.Props.Descriptor2
import Verif.Proofs.Rows2
/-!
The errors of a file are the violations of the rules.
-/
namespace Verif.Gen
open Verif.Ast Verif.Spec

/-! ### Everything written has a place in the descriptor -/

section
variable [FloatFmt]

theorem get_of_mem {α : Type} {l : List α} {x : α} (h : x ∈ l) : ∃ i : Nat, l[i]? = some x := List.getElem?_of_mem h

theorem desc_messageType (f : File) : (fileDesc [] f).messageType = (fileMsgs f).map (srcDesc f.syntax') := by
  rw [← itemsMsgs_eq]; rfl

theorem desc_extension (f : File) : (fileDesc [] f).extension = (Spec.fileExts f).map (placeDesc f.syntax' 0) := by
  rw [← fileExts_eq]; rfl

theorem msgWritten_at {f s} (h : MsgWritten f s) : ∃ p, MsgAt f (fileDesc [] f) p s (srcDesc f.syntax' s) := by
  induction h with
  | top h =>
    obtain ⟨i, hi⟩ := get_of_mem h
    exact ⟨_, .top hi (by rw [desc_messageType, List.getElem?_map, hi]; rfl)⟩
  | nested _ hb h ih =>
    obtain ⟨p, ih⟩ := ih
    obtain ⟨i, hi⟩ := get_of_mem h
    exact ⟨_, .nested ih hb hi (by rw [(srcDesc_body hb).1, List.getElem?_map, hi]; rfl)⟩

theorem fieldWritten_at {f pl x} (h : FieldWritten f pl x) : ∃ p d, FieldAt f (fileDesc [] f) p pl x d := by
  cases h with
  | field hb h =>
    obtain ⟨s, hs, hb⟩ := hb
    obtain ⟨p, hp⟩ := msgWritten_at hs
    obtain ⟨i, hi⟩ := get_of_mem h
    have hlen : i < (srcDesc f.syntax' s).field.length := by
      rw [(srcDesc_body hb).2.1, itemsFields_eq, placeDescs_length]
      exact (List.getElem?_eq_some_iff.1 hi).1
    exact ⟨_, _, .field hp hb hi (List.getElem?_eq_getElem hlen)⟩
  | ext hb h =>
    obtain ⟨s, hs, hb⟩ := hb
    obtain ⟨p, hp⟩ := msgWritten_at hs
    obtain ⟨i, hi⟩ := get_of_mem h
    exact ⟨_, _, .ext hp hb hi (by rw [(srcDesc_body hb).2.2.1, itemsExts_eq, List.getElem?_map, hi]; rfl)⟩
  | fileExt h =>
    obtain ⟨i, hi⟩ := get_of_mem h
    exact ⟨_, _, .fileExt hi (by rw [desc_extension, List.getElem?_map, hi]; rfl)⟩

end

/-! ### One element at a time -/

theorem mem_ite_one {c : Prop} [Decidable c] {k e : ParseErrorKind} : (k ∈ if c then [e] else []) ↔ c ∧ k = e := by
  split <;> simp [*]

theorem mem_optionErrs {o : OptionBody} {k} : k ∈ optionErrs o ↔ BadOption o k := by
  have h64 : ∀ i : Int', i.negative = true → (i.asI64 = none ↔ 2 ^ 63 < i.value) := by
    intro i hn
    unfold Int'.asI64 tryI64
    simp only [hn, if_true]
    split
    · simp; omega
    · split <;> simp <;> omega
  unfold optionErrs
  constructor
  · intro h
    split at h
    · rename_i hv
      cases List.mem_singleton.1 h
      exact .ident hv
    · rename_i i hv
      obtain ⟨⟨h1, h2⟩, rfl⟩ := mem_ite_one.1 h
      exact .int hv h1 ((h64 i h1).1 h2)
    · cases h
  · intro h
    cases h with
    | ident hv => rw [hv]; exact .head _
    | @int i hv h1 h2 => rw [hv]; exact mem_ite_one.2 ⟨⟨h1, (h64 i h1).2 h2⟩, rfl⟩

theorem mem_optsErrs {os : List Opt} {k} : k ∈ optsErrs os ↔ ∃ o ∈ os, BadOption o.body k := by
  simp only [optsErrs, List.mem_flatMap, mem_optionErrs]

theorem mem_optListErrs {l : Option OptionList} {k} : k ∈ optListErrs l ↔ ∃ o ∈ listed l, BadOption o k := by
  cases l <;> simp [optListErrs, listed, mem_optionErrs]

theorem mem_messageNumberErrs {i : Int'} {k} : k ∈ messageNumberErrs i ↔ ¬ IsFieldNumber i ∧ k = .invalidMessageNumber i.span := by
  unfold messageNumberErrs
  rw [mem_ite_one]
  have : messageNumber i = none ↔ ¬ IsFieldNumber i := by
    constructor
    · intro h hn
      have h32 : i.asI32 = some i.toInt := (asI32_fits i _).2 ⟨rfl, by have := hn.1; omega, by have := hn.2; omega⟩
      unfold messageNumber at h
      rw [h32] at h
      simp only at h
      rw [if_pos (show 1 ≤ i.toInt ∧ i.toInt ≤ maxFieldNumber from hn)] at h
      cases h
    · intro h
      cases hm : messageNumber i with
      | none => rfl
      | some n => exact absurd (messageNumber_toInt hm).2 h
  rw [this]

theorem mem_enumNumberErrs {i : Int'} {k} : k ∈ enumNumberErrs i ↔ ¬ IsEnumNumber i ∧ k = .invalidEnumNumber i.span := by
  unfold enumNumberErrs
  rw [mem_ite_one]
  have : i.asI32 = none ↔ ¬ IsEnumNumber i := by
    constructor
    · intro h hn
      rw [(asI32_fits i _).2 ⟨rfl, hn⟩] at h
      cases h
    · intro h
      cases hm : i.asI32 with
      | none => rfl
      | some n => exact absurd ((asI32_fits i n).1 hm).2 h
  rw [this]

theorem mem_rangeErrs {r : ReservedRange} {k} : k ∈ rangeErrs r ↔ BadRange IsFieldNumber .invalidMessageNumber r k := by
  unfold rangeErrs
  rw [List.mem_append, mem_messageNumberErrs]
  constructor
  · rintro (⟨h, rfl⟩ | h)
    · exact .start h
    · split at h
      · rename_i hs
        obtain ⟨h', rfl⟩ := mem_messageNumberErrs.1 h
        exact .stop hs h'
      · cases h
  · intro h
    cases h with
    | start h => exact .inl ⟨h, rfl⟩
    | stop hs h => rw [hs]; exact .inr (mem_messageNumberErrs.2 ⟨h, rfl⟩)

theorem mem_enumRangeErrs {r : ReservedRange} {k} : k ∈ enumRangeErrs r ↔ BadRange IsEnumNumber .invalidEnumNumber r k := by
  unfold enumRangeErrs
  rw [List.mem_append, mem_enumNumberErrs]
  constructor
  · rintro (⟨h, rfl⟩ | h)
    · exact .start h
    · split at h
      · rename_i hs
        obtain ⟨h', rfl⟩ := mem_enumNumberErrs.1 h
        exact .stop hs h'
      · cases h
  · intro h
    cases h with
    | start h => exact .inl ⟨h, rfl⟩
    | stop hs h => rw [hs]; exact .inr (mem_enumNumberErrs.2 ⟨h, rfl⟩)

/-! ### Defaults -/

theorem mem_stringErrs {v : OptionValue} {k} : k ∈ stringErrs v ↔ BadDefault .string v k := by
  constructor
  · intro h
    cases v with
    | string s =>
      simp only [stringErrs] at h
      split at h
      · cases h
      · rename_i hu
        cases List.mem_singleton.1 h
        exact .utf8 rfl rfl (by simpa using hu)
    | _ => cases List.mem_singleton.1 h; exact .sort nofun
  · intro h
    cases h with
    | sort h =>
      cases v with
      | string s => exact absurd trivial h
      | _ => exact .head _
    | range _ h => cases h
    | utf8 _ hv hu => subst hv; simp [stringErrs, hu]

theorem mem_integerErrs {t : Ty} {v : OptionValue} (hi : (integerBounds t).isSome = true) {c : IntSort}
    (hr : rangeWords t = c.expected) (hb : integerBounds t = some (c.min, c.max)) (hsw : sortWords t = b!"an integer")
    (hc : ∀ i, v = .int i → (integerErrs c (.int i) = [] ↔ FitsIn t i)) {k} :
    k ∈ integerErrs c v ↔ BadDefault t v k := by
  have hs : RightSort t v ↔ ∃ i, v = .int i := by
    constructor
    · intro h
      cases v with
      | int i => exact ⟨i, rfl⟩
      | _ => cases t <;> simp [RightSort, integerBounds] at h hi
    · rintro ⟨i, rfl⟩
      cases t <;> simp [RightSort, integerBounds] at hi ⊢
  constructor
  · intro h
    cases v with
    | int i =>
      have hf := hc i rfl
      simp only [integerErrs] at h hf
      obtain ⟨h1, rfl⟩ := mem_ite_one.1 h
      rw [← hr]
      refine .range rfl hb fun hk => ?_
      have := hf.2 hk
      rw [if_pos h1] at this
      cases this
    | _ => cases List.mem_singleton.1 h; rw [← hsw]; exact .sort fun h => by obtain ⟨i, h⟩ := hs.1 h; cases h
  · intro h
    cases h with
    | sort h =>
      cases v with
      | int i => exact absurd (hs.2 ⟨i, rfl⟩) h
      | _ => rw [hsw]; exact .head _
    | @range i lo hi' hv hb' hf =>
      rw [hb] at hb'
      cases hb'
      rw [hr]
      subst hv
      have hf' := mt (hc i rfl).1 hf
      simp only [integerErrs] at hf' ⊢
      split at hf'
      · rename_i h; rw [if_pos h]; exact .head _
      · exact absurd rfl hf'
    | utf8 ht => subst ht; cases hi

theorem mem_scalarErrs {t : Ty} {v : OptionValue} (hlt : ∀ i, v = .int i → i.value < 2 ^ 64) {k} :
    k ∈ scalarErrs t v ↔ BadDefault t v k := by
  have hint : ∀ (c : IntSort), rangeWords t = c.expected → integerBounds t = some (c.min, c.max) → sortWords t = b!"an integer" →
      (∀ v, scalarErrs t v = integerErrs c v) →
      (k ∈ scalarErrs t v ↔ BadDefault t v k) := by
    intro c hr hb hsw he
    have hi : (integerBounds t).isSome = true := by rw [hb]; rfl
    rw [he]
    exact mem_integerErrs hi hr hb hsw fun i hv => by rw [← he]; exact scalarErrs_integer hi i (hlt i hv)
  have hfl : ((t = .double ∨ t = .float) → (k ∈ scalarErrs t v ↔ BadDefault t v k)) := by
    intro ht
    have he : scalarErrs t v = if v.asF64 = none then [.valueInvalidType (sortWords t) v v.span] else [] := by
      rcases ht with rfl | rfl <;> rfl
    have hs : v.asF64 = none ↔ ¬ RightSort t v := by
      rcases ht with rfl | rfl <;> cases v <;> simp [OptionValue.asF64, RightSort] <;> (split <;> simp_all) <;> (split <;> simp_all)
    rw [he, mem_ite_one, valueSpan_eq]
    constructor
    · rintro ⟨h, rfl⟩
      exact .sort (hs.1 h)
    · intro h
      cases h with
      | sort h => exact ⟨hs.2 h, rfl⟩
      | range _ h => rcases ht with rfl | rfl <;> cases h
      | utf8 h => rcases ht with rfl | rfl <;> cases h
  cases t with
  | int32 | sint32 | sfixed32 => exact hint _ rfl rfl rfl fun _ => rfl
  | int64 | sint64 | sfixed64 => exact hint _ rfl rfl rfl fun _ => rfl
  | uint32 | fixed32 => exact hint _ rfl rfl rfl fun _ => rfl
  | uint64 | fixed64 => exact hint _ rfl rfl rfl fun _ => rfl
  | double => exact hfl (.inl rfl)
  | float => exact hfl (.inr rfl)
  | string => exact mem_stringErrs
  | bool =>
    have hs : v.asBool = none ↔ ¬ RightSort .bool v := by
      cases v with
      | ident neg i sp =>
        simp only [OptionValue.asBool, RightSort]
        split
        · simp_all
        · split
          · simp_all
          · split <;> simp_all
      | _ => simp [OptionValue.asBool, RightSort, integerBounds]
    show k ∈ (if v.asBool = none then [.valueInvalidType (sortWords .bool) v v.span] else []) ↔ _
    rw [mem_ite_one, valueSpan_eq]
    constructor
    · rintro ⟨h, rfl⟩
      exact .sort (hs.1 h)
    · intro h
      cases h with
      | sort h => exact ⟨hs.2 h, rfl⟩
      | range _ h => cases h
      | utf8 h => cases h
  | bytes =>
    have hs : bytesDefault v = none ↔ ¬ RightSort .bytes v := by
      cases v <;> simp [bytesDefault, RightSort, integerBounds]
    show k ∈ (if bytesDefault v = none then [.valueInvalidType (sortWords .bytes) v v.span] else []) ↔ _
    rw [mem_ite_one, valueSpan_eq]
    constructor
    · rintro ⟨h, rfl⟩
      exact .sort (hs.1 h)
    · intro h
      cases h with
      | sort h => exact ⟨hs.2 h, rfl⟩
      | range _ h => cases h
      | utf8 h => cases h
  | named t =>
    constructor
    · intro h; cases h
    · intro h
      cases h with
      | sort h => exact absurd trivial h
      | range _ h => cases h
      | utf8 h => cases h

/-! ### Fields -/

def kindOwnErrs (s : Syntax') (scope : FieldScope) (label : Option (FieldLabel × Span)) (span : Span)
    (dflt : Option OptionBody) : FieldKind → List ParseErrorKind
  | .normal ty _ => labelErrs s scope label span ++ scalarDfltErrs ty dflt
  | .group _ _ => groupErrs s scope label span dflt
  | .map _ k ksp _ _ => mapScopeErrs label span scope ++ if validKey k then [] else [.invalidMapFieldKeyType ksp]

/-- The errors of a field, without those inside a group. -/
def ownErrs (s : Syntax') (scope : FieldScope) (x : Field) : List ParseErrorKind :=
  messageNumberErrs x.number ++ defaultCheckErrs s x.label (isMap x.kind) (dfltOf x.options) ++
    kindOwnErrs s scope x.label x.span (dfltOf x.options) x.kind ++ tailErrs x.options

theorem mem_fieldErrs {s scope} {x : Field} {k} :
    k ∈ fieldErrs s scope x ↔ k ∈ ownErrs s scope x ∨ ∃ m ∈ fieldMsgs x, k ∈ srcErrs s m := by
  rcases x with ⟨l, name, kind, n, o, c, sp⟩
  cases kind with
  | normal => simp [fieldErrs, kindErrs, ownErrs, kindOwnErrs, fieldMsgs]
  | map => simp [fieldErrs, kindErrs, ownErrs, kindOwnErrs, fieldMsgs, srcErrs, MsgSrc.body]
  | group t b =>
    simp only [fieldErrs, kindErrs, ownErrs, kindOwnErrs, fieldMsgs, srcErrs, MsgSrc.body, List.mem_append, List.mem_singleton,
      exists_eq_left]
    exact Iff.of_eq (by ac_rfl)

theorem mem_label {syn : Syntax'} {pl : Place} {x : Field} (hm : isMapField x = false) {k} :
    k ∈ labelErrs syn pl.scope x.label x.span ↔
      (syn = .proto2 ∧ (∀ k, pl ≠ .oneof k) ∧ x.label = none ∧ k = .proto2FieldMissingLabel x.span) ∨
      (syn = .proto3 ∧ pl = .message ∧ ∃ sp, x.label = some (.required, sp) ∧ k = .proto3RequiredField sp) ∨
      (∃ t sp, pl = .extend t ∧ x.label = some (.required, sp) ∧ k = .requiredExtendField sp) ∨
      (∃ j l sp, pl = .oneof j ∧ x.label = some (l, sp) ∧ k = .oneofFieldWithLabel sp) := by
  generalize x.label = lab
  cases pl <;> cases lab with
  | none => cases syn <;> simp [labelErrs, Place.scope]
  | some l =>
    rcases l with ⟨l, sp⟩
    cases l <;> cases syn <;> simp [labelErrs, Place.scope] <;>
      exact ⟨fun h => ⟨_, _, ⟨rfl, rfl⟩, h⟩, by rintro ⟨_, _, ⟨rfl, rfl⟩, h⟩; exact h⟩

theorem mem_ownErrs {syn : Syntax'} {pl : Place} {x : Field} {a b : Nat} (hin : optListIn a b x.options)
    (hlt : ∀ o ∈ listed x.options, ∀ i, o.value = .int i → i.value < 2 ^ 64) {k} :
    k ∈ ownErrs syn pl.scope x ↔ BadField syn pl x k := by
  have hmem : ∀ {o n}, (listed x.options).find? (named n) = some o → o ∈ listed x.options ∧ o.In a b := by
    intro o n h
    have hm := List.mem_of_find?_eq_some h
    refine ⟨hm, ?_⟩
    cases hl : x.options with
    | none => rw [hl] at hm; cases hm
    | some l => rw [hl] at hm; exact (hin l hl).1 o hm
  have hdf : dfltOf x.options = (listed x.options).find? (named b!"default") := by rw [dfltOf, pick_eq]
  have hj : jsonOf x.options = (listed x.options).find? (named b!"json_name") := by
    rw [jsonOf, pick_eq, opts1, drop1_eq, find_eraseP (by decide)]
  have ho : listed (opts2 x.options) = keptOptions x := by simp only [opts2, opts1, drop1_eq, keptOptions]
  have hmap : isMap x.kind = isMapField x := by unfold isMapField; cases x.kind <;> rfl
  have hT : k ∈ tailErrs x.options ↔ (∃ o, FirstNamed b!"json_name" x o ∧ BadDefault .string o.value k) ∨
      ∃ o ∈ keptOptions x, BadOption o k := by
    unfold tailErrs
    rw [List.mem_append, mem_optListErrs, ho, hj]
    refine or_congr ?_ Iff.rfl
    unfold FirstNamed
    cases (listed x.options).find? (named b!"json_name") with
    | none => simp [jsonErrs]
    | some o => simp [jsonErrs, mem_stringErrs]
  have hD : k ∈ defaultCheckErrs syn x.label (isMap x.kind) (dfltOf x.options) ↔
      (∃ o, FirstNamed b!"default" x o ∧ isMapField x = true ∧ k = .invalidDefault b!"map" (optionSpan o)) ∨
      (∃ o, FirstNamed b!"default" x o ∧ isMapField x = false ∧ labelOf x = some .repeated ∧
        k = .invalidDefault b!"repeated" (optionSpan o)) ∨
      (∃ o, FirstNamed b!"default" x o ∧ syn = .proto3 ∧ isMapField x = false ∧ labelOf x ≠ some .repeated ∧
        k = .proto3DefaultValue (optionSpan o)) := by
    rw [hdf, hmap]
    unfold FirstNamed labelOf
    cases hf : (listed x.options).find? (named b!"default") with
    | none => simp [defaultCheckErrs]
    | some o =>
      simp only [defaultCheckErrs, optionSpan_eq (hmem hf).2, Option.some.injEq, exists_eq_left']
      cases isMapField x
      · by_cases hr : x.label.map (·.1) = some .repeated
        · simp [hr]
        · cases syn <;> simp [hr]
      · simp
  unfold ownErrs
  rw [List.mem_append, List.mem_append, List.mem_append, mem_messageNumberErrs, hD, hT]
  constructor
  · rintro (((⟨h, rfl⟩ | ⟨o, h1, h2, rfl⟩ | ⟨o, h1, h2, h3, rfl⟩ | ⟨o, h1, h2, h3, h4, rfl⟩) | h) | ⟨o, h1, h2⟩ | ⟨o, h1, h2⟩)
    · exact .number h
    · exact .mapDefault h1 h2
    · exact .repeatedDefault h1 h2 h3
    · exact .proto3Default h1 h2 h3 h4
    · cases hk : x.kind with
      | normal t sp =>
        rw [hk] at h
        have hm : isMapField x = false := by simp [isMapField, hk]
        rcases List.mem_append.1 h with h | h
        · rcases (mem_label hm).1 h with ⟨h1, h2, h3, rfl⟩ | ⟨h1, rfl, sp, h3, rfl⟩ | ⟨t, sp, rfl, h3, rfl⟩ | ⟨j, l, sp, rfl, h3, rfl⟩
          · exact .labelMissing h1 hm h2 h3
          · exact .proto3Required h1 hm h3
          · exact .requiredExtension hm h3
          · exact .oneofLabel hm h3
        · rw [hdf] at h
          cases hf : (listed x.options).find? (named b!"default") with
          | none => rw [hf] at h; cases h
          | some o =>
            rw [hf] at h
            exact .badDefault hf hk ((mem_scalarErrs (hlt o (hmem hf).1)).1 h)
      | group sp b =>
        rw [hk] at h
        have hm : isMapField x = false := by simp [isMapField, hk]
        rcases List.mem_append.1 h with h | h
        · rcases List.mem_append.1 h with h | h
          · rcases (mem_label hm).1 h with ⟨h1, h2, h3, rfl⟩ | ⟨h1, rfl, sp, h3, rfl⟩ | ⟨t, sp, rfl, h3, rfl⟩ | ⟨j, l, sp, rfl, h3, rfl⟩
            · exact .labelMissing h1 hm h2 h3
            · exact .proto3Required h1 hm h3
            · exact .requiredExtension hm h3
            · exact .oneofLabel hm h3
          · obtain ⟨h1, rfl⟩ := mem_ite_one.1 h
            exact .proto3Group (by cases syn; exact absurd rfl h1; rfl) hk
        · rw [hdf] at h
          cases hf : (listed x.options).find? (named b!"default") with
          | none => rw [hf] at h; cases h
          | some o =>
            rw [hf] at h
            cases List.mem_singleton.1 h
            rw [optionSpan_eq (hmem hf).2]
            exact .groupDefault hf hk
      | map sp ky ksp v vsp =>
        rw [hk] at h
        have hm : isMapField x = true := by simp [isMapField, hk]
        rcases List.mem_append.1 h with h | h
        · cases pl with
          | message =>
            cases hl : x.label with
            | none => rw [hl] at h; cases h
            | some l => rw [hl] at h; cases List.mem_singleton.1 h; exact .mapLabel hm hl
          | oneof j => cases List.mem_singleton.1 h; exact .mapInOneof hm
          | extend t => cases List.mem_singleton.1 h; exact .mapInExtend hm
        · split at h
          · cases h
          · rename_i hv
            cases List.mem_singleton.1 h
            refine .mapKey hk ?_
            intro hmem
            apply hv
            revert hmem
            cases ky <;> simp [keyTypes, validKey]
    · exact .badJsonName h1 h2
    · exact .badOption h1 h2
  · have hlab : isMapField x = false → k ∈ labelErrs syn pl.scope x.label x.span →
        k ∈ kindOwnErrs syn pl.scope x.label x.span (dfltOf x.options) x.kind := by
      intro hm h
      cases hk : x.kind with
      | normal t sp => exact List.mem_append_left _ h
      | group sp b => exact List.mem_append_left _ (List.mem_append_left _ h)
      | map => simp [isMapField, hk] at hm
    have hmapk : isMapField x = true → k ∈ mapScopeErrs x.label x.span pl.scope →
        k ∈ kindOwnErrs syn pl.scope x.label x.span (dfltOf x.options) x.kind := by
      intro hm h
      cases hk : x.kind with
      | map => exact List.mem_append_left _ h
      | _ => simp [isMapField, hk] at hm
    intro h
    cases h with
    | number h => exact .inl (.inl (.inl ⟨h, rfl⟩))
    | labelMissing h1 hm h2 h3 => exact .inl (.inr (hlab hm ((mem_label hm).2 (.inl ⟨h1, h2, h3, rfl⟩))))
    | proto3Required h1 hm h2 => exact .inl (.inr (hlab hm ((mem_label hm).2 (.inr (.inl ⟨h1, rfl, _, h2, rfl⟩)))))
    | requiredExtension hm h2 => exact .inl (.inr (hlab hm ((mem_label hm).2 (.inr (.inr (.inl ⟨_, _, rfl, h2, rfl⟩))))))
    | oneofLabel hm h2 => exact .inl (.inr (hlab hm ((mem_label hm).2 (.inr (.inr (.inr ⟨_, _, _, rfl, h2, rfl⟩))))))
    | mapLabel hm h => exact .inl (.inr (hmapk hm (by rw [h]; exact .head _)))
    | mapInOneof hm => exact .inl (.inr (hmapk hm (.head _)))
    | mapInExtend hm => exact .inl (.inr (hmapk hm (.head _)))
    | mapKey hk hn =>
      refine .inl (.inr ?_)
      rw [hk]
      refine List.mem_append_right _ ?_
      rw [if_neg]
      · exact .head _
      · rename_i ky _ _ _
        revert hn
        cases ky <;> simp [keyTypes, validKey]
    | proto3Group h1 hk =>
      refine .inl (.inr ?_)
      rw [hk]
      exact List.mem_append_left _ (List.mem_append_right _ (mem_ite_one.2 ⟨by rw [h1]; nofun, rfl⟩))
    | mapDefault h1 h2 => exact .inl (.inl (.inr (.inl ⟨_, h1, h2, rfl⟩)))
    | repeatedDefault h1 h2 h3 => exact .inl (.inl (.inr (.inr (.inl ⟨_, h1, h2, h3, rfl⟩))))
    | groupDefault h1 hk =>
        refine .inl (.inr ?_)
        rw [hk, hdf, show _ = some _ from h1]
        refine List.mem_append_right _ ?_
        rw [← optionSpan_eq (hmem h1).2]
        exact .head _
    | proto3Default h1 h2 h3 h4 => exact .inl (.inl (.inr (.inr (.inr ⟨_, h1, h2, h3, h4, rfl⟩))))
    | badDefault h1 hk h2 =>
      refine .inl (.inr ?_)
      rw [hk, hdf, show _ = some _ from h1]
      exact List.mem_append_right _ ((mem_scalarErrs (hlt _ (hmem h1).1)).2 h2)
    | badJsonName h1 h2 => exact .inr (.inl ⟨_, h1, h2⟩)
    | badOption h1 h2 => exact .inr (.inr ⟨_, h1, h2⟩)

/-! ### Bodies -/

theorem mem_fieldsErrs {s scope k} : ∀ {fs : List Field}, k ∈ fieldsErrs s scope fs ↔ ∃ x ∈ fs, k ∈ fieldErrs s scope x
  | [] => by simp [fieldsErrs]
  | f :: fs => by simp [fieldsErrs, mem_fieldsErrs (fs := fs)]

theorem mem_fieldsErrs' {s scope k} {fs : List Field} : k ∈ fieldsErrs s scope fs ↔
    (∃ x ∈ fs, k ∈ ownErrs s scope x) ∨ ∃ m ∈ fs.flatMap fieldMsgs, k ∈ srcErrs s m := by
  simp only [mem_fieldsErrs, mem_fieldErrs, List.mem_flatMap]
  constructor
  · rintro ⟨x, hx, h | ⟨m, hm, h⟩⟩
    · exact .inl ⟨x, hx, h⟩
    · exact .inr ⟨m, ⟨x, hx, hm⟩, h⟩
  · rintro (⟨x, hx, h⟩ | ⟨m, ⟨x, hx, hm⟩, h⟩)
    · exact ⟨x, hx, .inl h⟩
    · exact ⟨x, hx, .inr ⟨m, hm, h⟩⟩

theorem mem_oneofErrs {s k} {o : Oneof} : k ∈ oneofErrs s o ↔
    (k ∈ optsErrs o.options ∨ o.fields = [] ∧ k = .emptyOneof o.span) ∨ (∃ x ∈ o.fields, k ∈ ownErrs s .oneof x) ∨
      ∃ m ∈ o.fields.flatMap fieldMsgs, k ∈ srcErrs s m := by
  rcases o with ⟨n, os, fs, c, sp⟩
  simp only [oneofErrs, List.mem_append, mem_fieldsErrs', mem_ite_one, List.isEmpty_iff]

theorem mem_extendErrs {s k} {e : Extend} : k ∈ extendErrs s e ↔
    (∃ y ∈ extendFields e, k ∈ ownErrs s y.1.scope y.2) ∨ ∃ m ∈ e.fields.flatMap fieldMsgs, k ∈ srcErrs s m := by
  rcases e with ⟨n, fs, c, sp⟩
  simp only [extendErrs, mem_fieldsErrs', extendFields, List.mem_map]
  refine or_congr ?_ Iff.rfl
  constructor
  · rintro ⟨x, hx, h⟩; exact ⟨_, ⟨x, hx, rfl⟩, h⟩
  · rintro ⟨_, ⟨x, hx, rfl⟩, h⟩; exact ⟨x, hx, h⟩

theorem mem_messageErrs {s k} {m : Message} : k ∈ messageErrs s m ↔ k ∈ srcErrs s (.message m) := by
  rcases m with ⟨n, b, c, sp⟩
  rfl

/-- The errors directly at the items of a body, or in the messages among them. -/
theorem mem_itemsErrs {s k} : ∀ (j : Nat) (xs : List MessageItem), k ∈ itemsErrs s xs ↔
    (∃ y ∈ fieldsFrom j xs, k ∈ ownErrs s y.1.scope y.2) ∨
    (∃ y ∈ bodyExts ⟨xs, [], [], []⟩, k ∈ ownErrs s y.1.scope y.2) ∨
    (∃ e ∈ bodyEnums ⟨xs, [], [], []⟩, k ∈ enumErrs e) ∨
    (∃ o ∈ bodyOneofs ⟨xs, [], [], []⟩, k ∈ optsErrs o.options ∨ o.fields = [] ∧ k = .emptyOneof o.span) ∨
    ∃ m ∈ bodyMsgs ⟨xs, [], [], []⟩, k ∈ srcErrs s m
  | j, [] => by simp [itemsErrs, fieldsFrom, bodyExts, bodyEnums, bodyOneofs, bodyMsgs]
  | j, .field f :: xs => by
    simp only [itemsErrs, List.mem_append, mem_itemsErrs j xs, itemErrs, mem_fieldErrs, fieldsFrom, bodyExts, bodyEnums, bodyOneofs,
      bodyMsgs, itemMsgs, List.flatMap_cons, List.filterMap_cons, List.mem_cons, List.nil_append, or_and_right, exists_or, exists_eq_left,
      Place.scope]
    exact Iff.of_eq (by ac_rfl)
  | j, .enum e :: xs => by
    simp only [itemsErrs, List.mem_append, mem_itemsErrs j xs, itemErrs, fieldsFrom, bodyExts, bodyEnums, bodyOneofs,
      bodyMsgs, itemMsgs, List.flatMap_cons, List.filterMap_cons, List.mem_cons, List.nil_append, or_and_right, exists_or, exists_eq_left]
    exact Iff.of_eq (by ac_rfl)
  | j, .message m :: xs => by
    simp only [itemsErrs, List.mem_append, mem_itemsErrs j xs, itemErrs, mem_messageErrs, fieldsFrom, bodyExts, bodyEnums, bodyOneofs,
      bodyMsgs, itemMsgs, List.flatMap_cons, List.filterMap_cons, List.mem_cons, List.nil_append, or_and_right, exists_or, exists_eq_left,
      List.not_mem_nil, or_false]
    exact Iff.of_eq (by ac_rfl)
  | j, .extend e :: xs => by
    simp only [itemsErrs, List.mem_append, mem_itemsErrs j xs, itemErrs, mem_extendErrs, fieldsFrom, bodyExts, bodyEnums, bodyOneofs,
      bodyMsgs, itemMsgs, List.flatMap_cons, List.filterMap_cons, List.mem_cons, List.nil_append, or_and_right, exists_or, exists_eq_left]
    exact Iff.of_eq (by ac_rfl)
  | j, .oneof o :: xs => by
    have hmap : ∀ P : Place × Field → Prop, (∃ y, y ∈ o.fields.map (fun f => (Place.oneof j, f)) ∧ P y) ↔
        ∃ x ∈ o.fields, P (.oneof j, x) := by
      intro P
      simp only [List.mem_map]
      constructor
      · rintro ⟨_, ⟨x, hx, rfl⟩, h⟩; exact ⟨x, hx, h⟩
      · rintro ⟨x, hx, h⟩; exact ⟨_, ⟨x, hx, rfl⟩, h⟩
    simp only [itemsErrs, List.mem_append, mem_itemsErrs (j + 1) xs, itemErrs, mem_oneofErrs, fieldsFrom, bodyExts, bodyEnums, bodyOneofs,
      bodyMsgs, itemMsgs, List.flatMap_cons, List.filterMap_cons, List.mem_cons, List.nil_append, or_and_right, exists_or, exists_eq_left,
      hmap, Place.scope]
    exact Iff.of_eq (by ac_rfl)

theorem mem_enumErrs {e : Enum} {k} : k ∈ enumErrs e ↔
    (∃ v ∈ e.values, ¬ IsEnumNumber v.number ∧ k = .invalidEnumNumber v.number.span) ∨
    (∃ v ∈ e.values, ∃ o ∈ listed v.options, BadOption o k) ∨
    (∃ r ∈ reservedRanges e.reserved, BadRange IsEnumNumber .invalidEnumNumber r k) ∨ ∃ o ∈ e.options, BadOption o.body k := by
  simp only [enumErrs, enumValueErrs, List.mem_append, List.mem_flatMap, mem_enumNumberErrs, mem_optListErrs, mem_enumRangeErrs,
    mem_optsErrs, allRanges_eq, and_or_left, exists_or]
  exact Iff.of_eq (by ac_rfl)

theorem mem_serviceErrs {x : Service} {k} : k ∈ serviceErrs x ↔
    (∃ m ∈ x.methods, ∃ o ∈ m.options, BadOption o.body k) ∨ ∃ o ∈ x.options, BadOption o.body k := by
  simp only [serviceErrs, List.mem_append, List.mem_flatMap, mem_optsErrs]

theorem mem_bodyErrs {s k} {b : MessageBody} : k ∈ bodyErrs s b ↔
    ((∃ y ∈ bodyFields b, k ∈ ownErrs s y.1.scope y.2) ∨ (∃ y ∈ bodyExts b, k ∈ ownErrs s y.1.scope y.2) ∨
    (∃ e ∈ bodyEnums b, k ∈ enumErrs e) ∨
    (∃ o ∈ bodyOneofs b, k ∈ optsErrs o.options ∨ o.fields = [] ∧ k = .emptyOneof o.span) ∨
    ∃ m ∈ bodyMsgs b, k ∈ srcErrs s m) ∨
    (∃ r ∈ reservedRanges b.reserved, BadRange IsFieldNumber .invalidMessageNumber r k) ∨
    (∃ r os, (r, os) ∈ extensionRanges b.extensions ∧ (BadRange IsFieldNumber .invalidMessageNumber r k ∨
      ∃ o ∈ listed os, BadOption o k)) ∨ ∃ o ∈ b.options, BadOption o.body k := by
  rcases b with ⟨items, exts, opts, res⟩
  have he : (k ∈ (allExtRanges exts).flatMap fun x => extRangeErrs x.1 x.2) ↔
      ∃ r os, (r, os) ∈ extensionRanges exts ∧ (BadRange IsFieldNumber .invalidMessageNumber r k ∨
        ∃ o ∈ listed os, BadOption o k) := by
    simp only [allExtRanges, extensionRanges, List.mem_flatMap, List.mem_map, extRangeErrs, List.mem_append, mem_optListErrs,
      mem_rangeErrs]
    constructor
    · rintro ⟨_, ⟨e, he, r', hr, rfl⟩, h⟩
      exact ⟨_, e.options, ⟨e, he, _, hr, rfl⟩, h.symm⟩
    · rintro ⟨_, _, ⟨e, he, r, hr, h'⟩, h⟩
      cases h'
      exact ⟨_, ⟨e, he, _, hr, rfl⟩, h.symm⟩
  unfold bodyErrs
  rw [List.mem_append, List.mem_append, List.mem_append, mem_itemsErrs 0, he, mem_optsErrs, List.mem_flatMap, or_assoc, or_assoc]
  simp only [mem_rangeErrs]
  rfl

theorem field_lt {x : Field} {m b} (h : m ∈ fieldMsgs x) (hb : m.body = some b) : sizeOf b < sizeOf x := by
  rcases x with ⟨l, n, kd, nu, o, c, sp⟩
  cases kd with
  | normal => cases h
  | map => cases List.mem_singleton.1 h; cases hb
  | group t b' =>
    cases List.mem_singleton.1 h
    cases hb
    simp only [Field.mk.sizeOf_spec, FieldKind.group.sizeOf_spec]
    omega

theorem fields_lt {fs : List Field} {m b} (h : m ∈ fs.flatMap fieldMsgs) (hb : m.body = some b) : sizeOf b < sizeOf fs := by
  obtain ⟨x, hx, h⟩ := List.mem_flatMap.1 h
  have h1 := field_lt h hb
  have h2 := List.sizeOf_lt_of_mem hx
  omega

theorem body_lt {b : MessageBody} {m b'} (h : m ∈ bodyMsgs b) (hb : m.body = some b') : sizeOf b' < sizeOf b := by
  rcases b with ⟨items, exts, opts, res⟩
  obtain ⟨x, hx, h⟩ := List.mem_flatMap.1 h
  have h2 := List.sizeOf_lt_of_mem hx
  have h3 : sizeOf b' < sizeOf x := by
    cases x with
    | field f => have := field_lt h hb; simp only [MessageItem.field.sizeOf_spec]; omega
    | enum => cases h
    | message m' =>
      cases List.mem_singleton.1 h
      cases hb
      rcases m' with ⟨n, b, c, sp⟩
      simp only [MessageItem.message.sizeOf_spec, Message.mk.sizeOf_spec]
      omega
    | extend e =>
      have := fields_lt h hb
      rcases e with ⟨t, fs, c, sp⟩
      simp only [MessageItem.extend.sizeOf_spec, Extend.mk.sizeOf_spec] at this ⊢
      omega
    | oneof e =>
      have := fields_lt h hb
      rcases e with ⟨t, os, fs, c, sp⟩
      simp only [MessageItem.oneof.sizeOf_spec, Oneof.mk.sizeOf_spec] at this ⊢
      omega
  simp only [MessageBody.mk.sizeOf_spec]
  simp only at h2
  omega

/-! ### The file -/

section
variable {f : File} (hown : ∀ pl x k, FieldWritten f pl x → (k ∈ ownErrs f.syntax' pl.scope x ↔ BadField f.syntax' pl x k))
include hown

theorem enum_violation {e k} (he : EnumWritten f e) (h : k ∈ enumErrs e) : Violation f k := by
  rcases mem_enumErrs.1 h with ⟨v, hv, h', rfl⟩ | ⟨v, hv, o, ho, h⟩ | ⟨r, hr, h⟩ | ⟨o, ho, h⟩
  · exact .enumNumber he hv h'
  · exact .enumValueOption he hv ho h
  · exact .enumRange he hr h
  · exact .enumOption he ho h

theorem src_violation {k} : ∀ (n : Nat) (m : MsgSrc) (b : MessageBody), sizeOf b ≤ n → MsgWritten f m → m.body = some b →
    k ∈ bodyErrs f.syntax' b → Violation f k
  | 0, _, b, hn, _, _, _ => by cases b; simp at hn
  | n + 1, m, b, hn, hm, hb, h => by
    have hw : BodyWritten f b := ⟨m, hm, hb⟩
    rcases mem_bodyErrs.1 h with (⟨y, hy, h⟩ | ⟨y, hy, h⟩ | ⟨e, he, h⟩ | ⟨o, ho, h | ⟨h', rfl⟩⟩ | ⟨m', hm', h⟩) | ⟨r, hr, h⟩ |
      ⟨r, os, hr, h | ⟨o, ho, h⟩⟩ | ⟨o, ho, h⟩
    · have hf := FieldWritten.field hw hy
      exact .field hf ((hown _ _ _ hf).1 h)
    · have hf := FieldWritten.ext hw hy
      exact .field hf ((hown _ _ _ hf).1 h)
    · exact enum_violation hown (.nested hw he) h
    · obtain ⟨p, hp, h⟩ := mem_optsErrs.1 h
      exact .oneofOption hw ho hp h
    · exact .emptyOneof hw ho h'
    · unfold srcErrs at h
      cases hb' : m'.body with
      | none => rw [hb'] at h; cases h
      | some b' =>
        rw [hb'] at h
        have := body_lt hm' hb'
        exact src_violation n m' b' (by omega) (.nested hm hb hm') hb' h
    · exact .reservedRange hw hr h
    · exact .extensionRange hw hr h
    · exact .extensionOption hw hr ho h
    · exact .messageOption hw ho h

theorem file_violation {k} : k ∈ fileErrs f ↔ Violation f k := by
  have hsrc : ∀ m, MsgWritten f m → k ∈ srcErrs f.syntax' m → Violation f k := by
    intro m hm h
    unfold srcErrs at h
    cases hb : m.body with
    | none => rw [hb] at h; cases h
    | some b => rw [hb] at h; exact src_violation hown _ m b (Nat.le_refl _) hm hb h
  constructor
  · intro h
    rcases List.mem_append.1 h with h | h
    · obtain ⟨x, hx, h⟩ := List.mem_flatMap.1 h
      cases x with
      | message m =>
        exact hsrc (.message m) (.top (List.mem_flatMap.2 ⟨_, hx, .head _⟩)) (mem_messageErrs.1 h)
      | enum e => exact enum_violation hown (.top (List.mem_filterMap.2 ⟨_, hx, rfl⟩)) h
      | service x =>
        have hs : x ∈ Spec.fileServices f := List.mem_filterMap.2 ⟨_, hx, rfl⟩
        rcases mem_serviceErrs.1 h with ⟨m, hm, o, ho, h⟩ | ⟨o, ho, h⟩
        · exact .methodOption hs hm ho h
        · exact .serviceOption hs ho h
      | extend e =>
        rcases mem_extendErrs.1 h with ⟨y, hy, h⟩ | ⟨m, hm, h⟩
        · have hf : FieldWritten f y.1 y.2 := .fileExt (List.mem_flatMap.2 ⟨_, hx, hy⟩)
          exact .field hf ((hown _ _ _ hf).1 h)
        · exact hsrc m (.top (List.mem_flatMap.2 ⟨_, hx, hm⟩)) h
    · obtain ⟨o, ho, h⟩ := mem_optsErrs.1 h
      exact .fileOption ho h
  · have hitem : ∀ x ∈ f.items, k ∈ fileItemErrs f.syntax' x → k ∈ fileErrs f := fun x hx h =>
      List.mem_append_left _ (List.mem_flatMap.2 ⟨x, hx, h⟩)
    have hmsg : ∀ m, MsgWritten f m → k ∈ srcErrs f.syntax' m → k ∈ fileErrs f := by
      intro m hm
      induction hm with
      | top h =>
        intro hk
        obtain ⟨x, hx, h⟩ := List.mem_flatMap.1 h
        cases x with
        | message m => cases List.mem_singleton.1 h; exact hitem _ hx (mem_messageErrs.2 hk)
        | extend e => exact hitem _ hx (mem_extendErrs.2 (.inr ⟨_, h, hk⟩))
        | enum => cases h
        | service => cases h
      | nested hm hb h ih =>
        intro hk
        refine ih ?_
        unfold srcErrs
        rw [hb]
        exact mem_bodyErrs.2 (.inl (.inr (.inr (.inr (.inr ⟨_, h, hk⟩)))))
    have hbody : ∀ b, BodyWritten f b → k ∈ bodyErrs f.syntax' b → k ∈ fileErrs f := by
      rintro b ⟨m, hm, hb⟩ h
      refine hmsg m hm ?_
      unfold srcErrs
      rw [hb]
      exact h
    have henum : ∀ e, EnumWritten f e → k ∈ enumErrs e → k ∈ fileErrs f := by
      intro e he h
      cases he with
      | top he =>
        obtain ⟨x, hx, he⟩ := List.mem_filterMap.1 he
        cases x with
        | enum => cases he; exact hitem _ hx h
        | _ => cases he
      | nested hb he => exact hbody _ hb (mem_bodyErrs.2 (.inl (.inr (.inr (.inl ⟨e, he, h⟩)))))
    have hserv : ∀ x ∈ Spec.fileServices f, k ∈ serviceErrs x → k ∈ fileErrs f := by
      intro x hx h
      obtain ⟨y, hy, he⟩ := List.mem_filterMap.1 hx
      cases y with
      | service => cases he; exact hitem _ hy h
      | _ => cases he
    intro h
    cases h with
    | @field pl x _ hf h =>
      have h := (hown _ _ _ hf).2 h
      cases hf with
      | field hb hx => exact hbody _ hb (mem_bodyErrs.2 (.inl (.inl ⟨_, hx, h⟩)))
      | ext hb hx => exact hbody _ hb (mem_bodyErrs.2 (.inl (.inr (.inl ⟨_, hx, h⟩))))
      | fileExt hx =>
        obtain ⟨i, hi, hx⟩ := List.mem_flatMap.1 hx
        cases i with
        | extend e => exact hitem _ hi (mem_extendErrs.2 (.inl ⟨_, hx, h⟩))
        | _ => cases hx
    | reservedRange hb hr h => exact hbody _ hb (mem_bodyErrs.2 (.inr (.inl ⟨_, hr, h⟩)))
    | extensionRange hb hr h => exact hbody _ hb (mem_bodyErrs.2 (.inr (.inr (.inl ⟨_, _, hr, .inl h⟩))))
    | extensionOption hb hr ho h => exact hbody _ hb (mem_bodyErrs.2 (.inr (.inr (.inl ⟨_, _, hr, .inr ⟨_, ho, h⟩⟩))))
    | messageOption hb ho h => exact hbody _ hb (mem_bodyErrs.2 (.inr (.inr (.inr ⟨_, ho, h⟩))))
    | emptyOneof hb ho h =>
      exact hbody _ hb (mem_bodyErrs.2 (.inl (.inr (.inr (.inr (.inl ⟨_, ho, .inr ⟨h, rfl⟩⟩))))))
    | oneofOption hb hx ho h =>
      exact hbody _ hb (mem_bodyErrs.2 (.inl (.inr (.inr (.inr (.inl ⟨_, hx, .inl (mem_optsErrs.2 ⟨_, ho, h⟩)⟩))))))
    | enumNumber he hv h => exact henum _ he (mem_enumErrs.2 (.inl ⟨_, hv, h, rfl⟩))
    | enumRange he hr h => exact henum _ he (mem_enumErrs.2 (.inr (.inr (.inl ⟨_, hr, h⟩))))
    | enumValueOption he hv ho h => exact henum _ he (mem_enumErrs.2 (.inr (.inl ⟨_, hv, _, ho, h⟩)))
    | enumOption he ho h => exact henum _ he (mem_enumErrs.2 (.inr (.inr (.inr ⟨_, ho, h⟩))))
    | methodOption hx hm ho h => exact hserv _ hx (mem_serviceErrs.2 (.inl ⟨_, hm, _, ho, h⟩))
    | serviceOption hx ho h => exact hserv _ hx (mem_serviceErrs.2 (.inr ⟨_, ho, h⟩))
    | fileOption ho h => exact List.mem_append_right _ (mem_optsErrs.2 ⟨_, ho, h⟩)

end

/-- The errors of a syntax tree of a source, with places within the source, are its violations of the rules. -/
theorem fileErrs_violations [FloatFmt] {src : Bytes} {f : File} (ht : TreeOf src f) (hin : f.In src.length) {k} :
    k ∈ fileErrs f ↔ Violation f k := by
  refine file_violation ?_
  intro pl x k hf
  obtain ⟨p, d, hat⟩ := fieldWritten_at hf
  have hx := (fieldAt_in hin hat).2
  have ho : optListIn 0 src.length x.options := by
    rcases x with ⟨l, n, kd, nu, o, c, sp⟩; exact hx.2.2.2.2.1
  exact mem_ownErrs ho fun o ho i hi => default_int_lt ht hat ho hi

end Verif.Gen
