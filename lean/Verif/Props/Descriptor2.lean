import Verif.Props.Descriptor
import Verif.Proofs.Derive
import Verif.Proofs.TokGood
/-!
What a descriptor returned by `parse` contains: fields, oneofs, maps, groups, labels and options (C35, C38–C41, C45,
C52).
-/
namespace Verif
open Verif.Spec Verif.Ast Verif.Gen

section
variable [FloatFmt] [LocSort]

theorem field_parts {name f fd} (hm : Made name f fd) {p pl x d} (hf : FieldAt f fd p pl x d) :
    d.name = some (kindName x.kind x.name.value) ∧ d.label = kindLabel f.syntax' pl.scope x.label x.kind ∧
    d.type = kindType x.kind ∧ d.typeName = kindTypeName x.kind x.name.value ∧
    d.defaultValue = kindDefault x.kind (dfltOf x.options) ∧ d.options = optListDesc (opts2 x.options) ∧
    d.jsonName = ((jsonOf x.options).bind fun o => stringDefault o.value) ∧
    d.proto3Optional = (if isP3 f.syntax' x.label then some true else none) ∧
    (d.extendee = match pl with | .extend t => some (tname t) | _ => none) := by
  obtain ⟨y, rfl⟩ := hm.fieldAt hf
  cases pl <;> exact ⟨rfl, rfl, rfl, rfl, rfl, rfl, rfl, rfl, rfl⟩

theorem field_errs {name f fd} (hm : Made name f fd) {p pl x d} (hf : FieldAt f fd p pl x d) :
    messageNumberErrs x.number = [] ∧ defaultCheckErrs f.syntax' x.label (isMap x.kind) (dfltOf x.options) = [] ∧
    kindErrs f.syntax' pl.scope x.label x.span (dfltOf x.options) x.kind = [] ∧ tailErrs x.options = [] := by
  have he := hm.field_errs hf
  rcases x with ⟨l, n, k, nu, o, c, sp⟩
  simp only [fieldErrs, List.append_eq_nil_iff] at he
  exact ⟨he.1.1.1, he.1.1.2, he.1.2, he.2⟩

/-! ### C35 and the defaults -/

theorem asI64_fits (i : Int') (n : Int) : i.asI64 = some n ↔ n = i.toInt ∧ -(2 ^ 63) ≤ i.toInt ∧ i.toInt ≤ 2 ^ 63 - 1 := by
  unfold Int'.asI64 Int'.toInt tryI64
  by_cases hn : i.negative = true
  · simp only [hn, ↓reduceIte]
    by_cases h1 : i.value = 9223372036854775807 + 1
    · simp [h1]; omega
    · rw [if_neg h1]
      by_cases h2 : i.value ≤ 9223372036854775807
      · simp [h2]; omega
      · simp [h2]; omega
  · simp only [hn]
    by_cases h2 : i.value ≤ 9223372036854775807
    · simp [h2]; omega
    · simp [h2]; omega

theorem asI32_fits (i : Int') (n : Int) : i.asI32 = some n ↔ n = i.toInt ∧ -(2 ^ 31) ≤ i.toInt ∧ i.toInt ≤ 2 ^ 31 - 1 := by
  unfold Int'.asI32 Int'.toInt tryI32
  by_cases hn : i.negative = true
  · simp only [hn, ↓reduceIte]
    by_cases h1 : i.value = 2147483647 + 1
    · simp [h1]; omega
    · rw [if_neg h1]
      by_cases h2 : i.value ≤ 2147483647
      · simp [h2]; omega
      · simp [h2]; omega
  · simp only [hn]
    by_cases h2 : i.value ≤ 2147483647
    · simp [h2]; omega
    · simp [h2]; omega

theorem intG_lt {t : List Token} {i : Int'} (h : Grammar.IntG t i) (ht : ∀ x ∈ t, TokGood x) : i.value < 2 ^ 64 := by
  cases h with
  | pos => exact ht _ (.head _)
  | neg => exact ht _ (.tail _ (.head _))

/-- The options of a field are derived from tokens of the source, so their integers are below 2^64. -/
theorem default_int_lt {src f fd p pl x d} (ht : TreeOf src f) (hf : FieldAt f fd p pl x d) {o : OptionBody} {i : Int'}
    (ho : o ∈ listed x.options) (hi : o.value = .int i) : i.value < 2 ^ 64 := by
  obtain ⟨ts, hs, hg⟩ := ht
  obtain ⟨t, htt, hx⟩ := (fieldAt_from hg hf).2
  obtain ⟨t', ht', hl⟩ := (aField_options hx).1
  have hl' : ∀ l, listed l = listed' l := by intro l; cases l <;> rfl
  obtain ⟨t'', ht'', hb⟩ := optList_mem hl o (hl' _ ▸ ho)
  have hgood := sigToks_good hs
  cases hb with
  | @mk ns _ vs v h1 h2 =>
    simp only at hi
    subst hi
    cases h2 with
    | int h3 => exact intG_lt h3 fun y hy => hgood y (htt.subset (ht'.subset (ht''.subset (by simp [hy]))))

theorem asU64_fits (i : Int') (h : i.value < 2 ^ 64) (n : Int) : i.asU64 = some n ↔
    n = i.toInt ∧ 0 ≤ i.toInt ∧ i.toInt ≤ 2 ^ 64 - 1 ∧ i.negative = false := by
  unfold Int'.asU64 Int'.toInt
  cases hn : i.negative <;> simp <;> omega

theorem asU32_fits (i : Int') (n : Int) : i.asU32 = some n ↔
    n = i.toInt ∧ 0 ≤ i.toInt ∧ i.toInt ≤ 2 ^ 32 - 1 ∧ i.negative = false := by
  unfold Int'.asU32 Int'.toInt
  cases hn : i.negative
  · by_cases h2 : i.value ≤ 4294967295
    · simp [h2]; omega
    · simp [h2]; omega
  · simp

theorem integerDefault_ok {c : IntSort} {v : OptionValue} (h : integerErrs c v = []) :
    ∃ i n, v = .int i ∧ c.conv i = some n ∧ integerDefault c.conv v = some (decimalInt n) := by
  cases v with
  | int i =>
    simp only [integerErrs] at h
    cases hc : c.conv i with
    | none => rw [hc] at h; simp at h
    | some n => exact ⟨i, n, rfl, hc, by simp [integerDefault, hc]⟩
  | _ => simp [integerErrs] at h

theorem integer_default {t : Ty} {v : OptionValue} (hi : (integerBounds t).isSome) (h : scalarErrs t v = [])
    (hlt : ∀ i, v = .int i → i.value < 2 ^ 64) :
    ∃ i, v = .int i ∧ FitsIn t i ∧ ∃ s, scalarDefault t v = some s ∧ CanonicalDecimal s i.toInt := by
  have k32 : integerErrs .i32 v = [] → integerBounds t = some (-(2 ^ 31), 2 ^ 31 - 1) →
      ∃ i, v = .int i ∧ FitsIn t i ∧ ∃ s, integerDefault Int'.asI32 v = some s ∧ CanonicalDecimal s i.toInt := by
    intro h hb
    obtain ⟨i, n, rfl, hc, hd⟩ := integerDefault_ok h
    obtain ⟨rfl, h1, h2⟩ := (asI32_fits i n).1 hc
    exact ⟨i, rfl, ⟨_, hb, h1, h2, fun h0 => by simp at h0⟩, _, hd, decimalInt_canonical _⟩
  have k64 : integerErrs .i64 v = [] → integerBounds t = some (-(2 ^ 63), 2 ^ 63 - 1) →
      ∃ i, v = .int i ∧ FitsIn t i ∧ ∃ s, integerDefault Int'.asI64 v = some s ∧ CanonicalDecimal s i.toInt := by
    intro h hb
    obtain ⟨i, n, rfl, hc, hd⟩ := integerDefault_ok h
    obtain ⟨rfl, h1, h2⟩ := (asI64_fits i n).1 hc
    exact ⟨i, rfl, ⟨_, hb, h1, h2, fun h0 => by simp at h0⟩, _, hd, decimalInt_canonical _⟩
  have u32 : integerErrs .u32 v = [] → integerBounds t = some (0, 2 ^ 32 - 1) →
      ∃ i, v = .int i ∧ FitsIn t i ∧ ∃ s, integerDefault Int'.asU32 v = some s ∧ CanonicalDecimal s i.toInt := by
    intro h hb
    obtain ⟨i, n, rfl, hc, hd⟩ := integerDefault_ok h
    obtain ⟨rfl, h1, h2, h3⟩ := (asU32_fits i n).1 hc
    exact ⟨i, rfl, ⟨_, hb, h1, h2, fun _ => h3⟩, _, hd, decimalInt_canonical _⟩
  have u64 : integerErrs .u64 v = [] → integerBounds t = some (0, 2 ^ 64 - 1) →
      ∃ i, v = .int i ∧ FitsIn t i ∧ ∃ s, integerDefault Int'.asU64 v = some s ∧ CanonicalDecimal s i.toInt := by
    intro h hb
    obtain ⟨i, n, rfl, hc, hd⟩ := integerDefault_ok h
    obtain ⟨rfl, h1, h2, h3⟩ := (asU64_fits i (hlt i rfl) n).1 hc
    exact ⟨i, rfl, ⟨_, hb, h1, h2, fun _ => h3⟩, _, hd, decimalInt_canonical _⟩
  cases t with
  | int32 | sint32 | sfixed32 => exact k32 h rfl
  | int64 | sint64 | sfixed64 => exact k64 h rfl
  | uint32 | fixed32 => exact u32 h rfl
  | uint64 | fixed64 => exact u64 h rfl
  | _ => cases hi

/-- The conversions of integer literals to the integer types succeed exactly if the literal fits. -/
theorem scalarErrs_integer {t : Ty} (hi : (integerBounds t).isSome) (i : Int') (hlt : i.value < 2 ^ 64) :
    scalarErrs t (.int i) = [] ↔ FitsIn t i := by
  have key : ∀ (c : IntSort) (lo hi : Int) (h0 : integerBounds t = some (lo, hi)),
      (∀ n, c.conv i = some n ↔ n = i.toInt ∧ lo ≤ i.toInt ∧ i.toInt ≤ hi ∧ (lo = 0 → i.negative = false)) →
      (integerErrs c (.int i) = [] ↔ FitsIn t i) := by
    intro c lo hi h0 hc
    simp only [integerErrs]
    constructor
    · intro h
      cases h1 : c.conv i with
      | none => rw [h1] at h; simp at h
      | some n => obtain ⟨_, h2, h3, h4⟩ := (hc n).1 h1; exact ⟨_, h0, h2, h3, h4⟩
    · rintro ⟨b, hb, h2, h3, h4⟩
      rw [h0] at hb; cases hb
      rw [(hc i.toInt).2 ⟨rfl, h2, h3, h4⟩]; simp
  cases t with
  | int32 | sint32 | sfixed32 => exact key .i32 _ _ rfl fun n => by rw [show IntSort.i32.conv = Int'.asI32 from rfl, asI32_fits]; simp
  | int64 | sint64 | sfixed64 => exact key .i64 _ _ rfl fun n => by rw [show IntSort.i64.conv = Int'.asI64 from rfl, asI64_fits]; simp
  | uint32 | fixed32 => exact key .u32 _ _ rfl fun n => by rw [show IntSort.u32.conv = Int'.asU32 from rfl, asU32_fits]; simp
  | uint64 | fixed64 => exact key .u64 _ _ rfl fun n => by rw [show IntSort.u64.conv = Int'.asU64 from rfl, asU64_fits _ hlt]; simp
  | _ => cases hi

/-- C35: a `default` on an accepted field of an integer type is an integer literal that fits the type, and
`default_value` is its canonical decimal text. -/
theorem C35_integer_defaults {name src : Bytes} {fd} (h : parse name src = some (.ok fd)) :
    ForTree src fun f => Paired f fd ∧ ∀ p pl x d t sp o, FieldAt f fd p pl x d → x.kind = .normal t sp →
      (integerBounds t).isSome → (listed x.options).find? (named b!"default") = some o →
      ∃ i, o.value = .int i ∧ FitsIn t i ∧ ∃ s, d.defaultValue = some s ∧ CanonicalDecimal s i.toInt := by
  refine forTree h fun f ht hm => ⟨hm.paired, fun p pl x d t sp o hf hk hi ho => ?_⟩
  have he := (field_errs hm hf).2.2.1
  have hd := (field_parts hm hf).2.2.2.2.1
  have hdf : dfltOf x.options = some o := by rw [dfltOf, pick_eq]; exact ho
  rw [hk, hdf] at he hd
  simp only [kindErrs, scalarDfltErrs, List.append_eq_nil_iff] at he
  obtain ⟨i, h1, h2, s, h3, h4⟩ := integer_default hi he.2
    fun i hi => default_int_lt ht hf (List.mem_of_find?_eq_some ho) hi
  refine ⟨i, h1, h2, s, ?_, h4⟩
  rw [hd, ← h3]
  cases t <;> first | rfl | cases hi

/-- C35, the other direction: checking the default value of an integer field (from any context) reports no error exactly
if the value is an integer literal that fits the type. -/
theorem C35_accepted_iff (t : Ty) (ht : (integerBounds t).isSome) (v : OptionValue)
    (hlt : ∀ i, v = .int i → i.value < 2 ^ 64) (env : Gen.Env) (c : Gen.Ctx) :
    ∃ r c', genFieldDefaultValue (typeNumber t) v env c = some (r, c') ∧
      (c'.errors = c.errors ↔ ∃ i, v = .int i ∧ FitsIn t i) := by
  have hrun : ∀ k : IntSort, genIntegerDefault k v env c =
      some (integerDefault k.conv v, { c with errors := c.errors ++ integerErrs k v }) := by
    intro k
    cases v with
    | int i =>
      cases hc : k.conv i <;>
        simp [genIntegerDefault, genIntDefault, integerDefault, integerErrs, hc, err, pure, bind]
    | _ => simp [genIntegerDefault, integerDefault, integerErrs, err, pure, bind]
  have hcond : scalarErrs t v = [] ↔ ∃ i, v = .int i ∧ FitsIn t i := by
    constructor
    · intro h; obtain ⟨i, h1, h2, _⟩ := integer_default ht h hlt; exact ⟨i, h1, h2⟩
    · rintro ⟨i, rfl, h2⟩; exact (scalarErrs_integer ht i (hlt i rfl)).2 h2
  have : ∃ conv, genFieldDefaultValue (typeNumber t) v = genIntegerDefault conv v ∧ scalarErrs t v = integerErrs conv v := by
    cases t with
    | int32 | sint32 | sfixed32 => exact ⟨_, rfl, rfl⟩
    | int64 | sint64 | sfixed64 => exact ⟨_, rfl, rfl⟩
    | uint32 | fixed32 => exact ⟨_, rfl, rfl⟩
    | uint64 | fixed64 => exact ⟨_, rfl, rfl⟩
    | _ => cases ht
  obtain ⟨conv, h1, h2⟩ := this
  refine ⟨_, _, (congrFun (congrFun h1 env) c).trans (hrun conv), ?_⟩
  rw [← hcond, h2]
  simp

/-! ### C38 -/

theorem synthetic_eq (s : Syntax') (x : Place × Field) : synthetic s x = IsProto3Optional s x := by
  rcases x with ⟨pl, x⟩
  unfold synthetic IsProto3Optional isP3
  cases pl <;> simp <;> (try cases s <;> rfl)
  cases h : x.label with
  | none => cases s <;> simp
  | some l => obtain ⟨l, sp⟩ := l; cases s <;> cases l <;> simp

theorem itemsOneofs_eq (b : MessageBody) : itemsOneofs b.items = (bodyOneofs b).map oneofDesc := by
  unfold bodyOneofs
  generalize b.items = xs
  induction xs with
  | nil => rfl
  | cons x xs ih => cases x <;> simp [itemsOneofs, ih]

theorem countOneofs_eq (b : MessageBody) : countOneofs b.items = (bodyOneofs b).length := by
  unfold bodyOneofs
  generalize b.items = xs
  induction xs with
  | nil => rfl
  | cons x xs ih => cases x <;> simp [countOneofs, ih]

theorem itemsSynth_eq (s : Syntax') : ∀ (k : Nat) (xs : List MessageItem), itemsSynth s xs =
    ((fieldsFrom k xs).filter (IsProto3Optional s)).map fun x => ⟨some (syntheticName x.2.name.value), none⟩
  | _, [] => rfl
  | k, .field g :: xs => by
    have : isP3 s g.label = IsProto3Optional s (.message, g) := synthetic_eq s (.message, g)
    simp only [itemsSynth, fieldsFrom, List.filter_cons, this, itemsSynth_eq s k xs, synthName_eq]
    split <;> simp
  | k, .oneof o :: xs => by
    have : (o.fields.map fun f => (Place.oneof k, f)).filter (IsProto3Optional s) = [] := by
      rw [List.filter_eq_nil_iff]
      intro a ha
      obtain ⟨g, _, rfl⟩ := List.mem_map.1 ha
      simp [← synthetic_eq, synthetic]
    simp only [itemsSynth, fieldsFrom, List.filter_append, this, List.nil_append, itemsSynth_eq s (k + 1) xs]
  | k, .enum _ :: xs => itemsSynth_eq s k xs
  | k, .message _ :: xs => itemsSynth_eq s k xs
  | k, .extend _ :: xs => itemsSynth_eq s k xs

theorem bodyFields_place {b : MessageBody} {x : Place × Field} (h : x ∈ bodyFields b) :
    x.1 = .message ∨ ∃ k o, x.1 = .oneof k ∧ (bodyOneofs b)[k]? = some o ∧ x.2 ∈ o.fields := by
  have key : ∀ (xs : List MessageItem) (k : Nat), x ∈ fieldsFrom k xs →
      x.1 = .message ∨ ∃ j o, x.1 = .oneof (k + j) ∧
        (xs.filterMap fun | .oneof o => some o | _ => none)[j]? = some o ∧ x.2 ∈ o.fields := by
    intro xs
    induction xs with
    | nil => intro k h; cases h
    | cons y ys ih =>
      intro k h
      cases y with
      | field g =>
        rcases List.mem_cons.1 h with rfl | h
        · exact .inl rfl
        · simpa using ih k h
      | oneof o =>
        simp only [fieldsFrom, List.mem_append, List.mem_map] at h
        rcases h with ⟨g, hg, rfl⟩ | h
        · exact .inr ⟨0, o, rfl, by simp, hg⟩
        · rcases ih (k + 1) h with h | ⟨j, o', h1, h2, h3⟩
          · exact .inl h
          · exact .inr ⟨j + 1, o', by rw [h1]; congr 1; omega, by simpa using h2, h3⟩
      | enum _ => simpa using ih k h
      | message _ => simpa using ih k h
      | extend _ => simpa using ih k h
  rcases key b.items 0 h with h | ⟨j, o, h1, h2, h3⟩
  · exact .inl h
  · exact .inr ⟨j, o, by simpa using h1, h2, h3⟩

/-- Fields of oneofs are without label, so never `proto3_optional`. -/
theorem oneof_label {name f fd} (hm : Made name f fd) {p k x d} (hf : FieldAt f fd p (.oneof k) x d) : x.label = none := by
  have he := (field_errs hm hf).2.2.1
  cases hk : x.kind with
  | normal t sp =>
    rw [hk] at he
    simp only [kindErrs, List.append_eq_nil_iff] at he
    cases hl : x.label with
    | none => rfl
    | some l => rw [hl] at he; simp [labelErrs, Place.scope] at he
  | group sp b =>
    rw [hk] at he
    simp only [kindErrs, groupErrs, List.append_eq_nil_iff] at he
    cases hl : x.label with
    | none => rfl
    | some l => rw [hl] at he; simp [labelErrs, Place.scope] at he
  | map => rw [hk] at he; simp [kindErrs, mapScopeErrs, Place.scope] at he

theorem _root_.Verif.Gen.Made.oneofs {name f fd} (hm : Made name f fd) {p s d b} (hat : MsgAt f fd p s d)
    (hb : s.body = some b) :
    d.oneofDecl.map (·.name) = (bodyOneofs b).map (fun o => some o.name.value) ++
      ((bodyFields b).filter (IsProto3Optional f.syntax')).map (fun x => some (syntheticName x.2.name.value)) ∧
    ∀ i x y, (bodyFields b)[i]? = some x → d.field[i]? = some y →
      y.oneofIndex = oneofIndexOf f.syntax' b i ∧
      y.proto3Optional = if IsProto3Optional f.syntax' x then some true else none := by
  refine ⟨?_, fun i x y hx hy => ?_⟩
  · rw [(hm.msgAt hat).1, (srcDesc_body hb).2.2.2.2.1, itemsOneofs_eq, itemsSynth_eq _ 0]
    simp [bodyFields, oneofDesc, Function.comp_def]
  · have hf : FieldAt f fd _ x.1 x.2 y := .field hat hb hx hy
    have hp3 := (field_parts hm hf).2.2.2.2.2.2.2.1
    rw [(hm.msgAt hat).1, (srcDesc_body hb).2.1, itemsFields_eq, placeDescs_get] at hy
    have hsy : synthetic f.syntax' = IsProto3Optional f.syntax' := funext (synthetic_eq _)
    change ((bodyFields b)[i]?).map _ = _ at hy
    rw [hx] at hy
    simp only [Option.map_some, Option.some.injEq] at hy
    rcases bodyFields_place (List.mem_of_getElem? hx) with hpl | ⟨k, o, hpl, _, _⟩
    · obtain ⟨pl, x⟩ := x
      simp only at hpl; subst hpl
      have hs : isP3 f.syntax' x.label = IsProto3Optional f.syntax' (.message, x) := synthetic_eq _ (.message, x)
      refine ⟨?_, by rw [hp3, hs]⟩
      rw [← hy]
      unfold oneofIndexOf
      rw [hx]
      simp only [placeDesc, fieldDesc, mkField, oneofIdx, hs, hsy, countOneofs_eq]
      rfl
    · obtain ⟨pl, x⟩ := x
      simp only at hpl; subst hpl
      have hl := oneof_label hm hf
      simp only at hl
      refine ⟨?_, ?_⟩
      · rw [← hy]; unfold oneofIndexOf; rw [hx]; rfl
      · rw [hp3]; simp only [hl, isP3]
        rw [← synthetic_eq]; rfl

/-- C38: the oneofs of a message are the written ones in order, followed by one for each proto3 `optional` field in
order; every field has the index of the oneof it belongs to, and exactly the proto3 `optional` fields are marked. -/
theorem C38_oneofs {name src : Bytes} {fd} (h : parse name src = some (.ok fd)) :
    ForTree src fun f => Paired f fd ∧ ∀ p s d b, MsgAt f fd p s d → s.body = some b →
      d.oneofDecl.map (·.name) = (bodyOneofs b).map (fun o => some o.name.value) ++
        ((bodyFields b).filter (IsProto3Optional f.syntax')).map (fun x => some (syntheticName x.2.name.value)) ∧
      ∀ i x y, (bodyFields b)[i]? = some x → d.field[i]? = some y →
        y.oneofIndex = oneofIndexOf f.syntax' b i ∧
        y.proto3Optional = if IsProto3Optional f.syntax' x then some true else none := by
  exact forTree h fun f ht hm => ⟨hm.paired, fun p s d b hat hb => hm.oneofs hat hb⟩

/-- The `j`th marked element of a list has `j` marked elements before it. -/
theorem filter_position {α : Type} (q : α → Bool) : ∀ (l : List α) (j : Nat), j < (l.filter q).length →
    ∃ i x, l[i]? = some x ∧ q x = true ∧ ((l.take i).filter q).length = j ∧ (l.filter q)[j]? = some x
  | [], j, h => by simp at h
  | a :: l, j, h => by
    by_cases ha : q a = true
    · rw [List.filter_cons, if_pos ha] at h ⊢
      cases j with
      | zero => exact ⟨0, a, rfl, ha, rfl, rfl⟩
      | succ j =>
        obtain ⟨i, x, h1, h2, h3, h4⟩ := filter_position q l j (by simpa using h)
        exact ⟨i + 1, x, by simpa using h1, h2, by simp [ha, h3], by simpa using h4⟩
    · rw [List.filter_cons, if_neg ha] at h ⊢
      obtain ⟨i, x, h1, h2, h3, h4⟩ := filter_position q l j h
      exact ⟨i + 1, x, by simpa using h1, h2, by simp [ha, h3], h4⟩

/-- Two positions with marked elements and as many marked elements before them are the same. -/
theorem filter_position_unique {α : Type} (q : α → Bool) {l : List α} {i j : Nat} {x y : α} (hi : l[i]? = some x)
    (hj : l[j]? = some y) (hx : q x = true) (hy : q y = true)
    (h : ((l.take i).filter q).length = ((l.take j).filter q).length) : i = j := by
  have key : ∀ {i j : Nat} {x : α}, l[i]? = some x → q x = true → i < j →
      ((l.take i).filter q).length < ((l.take j).filter q).length := by
    intro i j x hi hx hij
    have : l.take j = l.take (i + 1) ++ (l.take j).drop (i + 1) := by
      have := List.take_append_drop (i + 1) (l.take j)
      rw [List.take_take, Nat.min_eq_left (by omega)] at this
      exact this.symm
    rw [this, List.take_succ, hi]
    simp [hx]
  rcases Nat.lt_trichotomy i j with h1 | h1 | h1
  · have := key hi hx h1; omega
  · exact h1
  · have := key hj hy h1; omega

theorem count_lt {α : Type} (q : α → Bool) {l : List α} {i : Nat} {x : α} (hi : l[i]? = some x) (hx : q x = true) :
    ((l.take i).filter q).length < (l.filter q).length := by
  have : l = l.take i ++ x :: l.drop (i + 1) := by
    obtain ⟨h1, h2⟩ := List.getElem?_eq_some_iff.1 hi
    rw [← h2, ← List.drop_eq_getElem_cons h1, List.take_append_drop]
  have h2 : (l.filter q).length = ((l.take i).filter q).length + ((x :: l.drop (i + 1)).filter q).length := by
    conv => lhs; rw [this, List.filter_append, List.length_append]
  rw [h2, List.filter_cons, if_pos hx]
  simp

theorem oneof_field_mem {b : MessageBody} {k : Nat} {o : Oneof} {g : Field} (h : (bodyOneofs b)[k]? = some o)
    (hg : g ∈ o.fields) : (Place.oneof k, g) ∈ bodyFields b := by
  have key : ∀ (xs : List MessageItem) (m j : Nat),
      (xs.filterMap fun | .oneof o => some o | _ => none)[j]? = some o → (Place.oneof (m + j), g) ∈ fieldsFrom m xs := by
    intro xs
    induction xs with
    | nil => intro m j h; simp at h
    | cons y ys ih =>
      intro m j h
      cases y with
      | oneof o' =>
        simp only [List.filterMap_cons] at h
        simp only [fieldsFrom, List.mem_append, List.mem_map]
        cases j with
        | zero =>
          simp only [List.getElem?_cons_zero, Option.some.injEq] at h
          subst h
          exact .inl ⟨g, hg, rfl⟩
        | succ j =>
          right
          have := ih (m + 1) j (by simpa using h)
          rwa [show m + (j + 1) = m + 1 + j by omega]
      | field f =>
        simp only [List.filterMap_cons] at h
        exact .tail _ (ih m j h)
      | enum _ => simp only [List.filterMap_cons] at h; exact ih m j h
      | message _ => simp only [List.filterMap_cons] at h; exact ih m j h
      | extend _ => simp only [List.filterMap_cons] at h; exact ih m j h
  simpa [bodyFields] using key b.items 0 k h

theorem oneof_nonempty {name f fd} (hm : Made name f fd) {p s d b} (hat : MsgAt f fd p s d) (hb : s.body = some b)
    {o} (ho : o ∈ bodyOneofs b) : o.fields ≠ [] := by
  obtain ⟨i, hi, hio⟩ := List.mem_filterMap.1 ho
  have he := (bodyErrs_parts (hm.body_errs hat hb)).1 i hi
  cases i with
  | oneof o' =>
    simp only [Option.some.injEq] at hio; subst hio
    rcases o' with ⟨n, os, fs, c, sp⟩
    simp only [Gen.itemErrs, oneofErrs, List.append_eq_nil_iff] at he
    intro h0
    simp only at h0
    rw [h0] at he
    simp at he
  | _ => cases hio

/-- C38 for the descriptor alone: the first `r` oneofs of a message are ordinary, each has at least one field; every
later one is synthetic: it has exactly one field, that field is marked `proto3_optional`, and its name gives that of the
oneof. Every `oneof_index` is in bounds, and only fields in synthetic oneofs are marked. -/
theorem C38_indices {name src : Bytes} {fd} (h : parse name src = some (.ok fd)) :
    ∀ d, MsgIn fd d → ∃ r : Nat, r ≤ d.oneofDecl.length ∧
      (∀ y ∈ d.field, ∀ j, y.oneofIndex = some j → 0 ≤ j ∧ j < d.oneofDecl.length) ∧
      (∀ y ∈ d.field, y.proto3Optional = some true ↔ ∃ j : Nat, r ≤ j ∧ y.oneofIndex = some (j : Int)) ∧
      (∀ j : Nat, j < r → ∃ y ∈ d.field, y.oneofIndex = some (j : Int)) ∧
      (∀ j : Nat, r ≤ j → j < d.oneofDecl.length → ∃ (i : Nat) (y : FieldDescriptorProto) (n : Bytes), d.field[i]? = some y ∧ y.oneofIndex = some (j : Int) ∧
        y.name = some n ∧ d.oneofDecl[j]?.map (·.name) = some (some (syntheticName n)) ∧
        ∀ (i' : Nat) (y' : FieldDescriptorProto), d.field[i']? = some y' → y'.oneofIndex = some (j : Int) → i' = i) := by
  intro d hd
  obtain ⟨f, ht, hm, _⟩ := tree_of_ok h
  obtain ⟨p, s, hat⟩ := hm.msgIn hd
  cases hb : s.body with
  | none =>
    have he := hm.paired.entry p s d hat hb
    refine ⟨0, Nat.zero_le _, ?_, ?_, nofun, ?_⟩
    · intro y hy j hj
      rw [(hm.msgAt hat).1] at hy
      cases s with
      | map g k v =>
        simp only [srcDesc, entryOf, mapEntry, List.mem_cons, List.not_mem_nil, or_false] at hy
        rcases hy with rfl | rfl <;> cases hj
      | _ => cases hb
    · intro y hy
      rw [(hm.msgAt hat).1] at hy
      cases s with
      | map g k v =>
        simp only [srcDesc, entryOf, mapEntry, List.mem_cons, List.not_mem_nil, or_false] at hy
        rcases hy with rfl | rfl <;> simp
      | _ => cases hb
    · intro j _ hj
      rw [he.2.2.2.2.1] at hj; simp at hj
  | some b =>
    obtain ⟨hdecl, hidx⟩ : d.oneofDecl.map (·.name) = (bodyOneofs b).map (fun o => some o.name.value) ++
        ((bodyFields b).filter (IsProto3Optional f.syntax')).map (fun x => some (syntheticName x.2.name.value)) ∧
      ∀ i x y, (bodyFields b)[i]? = some x → d.field[i]? = some y →
        y.oneofIndex = oneofIndexOf f.syntax' b i ∧
        y.proto3Optional = if IsProto3Optional f.syntax' x then some true else none := by
      have := hm.oneofs hat hb
      exact this
    have hlen : d.oneofDecl.length = (bodyOneofs b).length +
        ((bodyFields b).filter (IsProto3Optional f.syntax')).length := by
      have := congrArg List.length hdecl
      simpa using this
    have hfl := (hm.paired.body p s d b hat hb).2.1
    -- every field of the descriptor is paired with a written one
    have hpair : ∀ (i : Nat) y, d.field[i]? = some y → ∃ x, (bodyFields b)[i]? = some x := by
      intro i y hy
      have : i < (bodyFields b).length := hfl ▸ (List.getElem?_eq_some_iff.1 hy).1
      exact ⟨_, List.getElem?_eq_getElem this⟩
    have hpair' : ∀ (i : Nat) x, (bodyFields b)[i]? = some x → ∃ y, d.field[i]? = some y := by
      intro i x hx
      have : i < d.field.length := hfl.symm ▸ (List.getElem?_eq_some_iff.1 hx).1
      exact ⟨_, List.getElem?_eq_getElem this⟩
    -- the three cases of a field
    have hcase : ∀ (i : Nat) x, (bodyFields b)[i]? = some x →
        (∃ k, k < (bodyOneofs b).length ∧ x.1 = .oneof k ∧ oneofIndexOf f.syntax' b i = some (k : Int) ∧
          IsProto3Optional f.syntax' x = false) ∨
        (x.1 = .message ∧ IsProto3Optional f.syntax' x = true ∧ oneofIndexOf f.syntax' b i =
          some (((bodyOneofs b).length + (((bodyFields b).take i).filter (IsProto3Optional f.syntax')).length : Nat) : Int)) ∨
        (IsProto3Optional f.syntax' x = false ∧ oneofIndexOf f.syntax' b i = none) := by
      intro i x hx
      rcases bodyFields_place (List.mem_of_getElem? hx) with hpl | ⟨k, o, hpl, ho, _⟩
      · obtain ⟨pl, x⟩ := x
        simp only at hpl; subst hpl
        cases hp : IsProto3Optional f.syntax' (.message, x) with
        | true => refine .inr (.inl ⟨rfl, rfl, ?_⟩); unfold oneofIndexOf; rw [hx]; simp only [hp, ↓reduceIte]
        | false => refine .inr (.inr ⟨rfl, ?_⟩); unfold oneofIndexOf; rw [hx]; simp [hp]
      · obtain ⟨pl, x⟩ := x
        simp only at hpl; subst hpl
        refine .inl ⟨k, (List.getElem?_eq_some_iff.1 ho).1, rfl, ?_, ?_⟩
        · unfold oneofIndexOf; rw [hx]
        · rw [← synthetic_eq]; rfl
    refine ⟨(bodyOneofs b).length, by omega, ?_, ?_, ?_, ?_⟩
    · intro y hy j hj
      obtain ⟨i, hi⟩ := List.mem_iff_getElem?.1 hy
      obtain ⟨x, hx⟩ := hpair i y hi
      rw [(hidx i x y hx hi).1] at hj
      rcases hcase i x hx with ⟨k, hk, _, h1, _⟩ | ⟨_, h0, h1⟩ | ⟨_, h1⟩
      · rw [h1] at hj; cases hj; rw [hlen]; omega
      · rw [h1] at hj; cases hj
        have := count_lt _ hx h0
        rw [hlen]; omega
      · rw [h1] at hj; cases hj
    · intro y hy
      obtain ⟨i, hi⟩ := List.mem_iff_getElem?.1 hy
      obtain ⟨x, hx⟩ := hpair i y hi
      obtain ⟨e1, e2⟩ := hidx i x y hx hi
      rw [e1, e2]
      rcases hcase i x hx with ⟨k, hk, _, h1, h0⟩ | ⟨_, h0, h1⟩ | ⟨h0, h1⟩
      · rw [h1, h0]
        constructor
        · simp
        · rintro ⟨j, hj, hj'⟩
          simp only [Option.some.injEq] at hj'; omega
      · rw [h1, h0]
        constructor
        · intro _; exact ⟨_, Nat.le_add_right _ _, rfl⟩
        · intro _; rfl
      · rw [h1, h0]; simp
    · intro j hj
      obtain ⟨g, hg⟩ := List.exists_mem_of_ne_nil _
        (oneof_nonempty hm hat hb (List.getElem_mem hj))
      have hmem := oneof_field_mem (List.getElem?_eq_getElem hj) hg
      obtain ⟨i, hi⟩ := List.mem_iff_getElem?.1 hmem
      obtain ⟨y, hy⟩ := hpair' i _ hi
      refine ⟨y, List.mem_of_getElem? hy, ?_⟩
      rw [(hidx i _ y hi hy).1]
      unfold oneofIndexOf; rw [hi]
    · intro j hj hjl
      obtain ⟨i, x, h1, h2, h3, h4⟩ := filter_position (IsProto3Optional f.syntax') (bodyFields b)
        (j - (bodyOneofs b).length) (by omega)
      obtain ⟨y, hy⟩ := hpair' i x h1
      have hix : ∀ (i : Nat) x y, (bodyFields b)[i]? = some x → d.field[i]? = some y → y.oneofIndex = some (j : Int) →
          IsProto3Optional f.syntax' x = true ∧
          (((bodyFields b).take i).filter (IsProto3Optional f.syntax')).length = j - (bodyOneofs b).length := by
        intro i x y hx hy hj'
        rw [(hidx i x y hx hy).1] at hj'
        rcases hcase i x hx with ⟨k, hk, _, g1, _⟩ | ⟨_, g0, g1⟩ | ⟨_, g1⟩
        · rw [g1] at hj'; simp only [Option.some.injEq] at hj'; omega
        · rw [g1] at hj'; simp only [Option.some.injEq] at hj'; exact ⟨g0, by omega⟩
        · rw [g1] at hj'; cases hj'
      have hmsg : x.1 = .message := by
        unfold IsProto3Optional at h2
        split at h2
        · assumption
        · cases h2
      have hf : FieldAt f fd _ x.1 x.2 y := .field hat hb h1 hy
      refine ⟨i, y, x.2.name.value, hy, ?_, ?_, ?_, ?_⟩
      · rw [(hidx i x y h1 hy).1]
        rcases hcase i x h1 with ⟨k, hk, _, g1, g0⟩ | ⟨_, g0, g1⟩ | ⟨g0, g1⟩
        · rw [g0] at h2; cases h2
        · rw [g1, h3]; congr 2; omega
        · rw [g0] at h2; cases h2
      · rw [(field_parts hm hf).1]
        have hg : ∀ sp bd, x.2.kind ≠ .group sp bd := by
          intro sp bd hk
          have he := (field_errs hm hf).2.2.1
          rw [hk] at he
          simp only [kindErrs, groupErrs, List.append_eq_nil_iff] at he
          have hs : f.syntax' = .proto3 := by
            unfold IsProto3Optional at h2
            split at h2
            · assumption
            · cases h2
          rw [hs] at he
          simp at he
        unfold kindName
        cases hk : x.2.kind with
        | group sp bd => exact absurd hk (hg sp bd)
        | _ => rfl
      · have := congrArg (·[j]?) hdecl
        rw [List.getElem?_append_right (by simpa using hj)] at this
        simp only [List.length_map, List.getElem?_map, h4, Option.map_some] at this
        exact this
      · intro i' y' hy' hj'
        obtain ⟨x', hx'⟩ := hpair i' y' hy'
        obtain ⟨g0, g1⟩ := hix i' x' y' hx' hy' hj'
        exact filter_position_unique _ hx' h1 g0 h2 (by rw [g1, h3])

end
end Verif
