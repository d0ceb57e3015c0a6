import Verif.Proofs.Source2
import Verif.Proofs.Accept
import Verif.Proofs.Demo
/-!
What a descriptor returned by `parse` contains: C33, C34, C35, C38, C39, C40, C41, C42, C45.

Every theorem speaks of the syntax trees `f` of the source (`TreeOf`: derived from its tokens in the grammar) whose
constructs correspond one to one to the elements of the descriptor (`Paired`).
-/
namespace Verif
open Verif.Spec Verif.Ast Verif.Gen

section
variable [FloatFmt] [LocSort]

theorem tree_of_ok {name src : Bytes} {fd} (h : parse name src = some (.ok fd)) :
    ∃ f, TreeOf src f ∧ Made name f fd ∧ f.In src.length := by
  obtain ⟨f, ts, hp⟩ := parsed_of_ok h
  exact ⟨f, hp.tree, hp.made, hp.spans⟩

/-- What holds of every tree the descriptor is made from. -/
theorem forTree {name src : Bytes} {fd} {P : File → Prop} (h : parse name src = some (.ok fd))
    (hP : ∀ f, TreeOf src f → Made name f fd → P f) : ForTree src P := by
  obtain ⟨f, ht, _⟩ := tree_of_ok h
  exact ⟨⟨f, ht⟩, fun f ht => hP f ht (made_of_tree h ht)⟩

/-! ### C33 -/

/-- C33: the number of every field and extension is the one written, between 1 and 536870911. -/
theorem C33_numbers {name src : Bytes} {fd} (h : parse name src = some (.ok fd)) :
    ForTree src fun f => Paired f fd ∧ ∀ p pl x d, FieldAt f fd p pl x d →
      d.number = some x.number.toInt ∧ 1 ≤ x.number.toInt ∧ x.number.toInt ≤ 536870911 := by
  refine forTree h fun f ht hm => ⟨hm.paired, fun p pl x d hf => ?_⟩
  have he := hm.field_errs hf
  obtain ⟨y, rfl⟩ := hm.fieldAt hf
  rcases x with ⟨l, n, k, nu, o, c, sp⟩
  simp only [fieldErrs, List.append_eq_nil_iff] at he
  have := messageNumber_ok he.1.1.1
  refine ⟨?_, this.2⟩
  rw [← this.1]
  cases pl <;> rfl

/-- C33 for the descriptor alone: every field and extension at any depth, those of map entries included, has a number
between 1 and 536870911. -/
theorem C33_all_numbers {name src : Bytes} {fd} (h : parse name src = some (.ok fd)) :
    ∀ d, FieldIn fd d → ∃ n, d.number = some n ∧ 1 ≤ n ∧ n ≤ 536870911 := by
  intro d hd
  obtain ⟨f, _, hm, _⟩ := tree_of_ok h
  rcases hm.fieldIn hd with ⟨p, pl, x, hf⟩ | ⟨p, g, k, v, e, hat, hx⟩
  · have he := hm.field_errs hf
    obtain ⟨y, rfl⟩ := hm.fieldAt hf
    rcases x with ⟨l, n, k, nu, o, c, sp⟩
    simp only [fieldErrs, List.append_eq_nil_iff] at he
    have := messageNumber_ok he.1.1.1
    refine ⟨_, ?_, this.2⟩
    rw [← this.1]
    cases pl <;> rfl
  · rw [(hm.msgAt hat).1] at hx
    simp only [srcDesc, entryOf, mapEntry, List.mem_cons, List.not_mem_nil, or_false] at hx
    rcases hx with rfl | rfl
    · exact ⟨1, rfl, by decide, by decide⟩
    · exact ⟨2, rfl, by decide, by decide⟩

/-! ### C34 -/

/-- C34 (messages): the reserved and extension ranges are the written ones in order, as half-open intervals: `a to b`
is `[a, b + 1)`, `a` is `[a, a + 1)`, and `max` stands for 536870911, or 2147483646 in a message with the option
`message_set_wire_format = true`. All ends are at most 2147483647, so nothing overflows. -/
theorem C34_message_ranges {name src : Bytes} {fd} (h : parse name src = some (.ok fd)) :
    ForTree src fun f => Paired f fd ∧ ∀ p s d b, MsgAt f fd p s d → s.body = some b →
      ∃ top : Int, (MessageSet b → top = 2147483646) ∧ (¬ MessageSet b → top = 536870911) ∧
        d.reservedRange = (reservedRanges b.reserved).map
          (fun r => ⟨some r.start.toInt, some (lastOf top r + 1)⟩) ∧
        d.extensionRange.map (fun r => (r.start, r.stop)) = (extensionRanges b.extensions).map
          (fun r => (some r.1.start.toInt, some (lastOf top r.1 + 1))) ∧
        d.reservedName = reservedNames b.reserved ∧
        ∀ r, r ∈ reservedRanges b.reserved ∨ r ∈ (extensionRanges b.extensions).map (·.1) →
          1 ≤ r.start.toInt ∧ r.start.toInt ≤ 536870911 ∧ 1 ≤ lastOf top r ∧ lastOf top r + 1 ≤ 2147483647 := by
  refine forTree h fun f ht hm => ⟨hm.paired, fun p s d b hat hb => ?_⟩
  have he := bodyErrs_parts (hm.body_errs hat hb)
  have hd := srcDesc_body (s := f.syntax') hb
  have hms := isMessageSet_iff b
  have htop : topOf (isMessageSet b.options) ≤ 2147483646 := by unfold topOf; split <;> decide
  have hext : (extensionRanges b.extensions).map (·.1) = (allExtRanges b.extensions).map (·.2) := by
    simp [extensionRanges, allExtRanges, List.map_flatMap, Function.comp_def]
  have hexts : ∀ x ∈ allExtRanges b.extensions, rangeErrs x.2 = [] := by
    intro x hx
    have := he.2.2.1 x hx
    simp only [extRangeErrs, List.append_eq_nil_iff] at this
    exact this.2
  refine ⟨topOf (isMessageSet b.options), ?_, ?_, ?_, ?_, ?_, ?_⟩
  · intro h; rw [hms.2 h]; rfl
  · intro h
    cases hb : isMessageSet b.options with
    | true => exact absurd (hms.1 hb) h
    | false => rfl
  · rw [(hm.msgAt hat).1, hd.2.2.2.2.2.2.1, allRanges_eq]
    exact List.map_congr_left fun r hr => (rangeDesc_ok _ (he.2.1 r hr)).1
  · have : (extensionRanges b.extensions).map (fun r => (some r.1.start.toInt,
        some (lastOf (topOf (isMessageSet b.options)) r.1 + 1))) =
        ((extensionRanges b.extensions).map (·.1)).map (fun r => (some r.start.toInt,
          some (lastOf (topOf (isMessageSet b.options)) r + 1))) := by simp
    rw [(hm.msgAt hat).1, hd.2.2.2.2.2.1, this, hext, List.map_map, List.map_map]
    refine List.map_congr_left fun x hx => ?_
    have := (rangeDesc_ok (isMessageSet b.options) (hexts x hx)).1
    simp only [rangeDesc, RangeProto.mk.injEq] at this
    simp [extRangeDesc, this.1, this.2]
  · rw [(hm.msgAt hat).1, hd.2.2.2.2.2.2.2.1, allNames_eq]
  · rintro r (hr | hr)
    · have := rangeDesc_ok (isMessageSet b.options) (he.2.1 r hr)
      exact ⟨this.2.1, this.2.2.1, this.2.2.2.1, by omega⟩
    · rw [hext, List.mem_map] at hr
      obtain ⟨x, hx, rfl⟩ := hr
      have := rangeDesc_ok (isMessageSet b.options) (hexts x hx)
      exact ⟨this.2.1, this.2.2.1, this.2.2.2.1, by omega⟩

/-- C34 (enums): the reserved ranges are the written ones in order, as closed intervals, where `max` stands for
2147483647; all numbers fit `i32`. The same holds for the numbers of the values. -/
theorem C34_enum_ranges {name src : Bytes} {fd} (h : parse name src = some (.ok fd)) :
    ForTree src fun f => Paired f fd ∧ ∀ p e d, EnumAt f fd p e d →
      d.reservedRange = (reservedRanges e.reserved).map
        (fun r => ⟨some r.start.toInt, some (lastOf 2147483647 r)⟩) ∧
      d.reservedName = reservedNames e.reserved ∧
      (∀ r ∈ reservedRanges e.reserved, -(2 ^ 31) ≤ r.start.toInt ∧ r.start.toInt ≤ 2 ^ 31 - 1 ∧
        -(2 ^ 31) ≤ lastOf 2147483647 r ∧ lastOf 2147483647 r ≤ 2 ^ 31 - 1) ∧
      d.value.map (fun v => (v.name, v.number)) =
        e.values.map (fun v => (some v.name.value, some v.number.toInt)) ∧
      ∀ v ∈ e.values, -(2 ^ 31) ≤ v.number.toInt ∧ v.number.toInt ≤ 2 ^ 31 - 1 := by
  refine forTree h fun f ht hm => ⟨hm.paired, fun p e d hat => ?_⟩
  obtain ⟨hd, he⟩ := hm.enumAt hat
  subst hd
  simp only [Gen.enumErrs, enumValueErrs, List.append_eq_nil_iff, List.flatMap_eq_nil_iff] at he
  refine ⟨?_, ?_, ?_, ?_, ?_⟩
  · exact List.map_congr_left fun r hr => (enumRangeDesc_ok (he.1.2 r hr)).1
  · exact allNames_eq _
  · exact fun r hr => (enumRangeDesc_ok (he.1.2 r hr)).2
  · simp only [enumDesc, List.map_map]
    refine List.map_congr_left fun v hv => ?_
    simp [enumValueDesc, (enumNumber_ok (he.1.1 v hv).1).1]
  · exact fun v hv => (enumNumber_ok (he.1.1 v hv).1).2

/-! ### C42 -/

theorem importIdx_eq (kind : ImportKind) : ∀ (xs : List Import) (k : Nat),
    importIdx kind k xs = ((List.range xs.length).filter fun i =>
      (xs[i]?.bind fun x => x.kind.map (·.1)) = some kind).map fun i => ((k + i : Nat) : Int)
  | [], _ => rfl
  | x :: xs, k => by
    have ih := importIdx_eq kind xs (k + 1)
    unfold importIdx
    rw [List.length_cons, List.range_succ_eq_map, List.filter_cons]
    have hf : (List.map Nat.succ (List.range xs.length)).filter (fun i =>
        ((x :: xs)[i]?.bind fun x => x.kind.map (·.1)) = some kind) =
        ((List.range xs.length).filter fun i => (xs[i]?.bind fun x => x.kind.map (·.1)) = some kind).map Nat.succ := by
      rw [List.filter_map]; congr 1
    simp only [List.getElem?_cons_zero, Option.bind_some]
    have hg : ∀ l : List Nat, (l.map Nat.succ).map (fun i => ((k + i : Nat) : Int)) =
        l.map fun i => ((k + 1 + i : Nat) : Int) := by
      intro l
      rw [List.map_map]
      refine List.map_congr_left fun i _ => ?_
      simp only [Function.comp_apply]; congr 1; omega
    by_cases hk : x.kind.map (·.1) = some kind
    · rw [if_pos hk, if_pos (by simpa using hk), hf, List.map_cons, hg, ih]; rfl
    · rw [if_neg hk, if_neg (by simpa using hk), hf, hg, ih]

/-- C42: `dependency` lists the imported paths in source order; `public_dependency` and `weak_dependency` are the
increasing lists of the positions of the imports with that modifier. -/
theorem C42_imports {name src : Bytes} {fd} (h : parse name src = some (.ok fd)) :
    ForTree src fun f => fd.dependency = f.imports.map (·.value) ∧
      fd.publicDependency = ((List.range f.imports.length).filter fun i =>
        (f.imports[i]?.bind fun x => x.kind.map (·.1)) = some .publ).map Int.ofNat ∧
      fd.weakDependency = ((List.range f.imports.length).filter fun i =>
        (f.imports[i]?.bind fun x => x.kind.map (·.1)) = some .weak).map Int.ofNat := by
  refine forTree h fun f ht hm => ⟨?_, ?_, ?_⟩
  · have : fd.dependency = (fileDesc name f).dependency := by rw [← hm.desc]
    rw [this]; rfl
  · have : fd.publicDependency = (fileDesc name f).publicDependency := by rw [← hm.desc]
    rw [this]; exact (importIdx_eq _ _ _).trans (by simp)
  · have : fd.weakDependency = (fileDesc name f).weakDependency := by rw [← hm.desc]
    rw [this]; exact (importIdx_eq _ _ _).trans (by simp)

/-- C42 for the descriptor alone: the indices are strictly increasing, in bounds, and no import is both public and
weak. -/
theorem C42_indices {name src : Bytes} {fd} (h : parse name src = some (.ok fd)) :
    fd.publicDependency.Pairwise (· < ·) ∧ fd.weakDependency.Pairwise (· < ·) ∧
    (∀ i, i ∈ fd.publicDependency ∨ i ∈ fd.weakDependency → 0 ≤ i ∧ i < fd.dependency.length) ∧
    ∀ i, i ∈ fd.publicDependency → i ∉ fd.weakDependency := by
  obtain ⟨⟨f, ht⟩, hP⟩ := C42_imports h
  obtain ⟨h1, h2, h3⟩ := hP f ht
  have hsort : ∀ p : Nat → Bool, (((List.range f.imports.length).filter p).map Int.ofNat).Pairwise (· < ·) := by
    intro p
    rw [List.pairwise_map]
    exact (List.Pairwise.filter _ List.pairwise_lt_range).imp (fun hab => Int.ofNat_lt.2 hab)
  refine ⟨h2 ▸ hsort _, h3 ▸ hsort _, fun i hi => ?_, fun i hi hw => ?_⟩
  · rw [h1, List.length_map]
    rw [h2, h3, List.mem_map, List.mem_map] at hi
    rcases hi with ⟨a, ha, rfl⟩ | ⟨a, ha, rfl⟩ <;>
    · have := List.mem_range.1 (List.mem_filter.1 ha).1
      exact ⟨Int.natCast_nonneg a, Int.ofNat_lt.2 this⟩
  · rw [h2, List.mem_map] at hi
    rw [h3, List.mem_map] at hw
    obtain ⟨a, ha, rfl⟩ := hi
    obtain ⟨b, hb, hab⟩ := hw
    have : b = a := Int.ofNat.inj hab
    subst this
    have e1 := (List.mem_filter.1 ha).2
    have e2 := (List.mem_filter.1 hb).2
    simp only [decide_eq_true_eq] at e1 e2
    rw [e1] at e2; cases e2

end
end Verif
