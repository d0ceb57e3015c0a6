import Verif.Props.Descriptor4
import Verif.Props.Locations
import Verif.Props.Once
import Verif.Props.Rules
import Verif.Proofs.Described
/-! C65: the rules for the descriptor are complete. -/
namespace Verif
open Verif.Spec Verif.Ast Verif.Gen

section
variable [FloatFmt] [LocSort]

omit [FloatFmt] [LocSort] in
theorem carried_eq {os us} (h : CarriedOver os us) : us = carried os := h.2

theorem described_field {name src : Bytes} {fd} (h : parse name src = some (.ok fd)) {f} (ht : TreeOf src f)
    {q pl x d} (hf : FieldAt f fd q pl x d) {oi} (ho : d.oneofIndex = oi) : FieldDescribed f.syntax' pl x oi d := by
  obtain ⟨a1, a2, a3, a4⟩ := ((C52_fields h).2 f ht).2 q pl x d hf
  obtain ⟨b1, b2, b3, b4, b5⟩ := ((C45_fields h).2 f ht).2 q pl x d hf
  refine ⟨a1, (((C33_numbers h).2 f ht).2 q pl x d hf).1, (((C41_labels h).2 f ht).2 q pl x d hf).1, a2, a3, a4, ho, ?_,
    carried_eq b1, b2, fun o hs => ?_, b4, fun o hs => ?_⟩
  · have hm := made_of_tree h ht
    obtain ⟨_, _, _, _, _, _, _, p8, _⟩ := field_parts hm hf
    rw [p8]
    unfold isP3
    cases hl : x.label with
    | none => simp
    | some l => rcases l with ⟨l, sp⟩; cases l <;> cases f.syntax' <;> simp
  · obtain ⟨s, h1, _, h3⟩ := b3 o hs; exact ⟨s, h1, h3⟩
  · exact (b5 o hs).2.2

omit [LocSort] in
theorem ext_no_oneof {name f fd} (hm : Made name f fd) {q pl x d} (hf : FieldAt f fd q pl x d) (hp : ∃ t, pl = .extend t) :
    d.oneofIndex = none := by
  obtain ⟨t, rfl⟩ := hp
  obtain ⟨y, rfl⟩ := hm.fieldAt hf
  rfl

omit [FloatFmt] [LocSort] in
theorem bodyExts_place {b : MessageBody} {i : Nat} {pl x} (h : (bodyExts b)[i]? = some (pl, x)) : ∃ t, pl = .extend t := by
  obtain ⟨e, _, he⟩ := List.mem_flatMap.1 (List.mem_of_getElem? h)
  cases e with
  | extend e => obtain ⟨_, _, he⟩ := List.mem_map.1 he; cases he; exact ⟨_, rfl⟩
  | _ => cases he

omit [FloatFmt] [LocSort] in
theorem fileExts_place {f : Ast.File} {i : Nat} {pl x} (h : (Spec.fileExts f)[i]? = some (pl, x)) : ∃ t, pl = .extend t := by
  obtain ⟨e, _, he⟩ := List.mem_flatMap.1 (List.mem_of_getElem? h)
  cases e with
  | extend e => obtain ⟨_, _, he⟩ := List.mem_map.1 he; cases he; exact ⟨_, rfl⟩
  | _ => cases he

theorem described_body {name src : Bytes} {fd} (h : parse name src = some (.ok fd)) {f} (ht : TreeOf src f)
    {p s d b} (ha : MsgAt f fd p s d) (hb : s.body = some b) : BodyDescribed f.syntax' b d := by
  obtain ⟨m1, m2, m3, m4⟩ := ((C45_messages h).2 f ht).2 p s d b ha hb
  obtain ⟨top, t1, t2, t3, t4, t5, _⟩ := ((C34_message_ranges h).2 f ht).2 p s d b ha hb
  refine ⟨?_, ?_, t5, top, t1, t2, t3, ?_⟩
  · have m1 := carried_eq m1
    rw [← m1]
    cases ho : d.options with
    | none => rfl
    | some m =>
      have := m2 m ho
      cases m; cases this; rfl
  · have hn := (((C38_oneofs h).2 f ht).2 p s d b ha hb).1
    refine List.ext_getElem? fun i => ?_
    have hi := congrArg (fun l => l[i]?) hn
    simp only [List.getElem?_map] at hi
    cases hd : d.oneofDecl[i]? with
    | none =>
      rw [hd] at hi
      have hlen : d.oneofDecl.length = (bodyOneofs b).length + ((bodyFields b).filter (IsProto3Optional f.syntax')).length := by
        have := congrArg List.length hn
        simpa using this
      rw [List.getElem?_eq_none_iff] at hd
      symm
      rw [List.getElem?_eq_none_iff]
      simp only [List.length_append, List.length_map]
      omega
    | some y =>
      have h3 := carried_eq (m3 i y hd)
      rw [hd] at hi
      by_cases hlt : i < (bodyOneofs b).length
      · rw [List.getElem?_append_left (by simpa using hlt), List.getElem?_map] at hi ⊢
        rw [List.getElem?_eq_getElem hlt] at hi h3 ⊢
        simp only [Option.map_some, Option.some.injEq, Option.elim_some] at hi h3 ⊢
        cases y; simp only at hi h3; rw [hi, h3]
      · have hge := Nat.le_of_not_lt hlt
        rw [List.getElem?_append_right (by simpa using hge), List.getElem?_map] at hi ⊢
        rw [List.getElem?_eq_none hge] at h3
        simp only [List.length_map] at hi ⊢
        cases hz : ((bodyFields b).filter (IsProto3Optional f.syntax'))[i - (bodyOneofs b).length]? with
        | none => rw [hz] at hi; cases hi
        | some z =>
          rw [hz] at hi
          simp only [Option.map_some, Option.some.injEq] at hi ⊢
          cases y; simp only at hi h3; rw [hi, h3]; rfl
  · refine List.ext_getElem? fun i => ?_
    have hi := congrArg (fun l => l[i]?) t4
    simp only [List.getElem?_map] at hi
    rw [List.getElem?_map]
    cases hr : (extensionRanges b.extensions)[i]? with
    | none =>
      rw [hr] at hi
      cases hd : d.extensionRange[i]? with
      | none => rfl
      | some y => rw [hd] at hi; cases hi
    | some r =>
      obtain ⟨y, h1, h2⟩ := m4 i r hr
      rw [hr, h1] at hi
      rw [h1]
      have h2 := carried_eq h2
      simp only [Option.map_some, Option.some.injEq, Prod.mk.injEq] at hi ⊢
      cases y; simp only at hi h2; rw [hi.1, hi.2, h2]

theorem described_enum {name src : Bytes} {fd} (h : parse name src = some (.ok fd)) {f} (ht : TreeOf src f)
    {p e d} (ha : EnumAt f fd p e d) : d = enumDescribed e := by
  obtain ⟨a1, a2, _, a4, _⟩ := ((C34_enum_ranges h).2 f ht).2 p e d ha
  obtain ⟨b1, b2⟩ := ((C45_enums h).2 f ht).2 p e d ha
  obtain ⟨c1, _⟩ := ((C52_enums h).2 f ht).2 p e d ha
  have b1 := carried_eq b1
  have hv : d.value = (enumDescribed e).value := by
    refine List.ext_getElem? fun i => ?_
    have hi := congrArg (fun l => l[i]?) a4
    simp only [List.getElem?_map] at hi
    simp only [enumDescribed, List.getElem?_map]
    cases hr : e.values[i]? with
    | none =>
      rw [hr] at hi
      cases hd : d.value[i]? with
      | none => rfl
      | some y => rw [hd] at hi; cases hi
    | some r =>
      obtain ⟨y, h1, h2⟩ := b2 i r hr
      rw [hr, h1] at hi
      rw [h1]
      have h2 := carried_eq h2
      simp only [Option.map_some, Option.some.injEq, Prod.mk.injEq] at hi ⊢
      cases y; simp only at hi h2; rw [hi.1, hi.2, h2]
  cases d
  simp only at *
  subst a1 a2 b1 c1 hv
  rfl

theorem described_service {name src : Bytes} {fd} (h : parse name src = some (.ok fd)) {f} (ht : TreeOf src f)
    {p s d} (ha : ServiceAt f fd p s d) : d = serviceDescribed s := by
  obtain ⟨b1, b2⟩ := ((C45_services h).2 f ht).2 p s d ha
  obtain ⟨c1, c2, c3⟩ := ((C52_services h).2 f ht).2 p s d ha
  have b1 := carried_eq b1
  have hv : d.method = (serviceDescribed s).method := by
    refine List.ext_getElem? fun i => ?_
    simp only [serviceDescribed, List.getElem?_map]
    cases hr : s.methods[i]? with
    | none =>
      rw [List.getElem?_eq_none_iff] at hr
      rw [List.getElem?_eq_none (by omega)]; rfl
    | some r =>
      obtain ⟨y, h1, h2⟩ := b2 i r hr
      obtain ⟨d1, d2, d3, d4, d5⟩ := c3 i r y hr h1
      rw [h1]
      have h2 := carried_eq h2
      simp only [Option.map_some, Option.some.injEq]
      cases y; simp only at *; subst d1 d2 d3 d4 d5 h2; rfl
  cases d
  simp only at *
  subst b1 c1 hv
  rfl

theorem described {name src : Bytes} {fd} (h : parse name src = some (.ok fd)) {f} (ht : TreeOf src f) : Describes name f fd := by
  obtain ⟨a1, a2, a3⟩ := (C52_file h).2 f ht
  obtain ⟨b1, b2, b3⟩ := (C42_imports h).2 f ht
  have hm := made_of_tree h ht
  refine ⟨a1, a2, a3, b1, b2, b3, carried_eq (file_options hm), hm.paired, ((C52_messages h).2 f ht).2,
    fun p s d b ha hb => described_body h ht ha hb, fun p x k v d ha => ?_,
    fun p s d b i pl x y ha hb hx hy => ?_, fun p s d b i pl x y ha hb hx hy => ?_, fun i pl x y hx hy => ?_,
    fun p e d ha => described_enum h ht ha, fun p s d ha => described_service h ht ha⟩
  · rw [(hm.msgAt ha).1]
    exact ⟨rfl, by simp only [srcDesc, entryOf, mapEntry, entryFields, protoTy_eq, tyNameOf_eq]⟩
  · exact described_field h ht (.field ha hb hx hy) ((((C38_oneofs h).2 f ht).2 p s d b ha hb).2 i _ y hx hy).1
  · have hf : FieldAt f fd _ pl x y := .ext ha hb hx hy
    exact described_field h ht hf (ext_no_oneof hm hf (bodyExts_place hx))
  · have hf : FieldAt f fd _ pl x y := .fileExt hx hy
    exact described_field h ht hf (ext_no_oneof hm hf (fileExts_place hx))

/-! ### Source code info -/

omit [FloatFmt] [LocSort] in
theorem msgAt_other {f : Ast.File} {fd fd' : FileDescriptorProto} (h : fd.messageType = fd'.messageType) {p s d} (hm : MsgAt f fd p s d) :
    MsgAt f fd' p s d := by
  induction hm with
  | top h1 h2 => exact .top h1 (h ▸ h2)
  | nested _ hb h1 h2 ih => exact .nested ih hb h1 h2

omit [FloatFmt] [LocSort] in
theorem rowOf_other {f : Ast.File} {fd fd' : FileDescriptorProto}
    (h : { fd with sourceCodeInfo := none } = { fd' with sourceCodeInfo := none }) {r} (hr : RowOf f fd r) : RowOf f fd' r := by
  injection h with _ _ _ _ _ h6 h7 h8 h9
  cases hr with
  | file h => exact .file h
  | message hm h => exact .message (msgAt_other h6 hm) h
  | @field _ _ _ d _ hf h =>
    refine .field (d := d) ?_ h
    cases hf with
    | field hm hb h1 h2 => exact .field (msgAt_other h6 hm) hb h1 h2
    | ext hm hb h1 h2 => exact .ext (msgAt_other h6 hm) hb h1 h2
    | fileExt h1 h2 => exact .fileExt h1 (h9 ▸ h2)
  | @enum _ _ d _ he h =>
    refine .enum (d := d) ?_ h
    cases he with
    | top h1 h2 => exact .top h1 (h7 ▸ h2)
    | nested hm hb h1 h2 => exact .nested (msgAt_other h6 hm) hb h1 h2
  | @service _ _ d _ hs h =>
    refine .service (d := d) ?_ h
    cases hs with
    | mk h1 h2 => exact .mk h1 (h8 ▸ h2)

omit [FloatFmt] [LocSort] in
/-- The rules for the locations determine them up to the order of those of the same path. -/
theorem located_unique {src : Bytes} {f : Ast.File} {fd fd' : FileDescriptorProto}
    (h : { fd with sourceCodeInfo := none } = { fd' with sourceCodeInfo := none })
    (hl : Located src f fd) (hl' : Located src f fd') : SameDescriptor fd fd' := by
  obtain ⟨l, h1, h2, h3, h4⟩ := hl
  obtain ⟨l', h1', h2', h3', h4'⟩ := hl'
  have hperm : l.Perm l' := by
    refine (List.perm_ext_iff_of_nodup h3 h3').2 fun x => ?_
    rw [h4, h4']
    exact ⟨fun ⟨r, hr, e⟩ => ⟨r, rowOf_other h hr, e⟩, fun ⟨r, hr, e⟩ => ⟨r, rowOf_other h.symm hr, e⟩⟩
  refine ⟨h, l, l', h1, h1', ?_, fun p => hperm.filter _⟩
  refine (hperm.map Location.path).eq_of_pairwise (le := (· ≤ ·)) ?_ (List.pairwise_map.2 h2) (List.pairwise_map.2 h2')
  intro a b _ _ hab hba
  exact List.le_antisymm hab hba

theorem located {name src : Bytes} {fd} (h : parse name src = some (.ok fd)) {f} (hp : PlacedTree src f) : Located src f fd := by
  obtain ⟨g, hg, hu, _, locs, h1, h2, _, _, h3⟩ := C43_locations h
  have := hu f hp
  subst this
  obtain ⟨locs', h1', _, h4⟩ := C43_once h
  rw [h1] at h1'
  cases h1'
  exact ⟨locs, h1, h2, h4, h3⟩

/-- C65: an accepted source has one syntax tree, which violates no rule, and the descriptor returned obeys all rules for
descriptors of that tree. -/
theorem C65_correct {name src : Bytes} {fd} (h : parse name src = some (.ok fd)) :
    src.length ≤ 2147483647 ∧ lexOk src = true ∧ ∃ f, PlacedTree src f ∧ (∀ g, PlacedTree src g → g = f) ∧
      (∀ k, ¬ Violation f k) ∧ Describes name f fd ∧ Located src f fd := by
  obtain ⟨h1, h2, f, h3, h4⟩ := (C53_accepts name src).1 ⟨fd, h⟩
  exact ⟨h1, h2, f, h3, fun g hg => C49_one_tree h2 hg h3, h4, described h (Pos.treeOf_placed h3), located h h3⟩

/-- C65: a source with a syntax tree that violates no rule is accepted, and the descriptor returned is the only one that
obeys the rules: whatever obeys them is the same up to the order of the source locations of one path. -/
theorem C65_complete {name src : Bytes} (hl : src.length ≤ 2147483647) (hx : lexOk src = true) {f} (hp : PlacedTree src f)
    (hv : ∀ k, ¬ Violation f k) : ∃ fd, parse name src = some (.ok fd) ∧ Describes name f fd ∧ Located src f fd ∧
      ∀ fd', Describes name f fd' → Located src f fd' → SameDescriptor fd fd' := by
  obtain ⟨fd, h⟩ := (C53_accepts name src).2 ⟨hl, hx, f, hp, hv⟩
  have hd := described h (Pos.treeOf_placed hp)
  have hc := located h hp
  exact ⟨fd, h, hd, hc, fun fd' h1 h2 => located_unique (describes_unique hd h1) hc h2⟩

end

namespace Demo

/-- The file `file2` of Props/Descriptor4.lean (groups, extensions, oneofs, ranges, options, services) meets the hypotheses
of both theorems. -/
example : ∃ fd f, parse b!"a.proto" file2 = some (.ok fd) ∧ file2.length ≤ 2147483647 ∧ lexOk file2 = true ∧
    PlacedTree file2 f ∧ (∀ k, ¬ Violation f k) ∧ Describes b!"a.proto" f fd ∧ Located file2 f fd := by
  have h : ofFile file2 (fun fd => fd.package) = some (some b!"a.b") := by decide +kernel
  obtain ⟨fd, h1, _⟩ := ofFile_ok h
  obtain ⟨h2, h3, f, h4, _, h5, h6, h7⟩ := C65_correct h1
  exact ⟨fd, f, h1, h2, h3, h4, h5, h6, h7⟩

/-- A descriptor with any other package does not obey the rules. -/
example : ∃ f, PlacedTree file2 f ∧ ∀ fd, fd.package ≠ some b!"a.b" → ¬ Describes b!"a.proto" f fd := by
  have h : ofFile file2 (fun fd => fd.package) = some (some b!"a.b") := by decide +kernel
  obtain ⟨fd, h1, h0⟩ := ofFile_ok h
  obtain ⟨_, _, f, h4, _, _, h6, _⟩ := C65_correct h1
  refine ⟨f, h4, fun fd' hne hd => hne ?_⟩
  exact (congrArg FileDescriptorProto.package (describes_unique hd h6)).trans h0

/-- An `optional` extension of a proto3 file is marked, but has no oneof. -/
example : ofFile b!"syntax = \"proto3\"; extend M { optional int32 x = 1; }" (fun fd =>
      fd.extension.map fun f => (f.proto3Optional, f.oneofIndex)) = some [(some true, none)] := by decide +kernel

end Demo
end Verif
