import Verif.Proofs.Nest2
/-!
The marks of enums, services, oneofs and fields nest.
-/
namespace Verif.Nesting
open Verif.Ast Verif.Spec Verif.Places Verif.Gen

theorem many_all {σ : Type} {elem : List ATok → σ → σ → Prop} (TS : List ATok) (I : σ → Prop)
    (hs : ∀ t s s', elem t s s' → Ord t → t ⊆ TS → I s → I s') {ts s s'} (h : Many elem ts s s') (ho : Ord ts)
    (hsub : ts ⊆ TS) (h0 : I s) : I s' := by
  induction h with
  | nil => exact h0
  | cons he _ ih =>
    exact ih (ho.sub (List.sublist_append_right ..)) (fun x hx => hsub (List.mem_append_right _ hx))
      (hs _ _ _ he (ho.sub (List.sublist_append_left ..)) (fun x hx => hsub (List.mem_append_left _ hx)) h0)

theorem snoc {α : Type} {P : α → Prop} {l : List α} {a : α} (h : ∀ x ∈ l, P x) (ha : P a) : ∀ x ∈ l ++ [a], P x := by
  intro x hx
  rcases List.mem_append.1 hx with hx | hx
  · exact h x hx
  · rw [List.mem_singleton] at hx; subst hx; exact ha

theorem Part.mem {M ts t} {ms : List Mark} (hp : ∀ m ∈ ms, m.path = [t]) (h : ∀ m ∈ ms, Inn ts m.span) :
    Part M [t] ts (· ∈ ms) := Part.flat t hp h

variable [FloatFmt]

theorem value_whole {M ts v} (h : EnumValueG ts v) (ho : Ord ts) : Whole M ts (· ∈ enumValueMarks v) := by
  cases h with
  | mk h1 _ h2 h3 _ =>
    rename_i is name e ns number us os z _ _
    have hs : us.Sublist (is ++ e :: ns ++ us ++ [z]) := (List.sublist_append_right ..).trans (List.sublist_append_left ..)
    have hl := (list_whole (M := M ++ [3]) (listIn_of h3 (ho.sub hs))).mono hs.subset
    have hn : Inn (is ++ e :: ns ++ us ++ [z]) name.span := (inn_ident h1).mono (by intro x hx; simp [hx])
    have hi : Inn (is ++ e :: ns ++ us ++ [z]) number.span := (inn_int h2).mono (by intro x hx; simp [hx])
    refine (Whole.root (c := comments is z) ((Part.leaf (c := {}) 1 hn).or ((Part.leaf (c := {}) 2 hi).or (Part.under hl)
      (by decide)) (by decide)) (by simp) ho).congr fun m => ?_
    simp [enumValueMarks, Tag.enumValueName, Tag.enumValueNumber, Tag.enumValueOptions]

theorem enum_whole {M ts e} (h : EnumG ts e) (ho : Ord ts) : Whole M ts (· ∈ enumMarks e) := by
  cases h with
  | mk hk h1 _ hm _ =>
    rename_i k is name o ts os vs rs z _ _
    have hs : ts.Sublist (k :: is ++ o :: ts ++ [z]) := Dist.mid_sub
    have hI := many_all (k :: is ++ o :: ts ++ [z]) (fun s : List Opt × List EnumValue × List Reserved =>
      (∀ x ∈ s.1, Inn (k :: is ++ o :: ts ++ [z]) x.span) ∧
      (∀ x ∈ s.2.1, ∀ M, Whole M (k :: is ++ o :: ts ++ [z]) (· ∈ enumValueMarks x)) ∧
      ∀ x ∈ s.2.2, ResIn (k :: is ++ o :: ts ++ [z]) x) (by
        intro t s s' h ho hs h0
        cases h with
        | option h => exact ⟨snoc h0.1 ((inn_option h).mono hs), h0.2⟩
        | reserved h => exact ⟨h0.1, h0.2.1, snoc h0.2.2 ((resIn_of h ho).mono hs)⟩
        | value h _ => exact ⟨h0.1, snoc h0.2.1 (fun M => (value_whole h ho).mono hs), h0.2.2⟩
        | empty _ => exact h0) hm (ho.sub hs) hs.subset ⟨nofun, nofun, nofun⟩
    obtain ⟨i1, i2, i3⟩ := hI
    have hn : Inn (k :: is ++ o :: ts ++ [z]) name.span := (inn_ident h1).mono (by intro x hx; simp [hx])
    refine (Whole.root (c := comments (k :: is) o) ((Part.leaf (c := {}) 1 hn).or ((Part.at (b := 0) 2 fun i y hy => i2 y hy _).or
      ((reserved_part (tagR := 4) (tagN := 5) (by decide) i3).or (Part.under (opts_whole (M := M ++ [3]) i1)) (by decide))
      (by decide)) (by decide)) (by simp) ho).congr fun m => ?_
    simp only [enumMarks, List.mem_cons, List.mem_append, valuesMarks_at, Tag.enumName, Tag.enumReservedRange,
      Tag.enumReservedName, Tag.enumOptions, or_assoc]

theorem method_whole {M ts x} (h : MethodG ts x) (ho : Ord ts) : Whole M ts (· ∈ methodMarks x) := by
  cases h with
  | mk _ h1 _ h2 _ _ _ h3 _ h4 =>
    rename_i k is name l ins i cs r k' l' outs o ss r' es os z _ _ _ _ _ _
    generalize hT : k :: is ++ l :: ins ++ [r, k', l'] ++ outs ++ r' :: es = T at *
    have hn : Inn T name.span := (inn_ident h1).mono (by subst hT; intro x hx; simp [hx])
    have stream : ∀ {us t c}, StreamG us t c → us.Sublist T → Inn T (tspan t) ∧ ∀ s, c = some s → Inn T s := by
      intro us t c h hs
      cases h with
      | no h _ => exact ⟨(inn_type h (ho.sub hs)).mono hs.subset, nofun⟩
      | yes _ h =>
        refine ⟨(inn_type h (ho.sub ((List.sublist_cons_self ..).trans hs))).mono (fun x hx => hs.subset (.tail _ hx)), ?_⟩
        rintro _ ⟨⟩
        exact inn_tok (hs.subset (.head _))
    have si := stream h2 (by
      subst hT
      exact ((List.sublist_cons_self ..).trans (List.sublist_append_right (k :: is) _)).trans
        ((List.sublist_append_left _ [r, k', l']).trans ((List.sublist_append_left ..).trans (List.sublist_append_left ..))))
    have so := stream h3 (by subst hT; exact (List.sublist_append_right ..).trans (List.sublist_append_left ..))
    have hes : es.Sublist T := by subst hT; exact (List.sublist_cons_self ..).trans (List.sublist_append_right ..)
    have hos : ∀ x ∈ os, Inn T x.span := by
      cases h4 with
      | semi _ => nofun
      | body _ hm _ =>
        rename_i o' ts' _ _
        have hs' : ts'.Sublist T := ((List.sublist_cons_self ..).trans (List.sublist_append_left ..)).trans hes
        refine many_all T (fun s : List Opt => ∀ x ∈ s, Inn T x.span) ?_ hm (ho.sub hs') hs'.subset nofun
        intro t s s' h ho hs h0
        cases h with
        | option h => exact snoc h0 ((inn_option h).mono hs)
        | empty _ => exact h0
    have opt : ∀ (tag : Int) (c : Option Span), (∀ s, c = some s → Inn T s) → Part M [tag] T (· ∈ optMark tag c) := by
      intro tag c h
      refine Part.mem ?_ ?_ <;> intro m hm <;> cases c <;> simp [optMark] at hm <;> subst hm
      · rfl
      · exact h _ rfl
    refine (Whole.root (c := comments (k :: is) z) ((Part.leaf (c := {}) 1 hn).or ((Part.leaf (c := {}) 2 si.1).or
      ((Part.leaf (c := {}) 3 so.1).or ((opt 5 cs si.2).or ((opt 6 ss so.2).or (Part.under (opts_whole (M := M ++ [4]) hos)) (by decide))
      (by decide)) (by decide)) (by decide)) (by decide)) (by subst hT; simp) ho).congr fun m => ?_
    simp only [methodMarks, List.mem_cons, List.mem_append, Tag.methodName, Tag.methodInputType, Tag.methodOutputType,
      Tag.methodClientStreaming, Tag.methodServerStreaming, Tag.methodOptions, or_assoc]

theorem service_whole {M ts x} (h : ServiceG ts x) (ho : Ord ts) : Whole M ts (· ∈ serviceMarks x) := by
  cases h with
  | mk hk h1 _ hm _ =>
    rename_i k is name o ts os ms z _ _
    have hs : ts.Sublist (k :: is ++ o :: ts ++ [z]) := Dist.mid_sub
    have hI := many_all (k :: is ++ o :: ts ++ [z]) (fun s : List Opt × List Method =>
      (∀ x ∈ s.1, Inn (k :: is ++ o :: ts ++ [z]) x.span) ∧
      (∀ x ∈ s.2, ∀ M, Whole M (k :: is ++ o :: ts ++ [z]) (· ∈ methodMarks x))) (by
        intro t s s' h ho hs h0
        cases h with
        | option h => exact ⟨snoc h0.1 ((inn_option h).mono hs), h0.2⟩
        | method h => exact ⟨h0.1, snoc h0.2 (fun M => (method_whole h ho).mono hs)⟩
        | empty _ => exact h0) hm (ho.sub hs) hs.subset ⟨nofun, nofun⟩
    obtain ⟨i1, i2⟩ := hI
    have hn : Inn (k :: is ++ o :: ts ++ [z]) name.span := (inn_ident h1).mono (by intro x hx; simp [hx])
    refine (Whole.root (c := comments (k :: is) o) ((Part.leaf (c := {}) 1 hn).or ((Part.at (b := 0) 2 fun i y hy => i2 y hy _).or
      (Part.under (opts_whole (M := M ++ [3]) i1)) (by decide)) (by decide)) (by simp) ho).congr fun m => ?_
    simp only [serviceMarks, List.mem_cons, List.mem_append, Tag.serviceName, Tag.serviceMethod, methodsMarks_at,
      Tag.serviceOptions, or_assoc]

/-! ### Fields -/

def SrcGood (ts : List ATok) (y : MsgSrc) : Prop := ∀ s M, MsgPath M → Whole M ts (· ∈ srcMarks s y)

/-- The marks of a field: one for the whole of it, and others inside it. -/
structure FieldGood (ts : List ATok) (f : Field) : Prop where
  own : ∀ s scope M, ∃ c P, (∀ m, m ∈ ownMarks s scope f ↔ m = ⟨[], f.span, c⟩ ∨ P m) ∧
    Part M [1, 3, 4, 5, 6, 7, 10, 8] ts P ∧ ∀ m, P m → Within m.span f.span
  span : Inn ts f.span
  msgs : ∀ y ∈ fieldMsgs f, SrcGood ts y

omit [FloatFmt] in
theorem SrcGood.mono {ts ts' y} (h : SrcGood ts y) (hs : ts ⊆ ts') : SrcGood ts' y := fun s M hM => (h s M hM).mono hs

omit [FloatFmt] in
theorem FieldGood.mono {ts ts' f} (h : FieldGood ts f) (hs : ts ⊆ ts') : FieldGood ts' f := by
  refine ⟨fun s scope M => ?_, h.span.mono hs, fun y hy => (h.msgs y hy).mono hs⟩
  obtain ⟨c, P, h1, h2, h3⟩ := h.own s scope M
  exact ⟨c, P, h1, h2.mono hs, h3⟩

omit [FloatFmt] in
/-- The marks inside a field. -/
theorem own_part {M ts us} {name : Ident} {number : Int'} {options} {L K5 K6 D : List Mark} (hn : Inn ts name.span) (hi : Inn ts number.span)
    (hL : ∀ m ∈ L, m.path = [4] ∧ Inn ts m.span) (h5 : ∀ m ∈ K5, m.path = [5] ∧ Inn ts m.span)
    (h6 : ∀ m ∈ K6, m.path = [6] ∧ Inn ts m.span) (hD : ∀ m ∈ D, m.path = [7] ∧ Inn ts m.span)
    (ho : ListIn us options) (hs : us ⊆ ts) :
    Part M [1, 3, 4, 5, 6, 7, 10, 8] ts (fun m => m = ⟨[1], name.span, {}⟩ ∨ m = ⟨[3], number.span, {}⟩ ∨ m ∈ L ∨ m ∈ K5 ∨
      m ∈ K6 ∨ m ∈ D ∨ m ∈ jsonMarks (jsonOf options) ∨ m ∈ under [8] (optListMarks (opts2 options))) := by
  have hJ : ∀ m ∈ jsonMarks (jsonOf options), m.path = [10] ∧ Inn ts m.span := by
    intro m hm
    cases hj : jsonOf options with
    | none => rw [hj] at hm; cases hm
    | some o =>
      have hb := pick_listIn (drop1_listIn _ ho) hj
      rw [hj] at hm
      simp only [jsonMarks, List.mem_cons, List.not_mem_nil, or_false] at hm
      rcases hm with rfl | rfl
      · exact ⟨rfl, hb.1.mono hs⟩
      · exact ⟨rfl, hb.2.mono hs⟩
  have fl : ∀ {t : Int} {l : List Mark}, (∀ m ∈ l, m.path = [t] ∧ Inn ts m.span) → Part M [t] ts (· ∈ l) :=
    fun h => Part.mem (fun m hm => (h m hm).1) (fun m hm => (h m hm).2)
  exact (Part.leaf 1 hn).or ((Part.leaf 3 hi).or ((fl hL).or ((fl h5).or ((fl h6).or ((fl hD).or ((fl hJ).or
    (Part.under ((list_whole (drop1_listIn _ (drop1_listIn _ ho))).mono hs)) (by decide)) (by decide)) (by decide)) (by decide)) (by decide))
    (by decide)) (by decide)

omit [FloatFmt] in
theorem label_in {ts ls label} (h : LabelG ls label) (hs : ls ⊆ ts) (s scope) :
    ∀ m ∈ labelMarks s scope label, m.path = [4] ∧ Inn ts m.span := by
  intro m hm
  cases h with
  | none => cases hm
  | _ _ =>
    simp only [labelMarks] at hm
    split at hm
    · cases hm
    · rw [List.mem_singleton] at hm; subst hm
      exact ⟨rfl, inn_tok (hs (.head _))⟩

omit [FloatFmt] in
theorem dflt_in {us ts options} (ho : ListIn us options) (hs : us ⊆ ts) :
    ∀ m ∈ dfltMarks (dfltOf options), m.path = [7] ∧ Inn ts m.span := by
  intro m hm
  cases hj : dfltOf options with
  | none => rw [hj] at hm; cases hm
  | some o =>
    rw [hj] at hm
    simp only [dfltMarks, List.mem_singleton] at hm
    subst hm
    exact ⟨rfl, (pick_listIn ho hj).2.mono hs⟩

section
variable {body : List ATok → MessageBody → Prop}
  (hb : ∀ ts b, body ts b → Ord ts → ∀ s M, MsgPath M → Part M [2, 3, 4, 6, 8, 9, 10, 5, 7] ts (· ∈ bodyMarks s b))
include hb

theorem field_good {ts f} (h : FieldG body ts f) (ho : Ord ts) : FieldGood ts f := by
  have one : ∀ {T : List ATok} {t : Int} {sp : Span}, Inn T sp → ∀ m ∈ [(⟨[t], sp, {}⟩ : Mark)], m.path = [t] ∧ Inn T m.span := by
    intro T t sp h m hm
    rw [List.mem_singleton] at hm; subst hm; exact ⟨rfl, h⟩
  have nil : ∀ {T : List ATok} {t : Int}, ∀ m ∈ ([] : List Mark), m.path = [t] ∧ Inn T m.span := nofun
  cases h with
  | normal h1 h2 h3 _ h4 h5 _ _ _ =>
    rename_i ls label ts ty tsp is name e ns number us os z _ _ _ _
    have hsu : us.Sublist (ls ++ ts ++ is ++ e :: ns ++ us ++ [z]) := (List.sublist_append_right ..).trans (List.sublist_append_left ..)
    have hst : ts.Sublist (ls ++ ts ++ is ++ e :: ns ++ us ++ [z]) :=
      (List.sublist_append_right ls ts).trans ((List.sublist_append_left ..).trans ((List.sublist_append_left ..).trans
        ((List.sublist_append_left ..).trans (List.sublist_append_left ..))))
    have hl := listIn_of h5 (ho.sub hsu)
    have hn := (inn_ident h3).mono (ts' := ls ++ ts ++ is ++ e :: ns ++ us ++ [z]) (by intro x hx; simp [hx])
    have hi := (inn_int h4).mono (ts' := ls ++ ts ++ is ++ e :: ns ++ us ++ [z]) (by intro x hx; simp [hx])
    have hls : ls ⊆ ls ++ ts ++ is ++ e :: ns ++ us ++ [z] := by intro x hx; simp [hx]
    refine ⟨fun s scope M => ?_, inn_extent (by simp), nofun⟩
    cases h2 with
    | @scalar a n _ hty hkw =>
      refine ⟨comments (ls ++ [a]) z, _, ?_, own_part (L := labelMarks s scope label) (K5 := [⟨[5], extent [a], {}⟩]) (K6 := [])
        (D := dfltMarks (dfltOf os)) hn hi (label_in h1 hls s scope) (one ((inn_extent (by simp)).mono hst.subset)) nil
        (dflt_in hl hsu.subset) hl hsu.subset, ?_⟩
      · intro m
        cases ty with
        | named t => simp [Grammar.scalars] at hty
        | _ =>
          simp only [ownMarks, headMarks, kindOwn, scalarMarks, tailMarks, List.mem_append, List.mem_cons, List.not_mem_nil,
            or_false, Tag.fieldName, Tag.fieldNumber, Tag.fieldType, Tag.fieldOptions]
          exact Iff.of_eq (by ac_rfl)
      · intro m hm
        exact ((own_part (M := []) hn hi (label_in h1 hls s scope) (one ((inn_extent (by simp)).mono hst.subset)) nil
          (dflt_in hl hsu.subset) hl hsu.subset).inn m hm).within ho
    | @named _ t hty _ =>
      have h6 := (inn_type hty (ho.sub hst)).mono hst.subset
      refine ⟨comments (ls ++ ts) z, _, ?_, own_part (L := labelMarks s scope label) (K5 := []) (K6 := [⟨[6], tspan t, {}⟩])
        (D := dfltMarks (dfltOf os)) hn hi (label_in h1 hls s scope) nil (one h6)
        (dflt_in hl hsu.subset) hl hsu.subset, ?_⟩
      · intro m
        simp only [ownMarks, headMarks, kindOwn, namedMarks, tailMarks, List.mem_append, List.mem_cons, List.not_mem_nil,
          or_false, Tag.fieldName, Tag.fieldNumber, Tag.fieldTypeName, Tag.fieldOptions]
        exact Iff.of_eq (by ac_rfl)
      · intro m hm
        exact ((own_part (M := []) hn hi (label_in h1 hls s scope) nil (one h6)
          (dflt_in hl hsu.subset) hl hsu.subset).inn m hm).within ho
  | map h1 _ _ h2 _ h3 _ h4 _ h5 h6 _ =>
    rename_i ls label m l ks kty ksp c vs vty vsp r is name e ns number us os z _ _ _ _ _ _
    generalize hT : ls ++ m :: l :: ks ++ c :: vs ++ r :: is ++ e :: ns ++ us ++ [z] = T at *
    have hsu : us.Sublist T := by subst hT; exact (List.sublist_append_right ..).trans (List.sublist_append_left ..)
    have hl := listIn_of h6 (ho.sub hsu)
    have hn := (inn_ident h4).mono (ts' := T) (by subst hT; intro x hx; simp [hx])
    have hi := (inn_int h5).mono (ts' := T) (by subst hT; intro x hx; simp [hx])
    have hne : T ≠ [] := by subst hT; simp
    have ht : Inn T (extent (m :: l :: ks ++ c :: vs ++ [r])) := (inn_extent (by simp)).mono (by
      subst hT; intro x hx
      simp only [List.mem_append, List.mem_cons, List.not_mem_nil, or_false] at hx ⊢
      tauto)
    refine ⟨fun s scope M => ?_, inn_extent hne, ?_⟩
    · refine ⟨comments (ls ++ [m]) z, _, ?_, own_part (L := []) (K5 := []) (K6 := [⟨[6], extent (m :: l :: ks ++ c :: vs ++ [r]), {}⟩]) (D := []) hn hi
        nil nil (one ht) nil hl hsu.subset, ?_⟩
      · intro x
        simp only [ownMarks, headMarks, kindOwn, mapMarks, tailMarks, List.mem_append, List.mem_cons, List.not_mem_nil,
          or_false, false_or, Tag.fieldName, Tag.fieldNumber, Tag.fieldTypeName, Tag.fieldOptions]
        exact Iff.of_eq (by ac_rfl)
      · intro x hm
        exact ((own_part (M := []) hn hi nil nil (one ht) nil hl hsu.subset).inn x hm).within ho
    · intro y hy
      simp only [fieldMsgs, List.mem_singleton] at hy
      subst hy
      intro s M _
      exact ⟨fun a _ ha => by simp [srcMarks] at ha, fun a ha => by simp [srcMarks] at ha⟩
  | group h1 _ h4 _ _ h5 h6 _ h7 _ =>
    rename_i ls label g is name e ns number us os o bs b z _ _ _ _ _
    generalize hT : ls ++ g :: is ++ e :: ns ++ us ++ o :: bs ++ [z] = T at *
    have hsu : us.Sublist T := by
      subst hT
      exact (List.sublist_append_right ..).trans ((List.sublist_append_left ..).trans (List.sublist_append_left ..))
    have hsb : bs.Sublist T := by
      subst hT
      exact ((List.sublist_cons_self ..).trans (List.sublist_append_right ..)).trans (List.sublist_append_left ..)
    have hl := listIn_of h6 (ho.sub hsu)
    have hn := (inn_ident h4).mono (ts' := T) (by subst hT; intro x hx; simp [hx])
    have hi := (inn_int h5).mono (ts' := T) (by subst hT; intro x hx; simp [hx])
    have hg : Inn T g.span := inn_tok (by subst hT; simp)
    have hls : ls ⊆ T := by subst hT; intro x hx; simp [hx]
    have hne : T ≠ [] := by subst hT; simp
    refine ⟨fun s scope M => ?_, inn_extent hne, ?_⟩
    · refine ⟨{}, _, ?_, own_part (L := labelMarks s scope label) (K5 := [⟨[5], g.span, {}⟩]) (K6 := [⟨[6], name.span, {}⟩]) (D := []) hn hi
        (label_in h1 hls s scope) (one hg) (one hn) nil hl hsu.subset, ?_⟩
      · intro x
        simp only [ownMarks, headMarks, kindOwn, groupFieldMarks, tailMarks, List.mem_append, List.mem_cons, List.not_mem_nil,
          or_false, false_or, Tag.fieldName, Tag.fieldNumber, Tag.fieldTypeName, Tag.fieldType, Tag.fieldOptions]
        exact Iff.of_eq (by ac_rfl)
      · intro x hm
        exact ((own_part (M := []) hn hi (label_in h1 hls s scope) (one hg) (one hn) nil hl hsu.subset).inn x hm).within ho
    · intro y hy
      simp only [fieldMsgs, List.mem_singleton] at hy
      subst hy
      intro s M hM
      have hbody := (hb bs b h7 (ho.sub hsb) s M hM).mono hsb.subset
      refine (Whole.root (c := comments (ls ++ [g]) o) ((Part.leaf (c := {}) 1 hn).or hbody (by decide)) hne ho).congr fun m => ?_
      simp only [srcMarks, groupMsgMarks, List.mem_append, List.mem_cons, List.not_mem_nil, or_false, Tag.messageName, or_assoc]

end
end Verif.Nesting
