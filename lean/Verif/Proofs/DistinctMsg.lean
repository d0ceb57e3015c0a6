import Verif.Proofs.DistinctMarks
/-!
No two locations of a message have the same path and the same start.
-/
namespace Verif.Dist
open Verif.Ast Verif.Gen

/-! ### Fields -/

theorem pick_d {options name o} (h : listD options) (ho : pick options name = some o) : bodyD o := by
  unfold pick takeOption at ho
  split at ho
  · cases ho
  · rename_i l
    split at ho
    · cases ho
    · rename_i heq
      cases ho
      exact h l rfl _ (takeFirst_mem heq).1

theorem drop1_d {options name} (h : listD options) : listD (drop1 options name) := by
  unfold drop1 takeOption
  split
  · nofun
  · rename_i l
    split
    · exact h
    · rename_i heq
      rintro _ ⟨⟩ x hx
      exact h l rfl _ ((takeFirst_mem heq).2.1 x hx)

theorem labelMarks_nd (s scope label) : ND (labelMarks s scope label) := by
  unfold labelMarks
  split
  · exact .nil
  · split
    · exact .nil
    · simp [ND]
theorem labelMarks_top (s scope label) : Top [some 4] (labelMarks s scope label) := by
  unfold labelMarks
  split
  · exact .nil
  · split
    · exact .nil
    · exact .cons (by decide) .nil
theorem dfltMarks_nd (d) : ND (dfltMarks d) := by cases d <;> simp [dfltMarks, ND]
theorem dfltMarks_top (d) : Top [some 7] (dfltMarks d) := by
  cases d
  · exact .nil
  · exact .cons (by decide) .nil

theorem headMarks_nd (name number) : ND (headMarks name number) := by
  simp [headMarks, ND, Sep, Tag.fieldName, Tag.fieldNumber]
theorem headMarks_top (name number) : Top [some 1, some 3] (headMarks name number) :=
  .cons (by decide) (.cons (by decide) .nil)

theorem tailMarks_nd {options} (h : listD options) : ND (tailMarks options) := by
  refine ND.tops (T := [some 10]) (T' := [some 8]) ?_ (optListMarks_nd _).under ?_ (.under (by decide)) (by decide)
  · cases e : jsonOf options with
    | none => exact .nil
    | some o =>
      have := pick_d (drop1_d h) e
      simp only [jsonMarks, ND, List.pairwise_cons, List.mem_singleton, forall_eq, List.not_mem_nil, false_imp_iff, implies_true,
        List.Pairwise.nil, and_true]
      exact fun _ => this
  · cases jsonOf options with
    | none => exact .nil
    | some o => exact .cons (by decide) (.cons (by decide) .nil)
theorem tailMarks_top (options) : Top [some 10, some 8] (tailMarks options) := by
  refine .app ?_ (.under (by decide))
  cases jsonOf options with
  | none => exact .nil
  | some o => exact .cons (by decide) (.cons (by decide) .nil)

theorem namedMarks_nd (s scope label span cm t d) : ND (namedMarks s scope label span cm t d) :=
  (labelMarks_nd s scope label).tops (T' := [none, some 6, some 7])
    ((((dfltMarks_nd d).topc (dfltMarks_top d) (by decide)).topc (T' := [some 6, some 7])
      (.cons (by decide) ((dfltMarks_top d).mono (by decide))) (by decide)))
    (labelMarks_top s scope label) (.cons (by decide) (.cons (by decide) ((dfltMarks_top d).mono (by decide)))) (by decide)
theorem namedMarks_top (s scope label span cm t d) : Top [none, some 4, some 5, some 6, some 7] (namedMarks s scope label span cm t d) :=
  .app ((labelMarks_top s scope label).mono (by decide)) (.cons (by decide) (.cons (by decide) ((dfltMarks_top d).mono (by decide))))

theorem scalarMarks_nd (s scope label span cm t d) : ND (scalarMarks s scope label span cm t d) :=
  ((labelMarks_nd s scope label).tops (dfltMarks_nd d) (labelMarks_top s scope label) (dfltMarks_top d) (by decide)).tops
    (T := [some 4, some 7]) (T' := [none, some 5]) (by simp [ND, Sep])
    (.app ((labelMarks_top s scope label).mono (by decide)) ((dfltMarks_top d).mono (by decide)))
    (.cons (by decide) (.cons (by decide) .nil)) (by decide)
theorem scalarMarks_top (s scope label span cm t d) : Top [none, some 4, some 5, some 6, some 7] (scalarMarks s scope label span cm t d) :=
  .app (.app ((labelMarks_top s scope label).mono (by decide)) ((dfltMarks_top d).mono (by decide)))
    (.cons (by decide) (.cons (by decide) .nil))

theorem mapMarks_nd (span cm t) : ND (mapMarks span cm t) := by simp [mapMarks, ND, Sep]
theorem mapMarks_top (span cm t) : Top [none, some 4, some 5, some 6, some 7] (mapMarks span cm t) :=
  .cons (by decide) (.cons (by decide) .nil)

theorem groupFieldMarks_nd (s scope label span t n) : ND (groupFieldMarks s scope label span t n) :=
  (labelMarks_nd s scope label).tops (T' := [none, some 5, some 6]) (by simp [ND, Sep, Tag.fieldType, Tag.fieldTypeName])
    (labelMarks_top s scope label) (.cons (by decide) (.cons (by decide) (.cons (by decide) .nil))) (by decide)
theorem groupFieldMarks_top (s scope label span t n) : Top [none, some 4, some 5, some 6, some 7] (groupFieldMarks s scope label span t n) :=
  .app ((labelMarks_top s scope label).mono (by decide)) (.cons (by decide) (.cons (by decide) (.cons (by decide) .nil)))

theorem sep_tops {p : List Int} {a b : List Mark} {T T'} (h : Top T a) (h' : Top T' b) (hd : ∀ t ∈ T, t ∉ T') :
    ∀ x ∈ under p a, ∀ y ∈ under p b, Sep x y := by
  intro x hx y hy e
  obtain ⟨x', hx', rfl⟩ := under_mem hx
  obtain ⟨y', hy', rfl⟩ := under_mem hy
  have e : x'.path = y'.path := List.append_cancel_left e
  exact absurd (h' y' hy') (hd _ (e ▸ h x' hx'))

theorem sep_heads {a b : List Mark} {t t' : Int} (h : Top [some t] a) (h' : Top [some t'] b) (hd : t ≠ t') :
    ∀ x ∈ a, ∀ y ∈ b, Sep x y := by
  intro x hx y hy e
  have h1 := h x hx
  have h2 := h' y hy
  rw [e] at h1
  simp only [List.mem_singleton] at h1 h2
  rw [h1] at h2
  cases h2
  exact absurd rfl hd

theorem not_tag {p0 : Int} {i t : Int} {a : List Mark} {T} (h : Top T a) (ht : some t ∉ T) :
    ∀ y ∈ under [p0, i] a, y.path ≠ [p0, i, t] := by
  intro y hy e
  obtain ⟨y', hy', rfl⟩ := under_mem hy
  have e : y'.path = [t] := by simpa using e
  have := h y' hy'
  rw [e] at this
  exact ht this

/-- What a field records: its own locations, and those of the message it declares. -/
theorem field_parts {ft mt : Int} (hne : ft ≠ mt) {i : Nat} {H K T G : List Mark} (nH : ND H) (nK : ND K) (nT : ND T) (nG : ND G)
    (tH : Top [some 1, some 3] H) (tK : Top [none, some 4, some 5, some 6, some 7] K) (tT : Top [some 10, some 8] T)
    (tG : Top [some mt] G) :
    ND (under [ft, (i : Int)] H ++ (under [ft, (i : Int)] K ++ G) ++ under [ft, (i : Int)] T) := by
  have tu : ∀ X : List Mark, Top [some ft] (under [ft, (i : Int)] X) := fun X => .under (by simp)
  refine ND.app (ND.app nH.under (ND.app nK.under nG (sep_heads (tu K) tG hne)) ?_) nT.under ?_
  · intro x hx y hy
    rcases List.mem_append.1 hy with hy | hy
    · exact sep_tops tH tK (by decide) x hx y hy
    · exact sep_heads (tu H) tG hne x hx y hy
  · intro x hx y hy
    rcases List.mem_append.1 hx with hx | hx
    · exact sep_tops tH tT (by decide) x hx y hy
    rcases List.mem_append.1 hx with hx | hx
    · exact sep_tops tK tT (by decide) x hx y hy
    · exact sep_heads tG (tu T) (Ne.symm hne) x hx y hy

/-! ### Messages -/

/-- The next index below each number of a message. -/
def cntLo (c : Cnt) : Int → Nat := fun t =>
  if t = 2 then c.field else if t = 6 then c.ext else if t = 3 then c.nested else if t = 4 then c.enum else
    if t = 8 then c.oneof else 0

theorem cntLo_next (c : Cnt) (x : MessageItem) (t : Int) : cntLo c t ≤ cntLo (c.next x) t := by
  cases x <;> simp only [Cnt.next, cntLo] <;> (repeat' split) <;> omega

theorem Rng.weak {lo hi : Int → Nat} {S a} {ms : List Mark} (h : Rng lo hi [] ms) (e : a = ms) : Rng lo hi S a := by
  subst e
  exact h.mono (fun _ => Nat.le_refl _) (fun _ => Nat.le_refl _) nofun

abbrev msgTags : List (Option Int) := [some 2, some 3, some 4, some 6, some 8]
abbrev bodyTags : List (Option Int) := [some 2, some 3, some 4, some 5, some 6, some 7, some 8, some 9, some 10]

theorem oneofMarks_nd {o : Oneof} (h : optsD o.options) : ND (oneofMarks o) := by
  refine ND.topc (T' := [some 1, some 2]) (ND.topc (T' := [some 2]) (optsMarks_nd 0 _ h).under (.under (by decide)) (by decide))
    (.cons (by decide) (.under (by decide))) (by decide)

theorem bodyTail_nd {exts opts res} (h1 : extsD exts) (h2 : optsD opts) (h3 : resD res) :
    ND (bodyTailMarks exts opts res) := by
  have n1 := (reservedMarks_both (tagR := Tag.messageReservedRange) (tagN := Tag.messageReservedName) (by decide) 0 0 res h3).1
  have t1 := reservedMarks_top (tagR := Tag.messageReservedRange) (tagN := Tag.messageReservedName) 0 0 res
  have n2 := (extensionsMarks_both Tag.messageExtensionRange 0 exts h1).1
  have t2 : Top [some 5] (under [Tag.messageExtensionRange] (extensionsMarks 0 exts)) := .under (by decide)
  have n3 := (optsMarks_nd 0 opts h2).under (p := [Tag.messageOptions])
  have t3 : Top [some 7] (under [Tag.messageOptions] (optsMarks 0 opts)) := .under (by decide)
  exact (n1.tops n2 t1 t2 (by decide)).tops n3 (T := [some 9, some 10, some 5])
    (.app (t1.mono (by decide)) (t2.mono (by decide))) t3 (by decide)

theorem bodyTail_top (exts opts res) : Top [some 5, some 7, some 9, some 10] (bodyTailMarks exts opts res) :=
  .app (.app ((reservedMarks_top (tagR := Tag.messageReservedRange) (tagN := Tag.messageReservedName) 0 0 res).mono (by decide))
    (.under (by decide))) (.under (by decide))

mutual
theorem body_nd (s) : ∀ b : MessageBody, MessageBodyD b → ND (bodyMarks s b) ∧ Top bodyTags (bodyMarks s b)
  | ⟨items, exts, opts, res⟩, h => by
    rw [MessageBodyD] at h
    rw [bodyMarks]
    obtain ⟨n, _, t⟩ := items_nd s {} items h.1 h.2.1
    exact ⟨n.tops (bodyTail_nd h.2.2.1 h.2.2.2.1 h.2.2.2.2) t (bodyTail_top _ _ _) (by decide),
      .app (t.mono (by decide)) ((bodyTail_top _ _ _).mono (by decide))⟩
theorem items_nd (s) : ∀ (c : Cnt) (b : List MessageItem), itemsD b → (extStarts b).Nodup →
    ND (itemsMarks s c b) ∧ (∃ hi, Rng (cntLo c) hi (extStarts b) (itemsMarks s c b)) ∧ Top msgTags (itemsMarks s c b)
  | _, [], _, _ => by rw [itemsMarks]; exact ⟨.nil, ⟨fun _ => 0, .nil⟩, .nil⟩
  | c, x :: xs, h, hn => by
    rw [itemsD] at h
    rw [itemsMarks]
    have hn' : (extStart x ++ extStarts xs).Nodup := hn
    obtain ⟨_, hn2, hn3⟩ := List.nodup_append.1 hn'
    obtain ⟨n1, r1, t1⟩ := item_nd s c x h.1
    obtain ⟨n2, ⟨hi, r2⟩, t2⟩ := items_nd s (c.next x) xs h.2 hn2
    refine ⟨n1.rng n2 r1 r2 (fun a ha hb => hn3 a ha a hb rfl), ⟨fun t => max (hi t) (cntLo (c.next x) t), .app ?_ ?_⟩, .app t1 t2⟩
    · exact r1.mono (fun _ => Nat.le_refl _) (fun _ => Nat.le_max_right ..) (fun a ha => List.mem_append_left _ ha)
    · exact r2.mono (cntLo_next c x) (fun _ => Nat.le_max_left ..) (fun a ha => List.mem_append_right _ ha)
theorem item_nd (s c) : ∀ b : MessageItem, MessageItemD b →
    ND (itemMarks s c b) ∧ Rng (cntLo c) (cntLo (c.next b)) (extStart b) (itemMarks s c b) ∧ Top msgTags (itemMarks s c b)
  | .field f, h => by
    rw [MessageItemD] at h; rw [itemMarks]
    obtain ⟨n, r, t, _⟩ := field_nd s .message Tag.messageField Tag.messageNestedType c.field c.nested (by decide) f h
    exact ⟨n, r _ _ _ (Nat.le_refl _) (Nat.lt_succ_self _) (Nat.le_refl _) (Nat.le_refl _), t.mono (by decide)⟩
  | .enum e, h => by
    rw [MessageItemD] at h; rw [itemMarks]
    exact ⟨(enumMarks_nd h).under, .under (Nat.le_refl _) (Nat.lt_succ_self _), .under (by decide)⟩
  | .message x, h => by
    rw [MessageItemD] at h; rw [itemMarks]
    exact ⟨(message_nd s x h).under, .under (Nat.le_refl _) (Nat.lt_succ_self _), .under (by decide)⟩
  | .extend e, h => by
    rw [MessageItemD] at h; rw [itemMarks]
    obtain ⟨n, r, t⟩ := extend_nd s Tag.messageExtension Tag.messageNestedType c.ext c.nested (by decide) e h
    exact ⟨n, r _ _ (Nat.le_refl _) (Nat.le_refl _) (Nat.le_refl _) (Nat.le_refl _), t.mono (by decide)⟩
  | .oneof o, h => by rw [MessageItemD] at h; rw [itemMarks]; exact oneofAll_nd s c o h
theorem oneofAll_nd (s c) : ∀ b : Oneof, OneofD b →
    ND (oneofAllMarks s c b) ∧ Rng (cntLo c) (cntLo (c.next (.oneof b))) [] (oneofAllMarks s c b) ∧ Top msgTags (oneofAllMarks s c b)
  | ⟨name, options, fields, cm, sp⟩, h => by
    rw [OneofD] at h
    rw [oneofAllMarks]
    obtain ⟨n, r, t⟩ := oneofFields_nd s c.field c.nested fields h.2
    have n1 := (oneofMarks_nd (o := ⟨name, options, fields, cm, sp⟩) h.1).under (p := [Tag.messageOneofDecl, (c.oneof : Int)])
    have t1 : Top [some 8] (under [Tag.messageOneofDecl, (c.oneof : Int)] (oneofMarks ⟨name, options, fields, cm, sp⟩)) := .under (by decide)
    refine ⟨n1.tops n t1 t (by decide), .app (.under (Nat.le_refl _) (Nat.lt_succ_self _)) ?_, .app (t1.mono (by decide)) (t.mono (by decide))⟩
    exact r _ _ (Nat.le_refl _) (Nat.le_refl _) (Nat.le_refl _) (Nat.le_refl _)
theorem extend_nd (s et mt i k) (hne : et ≠ mt) : ∀ b : Extend, ExtendD b →
    ND (extendMarks s et mt i k b) ∧ (∀ lo hi : Int → Nat, lo et ≤ i → i + b.fields.length ≤ hi et → lo mt ≤ k →
      k + nestedCounts b.fields ≤ hi mt → Rng lo hi [b.span.start] (extendMarks s et mt i k b)) ∧
    Top [some et, some mt] (extendMarks s et mt i k b)
  | ⟨t, fields, c, sp⟩, h => by
    rw [ExtendD] at h
    rw [extendMarks]
    obtain ⟨n, r, tt⟩ := extFields_nd s t et mt hne i k fields h
    refine ⟨n.cons fun y hy e => ?_, fun lo hi h1 h2 h3 h4 => .cons (.short (by simp) (.head _)) (.weak (r lo hi h1 h2 h3 h4) rfl),
      .cons (by simp) tt⟩
    have := rng_pos (r (fun _ => 0) (fun _ => i + fields.length + (k + nestedCounts fields)) (Nat.zero_le _) (Nat.le_add_right ..)
      (Nat.zero_le _) (Nat.le_add_left ..)) y hy
    rw [← e] at this; simp at this
theorem oneofFields_nd (s) : ∀ i k, ∀ b : List Field, fieldsD b → ND (oneofFieldsMarks s i k b) ∧
    (∀ lo hi : Int → Nat, lo 2 ≤ i → i + b.length ≤ hi 2 → lo 3 ≤ k → k + nestedCounts b ≤ hi 3 →
      Rng lo hi [] (oneofFieldsMarks s i k b)) ∧ Top [some 2, some 3] (oneofFieldsMarks s i k b)
  | _, _, [], _ => by rw [oneofFieldsMarks]; exact ⟨.nil, fun _ _ _ _ _ _ => .nil, .nil⟩
  | i, k, x :: xs, h => by
    rw [fieldsD] at h
    rw [oneofFieldsMarks]
    obtain ⟨n1, r1, t1, _⟩ := field_nd s .oneof Tag.messageField Tag.messageNestedType i k (by decide) x h.1
    obtain ⟨n2, r2, t2⟩ := oneofFields_nd s (i + 1) (k + nestedCount x) xs h.2
    refine ⟨?_, fun lo hi h1 h2 h3 h4 => ?_, .app t1 t2⟩
    · let mid : Int → Nat := fun t => if t = 2 then i + 1 else if t = 3 then k + nestedCount x else 0
      let top : Int → Nat := fun _ => i + 1 + xs.length + (k + nestedCount x + nestedCounts xs)
      refine n1.rng (lo := fun _ => 0) (mid := mid) (S := []) n2 (r1 _ _ _ (Nat.zero_le _) (Nat.lt_succ_self _) (Nat.zero_le _) (Nat.le_refl _))
        (r2 mid top (Nat.le_refl _) (Nat.le_add_right ..) (Nat.le_refl _) (Nat.le_add_left ..)) nofun
    · rw [nestedCounts] at h4
      rw [List.length_cons] at h2
      exact .app (r1 lo hi _ h1 (by show i < hi 2; omega) h3 (by show _ ≤ hi 3; omega)) (r2 lo hi (by omega) (by omega) (by omega) (by omega))
theorem extFields_nd (s t et mt) (hne : et ≠ mt) : ∀ i k, ∀ b : List Field, fieldsD b → ND (extFieldsMarks s t et mt i k b) ∧
    (∀ lo hi : Int → Nat, lo et ≤ i → i + b.length ≤ hi et → lo mt ≤ k → k + nestedCounts b ≤ hi mt →
      Rng lo hi [] (extFieldsMarks s t et mt i k b)) ∧ Top [some et, some mt] (extFieldsMarks s t et mt i k b)
  | _, _, [], _ => by rw [extFieldsMarks]; exact ⟨.nil, fun _ _ _ _ _ _ => .nil, .nil⟩
  | i, k, x :: xs, h => by
    rw [fieldsD] at h
    rw [extFieldsMarks]
    obtain ⟨n1, r1, t1, e1⟩ := field_nd s .extend et mt i k hne x h.1
    obtain ⟨n2, r2, t2⟩ := extFields_nd s t et mt hne (i + 1) (k + nestedCount x) xs h.2
    refine ⟨?_, fun lo hi h1 h2 h3 h4 => ?_, .app (.cons (by simp) t1) t2⟩
    · let mid : Int → Nat := fun t => if t = et then i + 1 else if t = mt then k + nestedCount x else 0
      let top : Int → Nat := fun _ => i + 1 + xs.length + (k + nestedCount x + nestedCounts xs)
      have m1 : mid et = i + 1 := by simp [mid]
      have m2 : mid mt = k + nestedCount x := by simp [mid, Ne.symm hne]
      refine ND.rng (lo := fun _ => 0) (mid := mid) (S := []) ?_ n2
        (.cons (.one (Nat.zero_le _) (by omega)) (r1 _ _ _ (Nat.zero_le _) (by omega) (Nat.zero_le _) (by omega)))
        (r2 mid top (by omega) (Nat.le_add_right ..) (by omega) (Nat.le_add_left ..)) nofun
      exact n1.cons fun y hy e => absurd e.symm (e1 y hy)
    · rw [nestedCounts] at h4
      rw [List.length_cons] at h2
      exact .app (.cons (.one h1 (by omega)) (r1 lo hi _ h1 (by omega) h3 (by omega))) (r2 lo hi (by omega) (by omega) (by omega) (by omega))
theorem field_nd (s scope ft mt i k) (hne : ft ≠ mt) : ∀ b : Field, FieldD b → ND (fieldMarks s scope ft mt i k b) ∧
    (∀ (lo hi : Int → Nat) S, lo ft ≤ i → i < hi ft → lo mt ≤ k → k + nestedCount b ≤ hi mt →
      Rng lo hi S (fieldMarks s scope ft mt i k b)) ∧ Top [some ft, some mt] (fieldMarks s scope ft mt i k b) ∧
    ∀ y ∈ fieldMarks s scope ft mt i k b, y.path ≠ [ft, (i : Int), Tag.fieldExtendee]
  | ⟨label, name, kind, number, options, comments, span⟩, h => by
    rw [FieldD] at h
    rw [fieldMarks]
    obtain ⟨K, G, e, nK, tK, nG, tG, rG⟩ := kind_nd s scope ft mt i k label name span comments (dfltOf options) kind h.1
    rw [e]
    refine ⟨field_parts hne (headMarks_nd _ _) nK (tailMarks_nd h.2) nG (headMarks_top _ _) tK (tailMarks_top _) tG,
      fun lo hi S h1 h2 h3 h4 => ?_, ?_, ?_⟩
    · exact .app (.app (.under h1 h2) (.app (.under h1 h2) (rG lo hi S h3 h4))) (.under h1 h2)
    · exact .app (.app (.under (by simp)) (.app (.under (by simp)) (tG.mono (by simp)))) (.under (by simp))
    · intro y hy
      rcases List.mem_append.1 hy with hy | hy
      · rcases List.mem_append.1 hy with hy | hy
        · exact not_tag (headMarks_top _ _) (by decide) y hy
        · rcases List.mem_append.1 hy with hy | hy
          · exact not_tag tK (by decide) y hy
          · intro e
            have := tG y hy
            rw [e] at this
            simp at this
            exact hne this
      · exact not_tag (tailMarks_top _) (by decide) y hy
theorem kind_nd (s scope ft mt i k label) (name : Ident) (span : Span) (cm dflt) : ∀ kd : FieldKind, FieldKindD kd →
    ∃ K G, kindMarks s scope ft mt i k label name span cm dflt kd = under [ft, (i : Int)] K ++ G ∧ ND K ∧
      Top [none, some 4, some 5, some 6, some 7] K ∧ ND G ∧ Top [some mt] G ∧
      ∀ (lo hi : Int → Nat) S, lo mt ≤ k → k + (match kd with | .normal .. => 0 | _ => 1) ≤ hi mt → Rng lo hi S G
  | .normal ty sp, h => by
    cases ty with
    | named t => exact ⟨_, [], by rw [kindMarks, List.append_nil], namedMarks_nd .., namedMarks_top _ _ _ _ _ _ _, .nil, .nil, fun _ _ _ _ _ => .nil⟩
    | _ => exact ⟨_, [], by rw [kindMarks, List.append_nil]; nofun, scalarMarks_nd .., scalarMarks_top _ _ _ _ _ _ _, .nil, .nil, fun _ _ _ _ _ => .nil⟩
  | .group sp body, h => by
    rw [FieldKindD] at h
    obtain ⟨n, t⟩ := body_nd s body h
    refine ⟨_, _, by rw [kindMarks], groupFieldMarks_nd .., groupFieldMarks_top _ _ _ _ _ _, ND.under ?_, .under (by simp), fun lo hi S h1 h2 => .under h1 h2⟩
    exact ND.topc (T' := some 1 :: bodyTags) (ND.topc (T' := bodyTags) n t (by decide)) (.cons (by decide) (t.mono (by decide))) (by decide)
  | .map sp k ksp v vsp, h =>
    ⟨_, [], by rw [kindMarks, List.append_nil], mapMarks_nd .., mapMarks_top _ _ _, .nil, .nil, fun _ _ _ _ _ => .nil⟩
theorem message_nd (s) : ∀ b : Message, MessageD b → ND (messageMarks s b)
  | ⟨name, body, c, sp⟩, h => by
    rw [MessageD] at h; rw [messageMarks]
    obtain ⟨n, t⟩ := body_nd s body h
    exact ND.topc (T' := some 1 :: bodyTags) (ND.topc (T' := bodyTags) n t (by decide)) (.cons (by decide) (t.mono (by decide))) (by decide)
end

end Verif.Dist
