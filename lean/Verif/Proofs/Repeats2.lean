import Verif.Proofs.Repeats
/-!
How often each diagnostic is reported: fields, messages, files.
-/
namespace Verif.Repeats
open Verif.Ast Verif.Spec Verif.Places Verif.Gen Verif.Dist

/-! ### The diagnostics of one field -/

/-- A class of diagnostics; the diagnostics of one field are from different classes. -/
def rank : ParseErrorKind → Nat
  | .invalidMessageNumber _ => 0
  | .invalidDefault w _ => if w = b!"group" then 2 else 1
  | .proto3DefaultValue _ => 1
  | .invalidExtendFieldKind .. | .requiredExtendField _ | .mapFieldWithLabel _ | .oneofFieldWithLabel _
  | .proto2FieldMissingLabel _ | .proto3RequiredField _ | .invalidOneofFieldKind .. => 3
  | .proto3GroupField _ => 4
  | .invalidMapFieldKeyType _ => 5
  | .negativeIdentOutsideDefault _ | .valueInvalidType .. | .integerValueOutOfRange .. | .invalidUtf8String _ => 6
  | _ => 7

/-- At most one diagnostic, of a given class. -/
def Single (n : Nat) (l : List ParseErrorKind) : Prop := l.length ≤ 1 ∧ ∀ k ∈ l, rank k = n

theorem Single.nil {n} : Single n [] := ⟨by simp, nofun⟩
theorem Single.one {n k} (h : rank k = n) : Single n [k] := ⟨by simp, fun k' hk => by rw [List.mem_singleton.1 hk]; exact h⟩
theorem Single.ite {n k} {c : Prop} [Decidable c] (h : rank k = n) : Single n (if c then [k] else []) := by
  split
  · exact .one h
  · exact .nil

theorem number_single (i) : Single 0 (messageNumberErrs i) := .ite rfl

theorem defaultCheck_single (s label m d) : Single 1 (defaultCheckErrs s label m d) := by
  unfold defaultCheckErrs
  split
  · exact .nil
  · split
    · exact .one rfl
    · split
      · exact .one rfl
      · exact .ite rfl

theorem label_single (s scope label sp) : Single 3 (labelErrs s scope label sp) := by
  unfold labelErrs
  split <;> first | exact .one rfl | exact .ite rfl | exact .nil

theorem mapScope_single (label sp scope) : Single 3 (mapScopeErrs label sp scope) := by
  unfold mapScopeErrs
  split <;> first | exact .one rfl | (split <;> first | exact .one rfl | exact .nil)

theorem groupDflt_single (d) : Single 2 (groupDfltErrs d) := by
  unfold groupDfltErrs
  split
  · exact .nil
  · exact .one rfl

/-- Lists of different classes. -/
theorem nodup_cons_single {n l r} (h : Single n l) (hr : r.Nodup) (hk : ∀ k ∈ r, n < rank k) :
    (l ++ r).Nodup := by
  rw [List.nodup_append]
  refine ⟨one_nodup h.1, hr, fun a ha b hb e => ?_⟩
  subst e
  have := h.2 _ ha
  have := hk _ hb
  omega

theorem rank_cons {n m l r} (h : Single n l) (hk : ∀ k ∈ r, m < rank k) (hm : m < n) : ∀ k ∈ l ++ r, m < rank k := by
  intro k hk'
  rcases List.mem_append.1 hk' with h' | h'
  · rw [h.2 k h']; exact hm
  · exact hk k h'

/-! ### The diagnostics of option values -/

/-- At most one diagnostic, at the value of the option, of the class of values. -/
def AtValue (o : OptionBody) (l : List ParseErrorKind) : Prop :=
  Single 6 l ∧ ∀ k ∈ l, errStart k = o.value.span.start

theorem atValue_one {o k} (h : rank k = 6) (he : errStart k = o.value.span.start) : AtValue o [k] :=
  ⟨.one h, fun k' hk => by rw [List.mem_singleton.1 hk]; exact he⟩
theorem atValue_nil {o} : AtValue o [] := ⟨.nil, nofun⟩
theorem atValue_ite {o k} {c : Prop} [Decidable c] (h : rank k = 6) (he : errStart k = o.value.span.start) :
    AtValue o (if c then [k] else []) := by
  split
  · exact atValue_one h he
  · exact atValue_nil

theorem option_atValue (o) : AtValue o (optionErrs o) := by
  refine ⟨⟨optionErrs_one o, fun k hk => ?_⟩, fun k hk => optionErrs_at hk⟩
  cases mem_optionErrs.1 hk <;> rfl

theorem string_atValue (o : OptionBody) : AtValue o (stringErrs o.value) := by
  cases hv : o.value <;> unfold stringErrs
  case string s => dsimp only; split <;> first | exact atValue_nil | exact atValue_one rfl (by rw [hv]; rfl)
  all_goals exact atValue_one rfl (by rw [hv]; rfl)

theorem integer_atValue (c) (o : OptionBody) : AtValue o (integerErrs c o.value) := by
  cases hv : o.value <;> unfold integerErrs
  case int i => exact atValue_ite rfl (by rw [hv]; rfl)
  all_goals exact atValue_one rfl (by rw [hv]; rfl)

theorem scalar_atValue (ty) (o : OptionBody) : AtValue o (scalarErrs ty o.value) := by
  unfold scalarErrs
  split <;> first | exact integer_atValue _ o | exact atValue_ite rfl rfl | exact string_atValue o | exact atValue_nil

/-- What is left after an option was taken, and that option. -/
theorem takeFirst_perm {name} : ∀ {os : List OptionBody} {o rest}, takeFirst name os = some (o, rest) →
    (o :: rest).Perm os
  | [], _, _, h => by cases h
  | x :: xs, o, rest, h => by
    unfold takeFirst at h
    split at h
    · cases h; exact .refl _
    · split at h
      · cases h
      · rename_i heq
        cases h
        exact (List.Perm.swap ..).trans ((takeFirst_perm heq).cons _)

theorem pick_perm (os name) : ((pick os name).toList ++ listed (drop1 os name)).Perm (listed os) := by
  unfold pick drop1 takeOption
  cases os with
  | none => exact .refl _
  | some l =>
    cases h : takeFirst name l.options with
    | none => dsimp only; rw [h]; exact .refl _
    | some p => obtain ⟨o, rest⟩ := p; dsimp only; rw [h]; exact takeFirst_perm h

theorem parts_perm (os) : ((dfltOf os).toList ++ ((jsonOf os).toList ++ listed (opts2 os))).Perm (listed os) :=
  (List.Perm.append_left _ (pick_perm _ _)).trans (pick_perm _ _)

/-- Diagnostics at the values of different options. -/
theorem atValues_nodup {g : Nat → OptionBody → List ParseErrorKind} {os : List (Nat × OptionBody)}
    (hg : ∀ n o, AtValue o (g n o)) (hn : (os.map fun x => x.2.value.span.start).Nodup) :
    (os.flatMap fun x => g x.1 x.2).Nodup := by
  induction os with
  | nil => simp
  | cons x xs ih =>
    rw [List.map_cons, List.nodup_cons] at hn
    rw [List.flatMap_cons, List.nodup_append]
    refine ⟨one_nodup (hg _ _).1.1, ih hn.2, fun a ha b hb e => hn.1 ?_⟩
    subst e
    obtain ⟨y, hy, hb⟩ := List.mem_flatMap.1 hb
    refine List.mem_map.2 ⟨y, hy, ?_⟩
    show y.2.value.span.start = x.2.value.span.start
    rw [← (hg _ _).2 _ ha, ← (hg _ _).2 _ hb]

/-- The diagnostics about the values of the options of a field. -/
def valueErrs (d : OptionBody → List ParseErrorKind) (os : Option OptionList) : List ParseErrorKind :=
  (match dfltOf os with
    | none => []
    | some o => d o) ++ tailErrs os

/-- The diagnostics about the value of the default (0), of the JSON name (1), or of another option. -/
def partErrs (d : OptionBody → List ParseErrorKind) : Nat → OptionBody → List ParseErrorKind
  | 0, o => d o
  | 1, o => stringErrs o.value
  | _ + 2, o => optionErrs o

/-- The options of a field and what they are. -/
def partsOf (os : Option OptionList) : List (Nat × OptionBody) :=
  ((dfltOf os).toList.map fun o => (0, o)) ++ (((jsonOf os).toList.map fun o => (1, o)) ++
    (listed (opts2 os)).map fun o => (2, o))

theorem valueErrs_eq (d os) : valueErrs d os = (partsOf os).flatMap fun x => partErrs d x.1 x.2 := by
  unfold valueErrs tailErrs jsonErrs optListErrs partsOf
  rw [List.flatMap_append, List.flatMap_append]
  congr 1
  · cases dfltOf os <;> simp [partErrs]
  · congr 1
    · cases jsonOf os <;> simp [partErrs]
    · cases opts2 os <;> simp [listed, List.flatMap_map, partErrs]

section
variable [FloatFmt]

theorem optList_starts {ts l} (h : OptListG ts l) (hi : Inc ts) : ((listed l).map fun o => o.value.span.start).Nodup ∧
    ∀ o ∈ listed l, ∃ a ∈ ts, o.value.span.start = a.span.start := by
  cases h with
  | none => exact ⟨by simp [listed], nofun⟩
  | @some l ts r os _ h _ =>
    have := sepBy_starts (s := fun o => o.value.span.start) (fun _ _ h => (body_at h).1) h
      (hi.sub (show ts.Sublist _ by subl))
    exact ⟨this.1, fun o ho => let ⟨a, h1, h2⟩ := this.2 o ho; ⟨a, by simp [h1], h2⟩⟩

theorem optList_ospan {ts l} (h : OptListG ts l) : ∀ o ∈ listed l, ∃ a ∈ ts, (ospan o).start = a.span.start := by
  cases h with
  | none => nofun
  | @some l ts r os _ h _ =>
    have : ∀ o ∈ os, ∃ a ∈ ts, (ospan o).start = a.span.start := by
      induction h with
      | one h => intro o ho; rw [List.mem_singleton.1 ho]; exact (body_at h).2
      | cons h _ _ ih =>
        intro o ho
        rcases List.mem_cons.1 ho with rfl | ho
        · obtain ⟨a, h1, h2⟩ := (body_at h).2
          exact ⟨a, by simp [h1], h2⟩
        · obtain ⟨a, h1, h2⟩ := ih o ho
          exact ⟨a, by simp [h1], h2⟩
    exact fun o ho => let ⟨a, h1, h2⟩ := this o ho; ⟨a, by simp [h1], h2⟩

theorem valueErrs_facts {d : OptionBody → List ParseErrorKind} (hd : ∀ o, AtValue o (d o)) {ts os} (h : OptListG ts os)
    (hi : Inc ts) : (valueErrs d os).Nodup ∧ (∀ k ∈ valueErrs d os, 5 < rank k ∧ AtTok ts k) := by
  obtain ⟨h1, h2⟩ := optList_starts h hi
  have hp := parts_perm os
  have hg : ∀ (n : Nat) o, AtValue o (partErrs d n o) := by
    intro n o
    match n with
    | 0 => exact hd o
    | 1 => exact string_atValue o
    | n + 2 => exact option_atValue o
  rw [valueErrs_eq]
  constructor
  · refine atValues_nodup hg ?_
    have := (hp.map fun o => o.value.span.start).nodup_iff.2 h1
    simpa [partsOf, List.map_append, Function.comp_def] using this
  · intro k hk
    obtain ⟨⟨n, o⟩, hx, hk⟩ := List.mem_flatMap.1 hk
    have ho : o ∈ listed os := by
      refine hp.mem_iff.1 ?_
      simp only [partsOf, List.mem_append, List.mem_map, Prod.mk.injEq] at hx ⊢
      rcases hx with ⟨_, h, _, rfl⟩ | ⟨_, h, _, rfl⟩ | ⟨_, h, _, rfl⟩
      · exact .inl h
      · exact .inr (.inl h)
      · exact .inr (.inr h)
    obtain ⟨a, ha, e⟩ := h2 o ho
    exact ⟨by have := (hg n o).1.2 k hk; omega, a, ha, ((hg n o).2 k hk).trans e⟩

end
end Verif.Repeats
