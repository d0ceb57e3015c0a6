import Verif.Proofs.Gen5
/-!
A syntax tree is no larger than its token sequence, so that no index in a descriptor overflows.
-/
namespace Verif.Gen
open Verif.Ast Verif.Grammar

theorem _root_.Verif.Grammar.SepBy.length_le {α : Type} {sep : Token} {item : List Token → α → Prop} {ts as} (h : SepBy sep item ts as)
    (hi : ∀ t a, item t a → t ≠ []) : as.length ≤ ts.length := by
  induction h with
  | one h =>
    have := List.length_pos_iff.2 (hi _ _ h)
    simp only [List.length_singleton]; omega
  | cons h _ ih =>
    simp only [List.length_cons, List.length_append]; omega

/-- A measure that grows by at most the number of tokens stays below it. -/
theorem Many.le {σ : Type} {elem : List Token → σ → σ → Prop} (f : σ → Nat)
    (hf : ∀ t s s', elem t s s' → f s' ≤ f s + t.length) {ts s s'} (h : Many elem ts s s') :
    f s' ≤ f s + ts.length := by
  induction h with
  | nil => simp
  | cons h _ ih =>
    have := hf _ _ _ h
    simp only [List.length_append]; omega

/-- A property kept by each element. -/
theorem Many.inv {σ : Type} {elem : List Token → σ → σ → Prop} (P : σ → Prop) (n : Nat)
    (hf : ∀ t s s', elem t s s' → t.length ≤ n → P s → P s') {ts s s'} (h : Many elem ts s s') (hn : ts.length ≤ n)
    (h0 : P s) : P s' := by
  induction h with
  | nil => exact h0
  | cons h _ ih =>
    simp only [List.length_append] at hn
    exact ih (by omega) (hf _ _ _ h (by omega) h0)

theorem optList_small [FloatFmt] {ts os n} (h : OptListG ts os) (hn : ts.length ≤ n) : optListSmall n os := by
  cases h with
  | none => nofun
  | some h =>
    rintro _ ⟨⟩
    have := h.length_le (by rintro _ _ ⟨⟩; simp)
    simp only [List.length_append, List.length_cons] at hn
    simp only; omega

theorem intG_ne {ts i} (h : IntG ts i) : ts ≠ [] := by cases h <;> simp
theorem rangeG_ne {ts r} (h : RangeG ts r) : ts ≠ [] := by
  cases h with
  | single h => exact intG_ne h
  | to h => simp
  | max h => simp
theorem identStrG_ne {ts i} (h : IdentStrG ts i) : ts ≠ [] := by
  obtain ⟨⟨⟨sp, ps, h1, h2, _⟩, _⟩, _⟩ := h
  subst h2; simpa using h1

theorem reserved_le {ts r} (h : ReservedG ts r) :
    (resRanges r).length + (resNames r).length ≤ ts.length := by
  cases h with
  | ranges h =>
    have := h.length_le fun _ _ => rangeG_ne
    simp only [resRanges, resNames, List.length_append, List.length_cons, List.length_nil]; omega
  | names h =>
    have := h.length_le fun _ _ => identStrG_ne
    simp only [resRanges, resNames, List.length_append, List.length_cons, List.length_nil]; omega

theorem optionG_pos [FloatFmt] {ts o} (h : OptionG ts o) : 1 ≤ ts.length := by cases h; simp

theorem fieldG_pos [FloatFmt] {body ts f} (h : FieldG body ts f) : 1 ≤ ts.length := by
  cases h <;> simp only [List.length_append, List.length_cons] <;> omega

theorem enumValueG_small [FloatFmt] {ts v n} (h : EnumValueG ts v) (hn : ts.length ≤ n) : optListSmall n v.options := by
  cases h with
  | mk _ _ h =>
    simp only [List.length_append, List.length_cons] at hn
    exact optList_small h (by omega)

theorem enum_small [FloatFmt] {ts e n} (h : EnumG ts e) (hn : ts.length ≤ n) : enumSmall n e := by
  cases h with
  | @mk is name ts os vs rs c sp h1 h2 =>
    simp only [List.length_append, List.length_cons, List.length_nil] at hn
    have m1 := Many.le (fun s => s.2.1.length) (by
      rintro _ _ _ ⟨⟩ <;> simp only [List.length_append, List.length_singleton] <;> try omega
      rename_i h _; cases h; simp only [List.length_append, List.length_cons]; omega) h2
    have m2 := Many.le (fun s => s.1.length) (by
      rintro _ _ _ ⟨⟩ <;> simp only [List.length_append, List.length_singleton] <;> try omega
      rename_i h; have := optionG_pos h; omega) h2
    have m3 := Many.le (fun s => (allRanges s.2.2).length) (by
      rintro _ _ _ ⟨⟩ <;> simp only [allRanges, List.flatMap_append, List.flatMap_cons, List.flatMap_nil,
        List.length_append, List.length_nil] <;> try omega
      rename_i h; have := reserved_le h; omega) h2
    have m4 := Many.le (fun s => (allNames s.2.2).length) (by
      rintro _ _ _ ⟨⟩ <;> simp only [allNames, List.flatMap_append, List.flatMap_cons, List.flatMap_nil,
        List.length_append, List.length_nil] <;> try omega
      rename_i h; have := reserved_le h; omega) h2
    have m5 := Many.inv (fun s => ∀ v ∈ s.2.1, optListSmall n v.options) n (by
      rintro _ _ _ ⟨⟩ hl h0 <;> try exact h0
      rename_i h _
      intro v hv
      rcases List.mem_append.1 hv with hv | hv
      · exact h0 v hv
      · simp only [List.mem_singleton] at hv; subst hv; exact enumValueG_small h hl) h2 (by omega) nofun
    simp only [List.length_nil, allRanges, allNames, List.flatMap_nil, Nat.zero_add] at m1 m2 m3 m4
    exact ⟨by simp only; omega, m5, by simp only [allRanges]; omega, by simp only [allNames]; omega, by simp only; omega⟩

theorem methodG_small [FloatFmt] {ts x n} (h : MethodG ts x) (hn : ts.length ≤ n) : x.options.length ≤ n := by
  cases h with
  | mk _ _ _ h =>
    simp only [List.length_append, List.length_cons] at hn
    cases h with
    | semi => simp
    | body h =>
      have m := Many.le (fun s => s.length) (by
        rintro _ _ _ ⟨⟩ <;> simp only [List.length_append, List.length_singleton] <;> try omega
        rename_i h; have := optionG_pos h; omega) h
      simp only [List.length_append, List.length_cons, List.length_nil] at hn m
      simp only; omega

theorem service_small [FloatFmt] {ts e n} (h : ServiceG ts e) (hn : ts.length ≤ n) : serviceSmall n e := by
  cases h with
  | @mk is name ts os vs c sp h1 h2 =>
    simp only [List.length_append, List.length_cons, List.length_nil] at hn
    have m1 := Many.le (fun s => s.2.length) (by
      rintro _ _ _ ⟨⟩ <;> simp only [List.length_append, List.length_singleton] <;> try omega
      rename_i h; cases h; simp only [List.length_append, List.length_cons]; omega) h2
    have m2 := Many.le (fun s => s.1.length) (by
      rintro _ _ _ ⟨⟩ <;> simp only [List.length_append, List.length_singleton] <;> try omega
      rename_i h; have := optionG_pos h; omega) h2
    have m5 := Many.inv (fun s => ∀ v ∈ s.2, v.options.length ≤ n) n (by
      rintro _ _ _ ⟨⟩ hl h0 <;> try exact h0
      rename_i h
      intro v hv
      rcases List.mem_append.1 hv with hv | hv
      · exact h0 v hv
      · simp only [List.mem_singleton] at hv; subst hv; exact methodG_small h hl) h2 (by omega) nofun
    simp only [List.length_nil, Nat.zero_add] at m1 m2
    exact ⟨by simp only; omega, m5, by simp only; omega⟩

section
variable [FloatFmt] {body : List Token → MessageBody → Prop} {n : Nat}

theorem field_small (hb : ∀ ts b, body ts b → ts.length ≤ n → bodySmall n b) {ts f} (h : FieldG body ts f)
    (hn : ts.length ≤ n) : fieldSmall n f := by
  cases h with
  | normal _ _ _ _ h =>
    simp only [List.length_append, List.length_cons] at hn
    simp only [fieldSmall, kindSmall, and_true]
    exact optList_small h (by omega)
  | map _ _ _ _ _ h =>
    simp only [List.length_append, List.length_cons] at hn
    simp only [fieldSmall, kindSmall, and_true]
    exact optList_small h (by omega)
  | group _ _ _ _ h hbd =>
    simp only [List.length_append, List.length_cons] at hn
    simp only [fieldSmall, kindSmall]
    exact ⟨optList_small h (by omega), hb _ _ hbd (by omega)⟩

theorem fieldsSmall_append : ∀ (l l' : List Field), fieldsSmall n l → fieldsSmall n l' → fieldsSmall n (l ++ l')
  | [], _, _, h => h
  | x :: xs, l', h, h' => by
    simp only [fieldsSmall, List.cons_append] at h ⊢
    exact ⟨h.1, fieldsSmall_append xs l' h.2 h'⟩

theorem itemsSmall_append : ∀ (l l' : List MessageItem), itemsSmall n l → itemsSmall n l' → itemsSmall n (l ++ l')
  | [], _, _, h => h
  | x :: xs, l', h, h' => by
    simp only [itemsSmall, List.cons_append] at h ⊢
    exact ⟨h.1, itemsSmall_append xs l' h.2 h'⟩

theorem itemsW_append : ∀ (l l' : List MessageItem), itemsW (l ++ l') = itemsW l + itemsW l'
  | [], _ => by simp [itemsW]
  | x :: xs, l' => by simp [itemsW, itemsW_append xs l', Nat.add_assoc]

theorem fileItemsW_append : ∀ (l l' : List FileItem), fileItemsW (l ++ l') = fileItemsW l + fileItemsW l'
  | [], _ => by simp [fileItemsW]
  | x :: xs, l' => by simp [fileItemsW, fileItemsW_append xs l', Nat.add_assoc]

theorem oneof_small (hb : ∀ ts b, body ts b → ts.length ≤ n → bodySmall n b) {ts o} (h : OneofG body ts o)
    (hn : ts.length ≤ n) : oneofSmall n o ∧ 1 + o.fields.length ≤ ts.length := by
  cases h with
  | mk h1 h2 =>
    simp only [List.length_append, List.length_cons, List.length_nil] at hn
    have m1 := Many.le (fun s => s.1.length) (by
      rintro _ _ _ ⟨⟩ <;> simp only [List.length_append, List.length_singleton] <;> try omega
      rename_i h; have := optionG_pos h; omega) h2
    have m2 := Many.le (fun s => s.2.length) (by
      rintro _ _ _ ⟨⟩ <;> simp only [List.length_append, List.length_singleton] <;> try omega
      rename_i h _; have := fieldG_pos h; omega) h2
    have m3 := Many.inv (fun s => fieldsSmall n s.2) n (by
      rintro _ _ _ ⟨⟩ hl h0 <;> try exact h0
      rename_i h _
      exact fieldsSmall_append _ _ h0 (by simp only [fieldsSmall, and_true]; exact field_small hb h hl)) h2 (by omega)
      (by simp only [fieldsSmall])
    simp only [List.length_nil, Nat.zero_add] at m1 m2
    simp only [oneofSmall, List.length_append, List.length_cons, List.length_nil]
    exact ⟨⟨by omega, m3⟩, by omega⟩

theorem extend_small (hb : ∀ ts b, body ts b → ts.length ≤ n → bodySmall n b) {ts e} (h : ExtendG body ts e)
    (hn : ts.length ≤ n) : extendSmall n e ∧ e.fields.length ≤ ts.length := by
  cases h with
  | mk h1 h2 =>
    simp only [List.length_append, List.length_cons, List.length_nil] at hn
    have m2 := Many.le (fun s => s.length) (by
      rintro _ _ _ ⟨⟩ <;> simp only [List.length_append, List.length_singleton] <;> try omega
      rename_i h; have := fieldG_pos h; omega) h2
    have m3 := Many.inv (fun s => fieldsSmall n s) n (by
      rintro _ _ _ ⟨⟩ hl h0 <;> try exact h0
      rename_i h
      exact fieldsSmall_append _ _ h0 (by simp only [fieldsSmall, and_true]; exact field_small hb h hl)) h2 (by omega)
      (by simp only [fieldsSmall])
    simp only [List.length_nil, Nat.zero_add] at m2
    simp only [extendSmall, List.length_append, List.length_cons, List.length_nil]
    exact ⟨m3, by omega⟩

theorem message_small (hb : ∀ ts b, body ts b → ts.length ≤ n → bodySmall n b) {ts x} (h : MessageG body ts x)
    (hn : ts.length ≤ n) : messageSmall n x ∧ 1 ≤ ts.length := by
  cases h with
  | mk h1 h2 =>
    simp only [List.length_append, List.length_cons, List.length_nil] at hn ⊢
    simp only [messageSmall]
    exact ⟨hb _ _ h2 (by omega), by omega⟩

theorem enumG_pos {ts e} (h : EnumG ts e) : 1 ≤ ts.length := by cases h; simp

theorem extensions_le {ts e} (h : ExtensionsG ts e) : e.ranges.length ≤ ts.length := by
  cases h with
  | mk h =>
    have := h.length_le fun _ _ => rangeG_ne
    simp only [List.length_append, List.length_cons]; omega

theorem extensions_small {ts e} (h : ExtensionsG ts e) (hn : ts.length ≤ n) : optListSmall n e.options := by
  cases h with
  | mk _ h =>
    simp only [List.length_append, List.length_cons] at hn
    exact optList_small h (by omega)

theorem manyBody_small (hb : ∀ ts b, body ts b → ts.length ≤ n → bodySmall n b) {ts b}
    (h : Many (BodyElem body) ts ⟨[], [], [], []⟩ b) (hn : ts.length ≤ n) : bodySmall n b := by
  rcases b with ⟨items, exts, opts, res⟩
  have m1 := Many.inv (fun b => itemsSmall n b.items) n (by
      rintro _ _ _ ⟨⟩ hl h0 <;> first | exact h0 | refine itemsSmall_append _ _ h0 ?_
      all_goals (simp only [itemsSmall, itemSmall, and_true])
      · exact field_small hb (by assumption) hl
      · exact (oneof_small hb (by assumption) hl).1
      · exact enum_small (by assumption) hl
      · exact (message_small hb (by assumption) hl).1
      · exact (extend_small hb (by assumption) hl).1) h hn (by simp only [itemsSmall])
  have m2 : ∀ ts s s', Many (BodyElem body) ts s s' → ts.length ≤ n → itemsW s'.items ≤ itemsW s.items + ts.length := by
    intro ts s s' h hn
    induction h with
    | nil => simp
    | @cons t ts s s' s'' h _ ih =>
      simp only [List.length_append] at hn
      have ih := ih (by omega)
      simp only [List.length_append]
      have : itemsW s'.items ≤ itemsW s.items + t.length := by
        cases h with
        | field h => have := fieldG_pos h; simp only [itemsW_append, itemsW, itemW]; exact Nat.add_le_add_left this _
        | oneof h => have := (oneof_small hb h (by omega)).2; simp only [itemsW_append, itemsW, itemW]; exact Nat.add_le_add_left this _
        | enum h => have := enumG_pos h; simp only [itemsW_append, itemsW, itemW]; exact Nat.add_le_add_left this _
        | message h => have := (message_small hb h (by omega)).2; simp only [itemsW_append, itemsW, itemW]; exact Nat.add_le_add_left this _
        | extend h => have := (extend_small hb h (by omega)).2; simp only [itemsW_append, itemsW, itemW]; exact Nat.add_le_add_left this _
        | _ => exact Nat.le_add_right _ _
      omega
  have m2 := m2 _ _ _ h hn
  have m3 := Many.inv (fun b => ∀ e ∈ b.extensions, optListSmall n e.options) n (by
      rintro _ _ _ ⟨⟩ hl h0 <;> try exact h0
      intro e he
      rcases List.mem_append.1 he with he | he
      · exact h0 e he
      · simp only [List.mem_singleton] at he; subst he; exact extensions_small (by assumption) hl) h hn nofun
  have m4 := Many.le (fun b => (allExtRanges b.extensions).length) (by
      rintro _ _ _ ⟨⟩ <;> simp only [allExtRanges, List.flatMap_append, List.flatMap_cons, List.flatMap_nil,
        List.length_append, List.length_nil, List.length_map] <;> try omega
      rename_i h; have := extensions_le h; omega) h
  have m5 := Many.le (fun b => b.options.length) (by
      rintro _ _ _ ⟨⟩ <;> simp only [List.length_append, List.length_singleton] <;> try omega
      rename_i h; have := optionG_pos h; omega) h
  have m6 := Many.le (fun b => (allRanges b.reserved).length) (by
      rintro _ _ _ ⟨⟩ <;> simp only [allRanges, List.flatMap_append, List.flatMap_cons, List.flatMap_nil,
        List.length_append, List.length_nil] <;> try omega
      rename_i h; have := reserved_le h; omega) h
  have m7 := Many.le (fun b => (allNames b.reserved).length) (by
      rintro _ _ _ ⟨⟩ <;> simp only [allNames, List.flatMap_append, List.flatMap_cons, List.flatMap_nil,
        List.length_append, List.length_nil] <;> try omega
      rename_i h; have := reserved_le h; omega) h
  simp only [itemsW, allExtRanges, allRanges, allNames, List.flatMap_nil, List.length_nil, Nat.zero_add] at m2 m4 m5 m6 m7
  simp only [bodySmall]
  exact ⟨by omega, m1, m3, by simp only [allExtRanges]; omega, by omega, by simp only [allRanges]; omega,
    by simp only [allNames]; omega⟩
end

theorem bodyG_small [FloatFmt] {n : Nat} : ∀ (d : Nat) (ts b), BodyG d ts b → ts.length ≤ n → bodySmall n b
  | 0, _, _, h, _ => h.elim
  | d + 1, _, _, h, hn => manyBody_small (bodyG_small d) h hn

theorem anyBody_small [FloatFmt] {n : Nat} (ts b) (h : AnyBodyG ts b) (hn : ts.length ≤ n) : bodySmall n b := by
  obtain ⟨d, h⟩ := h; exact bodyG_small d ts b h hn

theorem parts_small [FloatFmt] {ts p n} (h : Many StatementG ts {} p) (hn : ts.length ≤ n) :
    p.imports.length ≤ n ∧ p.options.length ≤ n ∧ fileItemsW p.items ≤ n ∧ ∀ x ∈ p.items, fileItemSmall n x := by
  have m1 := Many.le (fun s => s.imports.length) (by
      rintro _ _ _ ⟨⟩ <;> simp only [List.length_append, List.length_singleton] <;> try omega
      rename_i h; cases h; simp only [List.length_append, List.length_cons]; omega) h
  have m2 := Many.le (fun s => s.options.length) (by
      rintro _ _ _ ⟨⟩ <;> simp only [List.length_append, List.length_singleton] <;> try omega
      rename_i h; have := optionG_pos h; omega) h
  have m3 := Many.le (fun s => fileItemsW s.items) (by
      rintro _ _ _ ⟨⟩ <;> (try simp only [fileItemsW_append, fileItemsW, fileItemW]) <;> try omega
      · rename_i h; cases h; simp only [List.length_append, List.length_cons]; omega
      · rename_i h; have := enumG_pos h; omega
      · rename_i t _ _ h; have := (extend_small (n := t.length) anyBody_small h (Nat.le_refl _)).2; omega
      · rename_i h; cases h; simp only [List.length_append, List.length_cons]; omega) h
  have m4 := Many.inv (fun s => ∀ x ∈ s.items, fileItemSmall n x) n (by
      rintro _ _ _ ⟨⟩ hl h0 <;> try exact h0
      all_goals
        intro v hv
        refine (List.mem_append.1 hv).elim (h0 v) fun hv => ?_
        simp only [List.mem_singleton] at hv
        subst hv
        simp only [fileItemSmall]
      · exact (message_small anyBody_small (by assumption) hl).1
      · exact enum_small (by assumption) hl
      · exact (extend_small anyBody_small (by assumption) hl).1
      · exact service_small (by assumption) hl) h hn nofun
  simp only [List.length_nil, fileItemsW, Nat.zero_add] at m1 m2 m3
  exact ⟨by omega, by omega, by omega, m4⟩

/-- A syntax tree is no larger than its token sequence. -/
theorem file_small [FloatFmt] {ts f n} (h : FileG ts f) (hn : ts.length ≤ n) : fileSmall n f := by
  cases h with
  | noSyntax h => exact parts_small h hn
  | withSyntax _ h => simp only [List.length_append] at hn; exact parts_small h (by omega)

end Verif.Gen
