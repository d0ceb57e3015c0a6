import Verif.Proofs.Repeats2
/-!
How often each diagnostic is reported: fields, messages, files.
-/
namespace Verif.Repeats
open Verif.Ast Verif.Spec Verif.Places Verif.Gen Verif.Dist

/-! ### `extensions` statements in a body -/

/-- The statement is in the body or in a message or group in it. -/
inductive InBody : MessageBody → Extensions → Prop where
  | here {b x} : x ∈ b.extensions → InBody b x
  | nested {b m b' x} : m ∈ bodyMsgs b → m.body = some b' → InBody b' x → InBody b x

/-- The statement is in one of these messages. -/
def InMsgs (ms : List MsgSrc) (x : Extensions) : Prop := ∃ m ∈ ms, ∃ b, m.body = some b ∧ InBody b x

theorem inMsgs_nil {x} : InMsgs [] x ↔ False := by simp [InMsgs]
theorem inMsgs_append {a b x} : InMsgs (a ++ b) x ↔ InMsgs a x ∨ InMsgs b x := by
  unfold InMsgs
  constructor
  · rintro ⟨m, h, r⟩
    rcases List.mem_append.1 h with h | h
    · exact .inl ⟨m, h, r⟩
    · exact .inr ⟨m, h, r⟩
  · rintro (⟨m, h, r⟩ | ⟨m, h, r⟩)
    · exact ⟨m, List.mem_append_left _ h, r⟩
    · exact ⟨m, List.mem_append_right _ h, r⟩

theorem inBody_iff {b x} : InBody b x ↔ x ∈ b.extensions ∨ InMsgs (bodyMsgs b) x := by
  constructor
  · intro h
    cases h with
    | here h => exact .inl h
    | nested h1 h2 h3 => exact .inr ⟨_, h1, _, h2, h3⟩
  · rintro (h | ⟨m, h1, b', h2, h3⟩)
    · exact .here h
    · exact .nested h1 h2 h3

section
variable [FloatFmt]

/-! ### Fields -/

omit [FloatFmt] in
theorem label_at {ls label} (h : LabelG ls label) : ∀ l sp, label = some (l, sp) → ∃ a ∈ ls, sp.start = a.span.start := by
  cases h with
  | none => nofun
  | optional _ => rintro _ _ ⟨⟩; exact ⟨_, .head _, rfl⟩
  | required _ => rintro _ _ ⟨⟩; exact ⟨_, .head _, rfl⟩
  | repeated _ => rintro _ _ ⟨⟩; exact ⟨_, .head _, rfl⟩

omit [FloatFmt] in
theorem labelErrs_at {s scope label sp ts} (h : ∀ l sp, label = some (l, sp) → ∃ a ∈ ts, sp.start = a.span.start)
    (hs : ∃ a ∈ ts, sp.start = a.span.start) : ∀ k ∈ labelErrs s scope label sp, AtTok ts k := by
  intro k hk
  unfold labelErrs at hk
  split at hk
  · cases List.mem_singleton.1 hk; exact h _ _ rfl
  · cases List.mem_singleton.1 hk; exact h _ _ rfl
  · obtain ⟨_, rfl⟩ := mem_ite_one.1 hk; exact hs
  · obtain ⟨_, rfl⟩ := mem_ite_one.1 hk; exact hs
  · obtain ⟨_, rfl⟩ := mem_ite_one.1 hk; exact h _ _ rfl
  · cases hk

omit [FloatFmt] in
theorem mapScopeErrs_at {scope label sp ts} (h : ∀ l sp, label = some (l, sp) → ∃ a ∈ ts, sp.start = a.span.start)
    (hs : ∃ a ∈ ts, sp.start = a.span.start) : ∀ k ∈ mapScopeErrs label sp scope, AtTok ts k := by
  intro k hk
  unfold mapScopeErrs at hk
  split at hk
  · cases List.mem_singleton.1 hk; exact hs
  · cases List.mem_singleton.1 hk; exact hs
  · split at hk
    · cases List.mem_singleton.1 hk; exact h _ _ rfl
    · cases hk

omit [FloatFmt] in
theorem dflt_mem {os o} (h : dfltOf os = some o) : o ∈ listed os :=
  (parts_perm os).mem_iff.1 (by rw [h]; simp)

theorem defaultCheck_at {s label m us os} (h : OptListG us os) :
    ∀ k ∈ defaultCheckErrs s label m (dfltOf os), AtTok us k := by
  intro k hk
  unfold defaultCheckErrs at hk
  split at hk
  · cases hk
  · rename_i o ho
    have := optList_ospan h o (dflt_mem ho)
    split at hk
    · cases List.mem_singleton.1 hk; exact this
    · split at hk
      · cases List.mem_singleton.1 hk; exact this
      · obtain ⟨_, rfl⟩ := mem_ite_one.1 hk; exact this

theorem groupDflt_at {us os} (h : OptListG us os) : ∀ k ∈ groupDfltErrs (dfltOf os), AtTok us k := by
  intro k hk
  unfold groupDfltErrs at hk
  split at hk
  · cases hk
  · rename_i o ho
    cases List.mem_singleton.1 hk
    exact optList_ospan h o (dflt_mem ho)

omit [FloatFmt] in
theorem typeName_ne {ts t} (h : TypeNameG ts t) : ts ≠ [] := by
  cases h with
  | @relative ts f h =>
    obtain ⟨ps⟩ := f
    have h' : Places.SepBy .dot IdentG ts ps := h
    clear h
    cases h' with
    | one h => obtain ⟨a, rfl, _⟩ := h; simp
    | cons h _ _ => simp
  | absolute _ _ => simp

omit [FloatFmt] in
theorem ty_at {ts ty sp} (h : TyG ts ty sp) : ∃ a ∈ ts, sp.start = a.span.start := by
  cases h with
  | scalar _ _ => exact extent_at (by simp)
  | named h _ => exact extent_at (typeName_ne h)

omit [FloatFmt] in
theorem forall_append {ts : List ATok} {a b : List ParseErrorKind} (h1 : ∀ k ∈ a, AtTok ts k) (h2 : ∀ k ∈ b, AtTok ts k) :
    ∀ k ∈ a ++ b, AtTok ts k := by
  intro k hk
  rcases List.mem_append.1 hk with h | h
  · exact h1 k h
  · exact h2 k h

variable {body : List ATok → MessageBody → Prop} {s : Syntax'}
  (hb : ∀ ts b, body ts b → Inc ts → Counts (InBody b) ts fun k => (bodyErrs s b).count k)
include hb

theorem field_counts {scope ts f} (h : FieldG body ts f) (hi : Inc ts) :
    Counts (InMsgs (fieldMsgs f)) ts fun k => (fieldErrs s scope f).count k := by
  cases h with
  | @normal ls label ts ty tsp is name e ns number us os z h1 h2 h3 h4 h5 h6 h7 h8 h9 =>
    have hw := valueErrs_facts (d := fun o => scalarErrs ty o.value) (fun o => scalar_atValue ty o) h6
      (hi.sub (show us.Sublist _ by subl))
    generalize hts : ls ++ ts ++ is ++ e :: ns ++ us ++ [z] = all at hi ⊢
    have hall : ∃ a ∈ all, (extent all).start = a.span.start := extent_at (by rw [← hts]; simp)
    have su : us ⊆ all := by rw [← hts]; intro a ha; simp [ha]
    have sn : ns ⊆ all := by rw [← hts]; intro a ha; simp [ha]
    have sl : ls ⊆ all := by rw [← hts]; intro a ha; simp [ha]
    refine (Counts.nodup (E := messageNumberErrs number ++ (defaultCheckErrs s label false (dfltOf os) ++
      (labelErrs s scope label (extent all) ++ valueErrs (fun o => scalarErrs ty o.value) os))) ?_ ?_).congr ?_ ?_
    · refine nodup_cons_single (number_single _) (nodup_cons_single (defaultCheck_single ..)
        (nodup_cons_single (label_single ..) hw.1 ?_) ?_) ?_
      · exact fun k hk => by have := (hw.2 k hk).1; omega
      · exact rank_cons (label_single ..) (fun k hk => by have := (hw.2 k hk).1; omega) (by omega)
      · exact rank_cons (defaultCheck_single ..) (rank_cons (label_single ..)
          (fun k hk => by have := (hw.2 k hk).1; omega) (by omega)) (by omega)
    · refine forall_append ?_ (forall_append ?_ (forall_append ?_ ?_))
      · intro k hk
        obtain ⟨_, rfl⟩ := mem_messageNumberErrs.1 hk
        exact AtTok.mono (int_at h5) sn
      · exact fun k hk => (defaultCheck_at h6 k hk).mono su
      · exact labelErrs_at (fun l sp e => let ⟨a, p, q⟩ := label_at h1 l sp e; ⟨a, sl p, q⟩) hall
      · exact fun k hk => (hw.2 k hk).2.mono su
    · intro x; simp [fieldMsgs, InMsgs, NoExt]
    · intro k
      simp [fieldErrs, kindErrs, isMap, valueErrs, scalarDfltErrs, Nat.add_assoc]
      cases dfltOf os <;> rfl
  | @map ls label m l ks kty ksp c vs vty vsp r is name e ns number us os z h1 h2 h3 h4 h5 h6 h7 h8 h9 h10 h11 h12 =>
    have hw := valueErrs_facts (d := fun o => []) (fun o => atValue_nil) h11 (hi.sub (show us.Sublist _ by subl))
    generalize hts : ls ++ m :: l :: ks ++ c :: vs ++ r :: is ++ e :: ns ++ us ++ [z] = all at hi ⊢
    have hall : ∃ a ∈ all, (extent all).start = a.span.start := extent_at (by rw [← hts]; simp)
    have su : us ⊆ all := by rw [← hts]; intro a ha; simp [ha]
    have sn : ns ⊆ all := by rw [← hts]; intro a ha; simp [ha]
    have sl : ls ⊆ all := by rw [← hts]; intro a ha; simp [ha]
    have sk : ks ⊆ all := by rw [← hts]; intro a ha; simp [ha]
    have hk5 : Single 5 (if validKey kty then [] else [ParseErrorKind.invalidMapFieldKeyType ksp]) := by
      split
      · exact .nil
      · exact .one rfl
    refine (Counts.nodup (E := messageNumberErrs number ++ (defaultCheckErrs s label true (dfltOf os) ++
      (mapScopeErrs label (extent all) scope ++ ((if validKey kty then [] else [.invalidMapFieldKeyType ksp]) ++
        valueErrs (fun o => []) os)))) ?_ ?_).congr ?_ ?_
    · have r5 : ∀ k ∈ valueErrs (fun o => []) os, 5 < rank k := fun k hk => (hw.2 k hk).1
      have r3 := rank_cons (m := 3) hk5 (fun k hk => by have := r5 k hk; omega) (by omega)
      have r1 := rank_cons (m := 1) (mapScope_single label (extent all) scope) (fun k hk => by have := r3 k hk; omega) (by omega)
      have r0 := rank_cons (m := 0) (defaultCheck_single s label true (dfltOf os)) (fun k hk => by have := r1 k hk; omega) (by omega)
      exact nodup_cons_single (number_single _) (nodup_cons_single (defaultCheck_single ..)
        (nodup_cons_single (mapScope_single ..) (nodup_cons_single hk5 hw.1 r5) r3) r1) r0
    · refine forall_append ?_ (forall_append ?_ (forall_append ?_ (forall_append ?_ ?_)))
      · intro k hk
        obtain ⟨_, rfl⟩ := mem_messageNumberErrs.1 hk
        exact AtTok.mono (int_at h10) sn
      · exact fun k hk => (defaultCheck_at h11 k hk).mono su
      · exact mapScopeErrs_at (fun l sp e => let ⟨a, p, q⟩ := label_at h1 l sp e; ⟨a, sl p, q⟩) hall
      · intro k hk
        split at hk
        · cases hk
        · cases List.mem_singleton.1 hk
          exact AtTok.mono (ty_at h4) sk
      · exact fun k hk => (hw.2 k hk).2.mono su
    · intro x; simp [fieldMsgs, InMsgs, NoExt, MsgSrc.body]
    · intro k
      have hv : valueErrs (fun _ => []) os = tailErrs os := by unfold valueErrs; cases dfltOf os <;> rfl
      rw [hv]
      simp [fieldErrs, kindErrs, isMap, Nat.add_assoc]
  | @group ls label g is name e ns number us os o bs b z h1 h2 h3 h4 h5 h6 h7 h8 h9 h10 =>
    have hw := valueErrs_facts (d := fun o => []) (fun o => atValue_nil) h7 (hi.sub (show us.Sublist _ by subl))
    have hbody := hb _ _ h9 (hi.sub (show bs.Sublist _ by subl))
    have hext : (extent (ls ++ g :: is ++ e :: ns ++ us ++ o :: bs ++ [z])).start =
        (extent (ls ++ g :: is ++ e :: ns ++ us)).start := by
      cases ls with
      | nil => simp only [List.nil_append, List.cons_append, extent_start]
      | cons => simp only [List.cons_append, extent_start]
    have hall : ∃ a ∈ ls ++ g :: is ++ e :: ns ++ us,
        (extent (ls ++ g :: is ++ e :: ns ++ us ++ o :: bs ++ [z])).start = a.span.start := by
      rw [hext]; exact extent_at (by simp)
    generalize extent (ls ++ g :: is ++ e :: ns ++ us ++ o :: bs ++ [z]) = sp at hall ⊢
    have su : us ⊆ ls ++ g :: is ++ e :: ns ++ us := by intro a ha; simp [ha]
    have sn : ns ⊆ ls ++ g :: is ++ e :: ns ++ us := by intro a ha; simp [ha]
    have sl : ls ⊆ ls ++ g :: is ++ e :: ns ++ us := by intro a ha; simp [ha]
    have hk4 : Single 4 (if s ≠ .proto2 then [ParseErrorKind.proto3GroupField sp] else []) := .ite rfl
    refine (Counts.join (t1 := ls ++ g :: is ++ e :: ns ++ us) hi (by subl) (Counts.nodup
      (E := messageNumberErrs number ++ (defaultCheckErrs s label false (dfltOf os) ++
      (groupDfltErrs (dfltOf os) ++ (labelErrs s scope label sp ++
        ((if s ≠ .proto2 then [ParseErrorKind.proto3GroupField sp] else []) ++
        valueErrs (fun o => []) os))))) ?_ ?_) hbody).congr ?_ ?_
    · have r4 : ∀ k ∈ valueErrs (fun o => []) os, 4 < rank k := fun k hk => by have := (hw.2 k hk).1; omega
      have r3 := rank_cons (m := 3) hk4 (fun k hk => by have := r4 k hk; omega) (by omega)
      have r2 := rank_cons (m := 2) (label_single s scope label sp) (fun k hk => by have := r3 k hk; omega) (by omega)
      have r1 := rank_cons (m := 1) (groupDflt_single (dfltOf os)) (fun k hk => by have := r2 k hk; omega) (by omega)
      have r0 := rank_cons (m := 0) (defaultCheck_single s label false (dfltOf os)) (fun k hk => by have := r1 k hk; omega) (by omega)
      exact nodup_cons_single (number_single _) (nodup_cons_single (defaultCheck_single ..)
        (nodup_cons_single (groupDflt_single _) (nodup_cons_single (label_single ..)
          (nodup_cons_single hk4 hw.1 r4) r3) r2) r1) r0
    · refine forall_append ?_ (forall_append ?_ (forall_append ?_ (forall_append ?_ (forall_append ?_ ?_))))
      · intro k hk
        obtain ⟨_, rfl⟩ := mem_messageNumberErrs.1 hk
        exact AtTok.mono (int_at h6) sn
      · exact fun k hk => (defaultCheck_at h7 k hk).mono su
      · exact fun k hk => (groupDflt_at h7 k hk).mono su
      · exact labelErrs_at (fun l sp e => let ⟨a, p, q⟩ := label_at h1 l sp e; ⟨a, sl p, q⟩) hall
      · intro k hk
        obtain ⟨_, rfl⟩ := mem_ite_one.1 hk
        exact hall
      · exact fun k hk => (hw.2 k hk).2.mono su
    · intro x; simp [fieldMsgs, InMsgs, NoExt, MsgSrc.body]
    · intro k
      have hv : valueErrs (fun _ => []) os = tailErrs os := by unfold valueErrs; cases dfltOf os <;> rfl
      rw [hv]
      simp only [fieldErrs, kindErrs, isMap, groupErrs, List.count_append]
      omega

/-! ### Messages -/

omit [FloatFmt] hb in
theorem fieldsErrs_append {scope} : ∀ (fs : List Field) (f : Field),
    fieldsErrs s scope (fs ++ [f]) = fieldsErrs s scope fs ++ fieldErrs s scope f
  | [], f => by simp [fieldsErrs]
  | x :: xs, f => by
    rw [List.cons_append, fieldsErrs, fieldsErrs_append xs f, fieldsErrs, List.append_assoc]

omit [FloatFmt] hb in
theorem itemsErrs_append : ∀ (is : List MessageItem) (i : MessageItem),
    itemsErrs s (is ++ [i]) = itemsErrs s is ++ itemErrs s i
  | [], f => by simp [itemsErrs]
  | x :: xs, f => by
    rw [List.cons_append, itemsErrs, itemsErrs_append xs f, itemsErrs, List.append_assoc]

theorem extend_counts {ts e} (h : ExtendG body ts e) (hi : Inc ts) :
    Counts (InMsgs (e.fields.flatMap fieldMsgs)) ts fun k => (extendErrs s e).count k := by
  cases h with
  | @mk k ns t o ts fs z _ _ _ h _ =>
    obtain ⟨X, c, h1, h2, h3⟩ := many_counts (E := fieldsErrs s .extend) (N := fun fs => InMsgs (fs.flatMap fieldMsgs)) (by
      intro t s s' h hi
      cases h with
      | field h => exact ⟨_, _, fun k => by rw [fieldsErrs_append, List.count_append], field_counts hb h hi,
          fun x => by rw [List.flatMap_append, inMsgs_append]; simp⟩
      | empty _ => exact ⟨_, _, fun k => rfl, .nil, fun x => by simp [NoExt]⟩) h (hi.sub (show ts.Sublist _ by subl))
    refine (h2.mono (show ts ⊆ _ from fun a ha => by simp [ha])).congr (fun x => ?_) fun k => ?_
    · rw [h3]; simp [inMsgs_nil]
    · rw [extendErrs, h1]; simp [fieldsErrs]

theorem oneof_counts {ts e} (h : OneofG body ts e) (hi : Inc ts) :
    Counts (InMsgs (e.fields.flatMap fieldMsgs)) ts fun k => (oneofErrs s e).count k := by
  cases h with
  | @mk k is name o ts os fs z _ _ _ h _ =>
    obtain ⟨X, c, h1, h2, h3⟩ := many_counts (E := fun a => optsErrs a.1 ++ fieldsErrs s .oneof a.2)
        (N := fun a => InMsgs (a.2.flatMap fieldMsgs)) (by
      intro t s s' h hi
      cases h with
      | option h => exact ⟨_, _, fun k => by simp [optsErrs]; omega, option_counts h, fun x => by simp [NoExt]⟩
      | field h _ => exact ⟨_, _, fun k => by rw [fieldsErrs_append]; simp [Nat.add_assoc], field_counts hb (scope := .oneof) h hi,
          fun x => by rw [List.flatMap_append, inMsgs_append]; simp⟩
      | empty _ => exact ⟨_, _, fun k => rfl, .nil, fun x => by simp [NoExt]⟩) h (hi.sub (show ts.Sublist _ by subl))
    have h4 : Counts NoExt (k :: is) fun k' => (if fs.isEmpty then
        [ParseErrorKind.emptyOneof (extent (k :: is ++ o :: ts ++ [z]))] else []).count k' := by
      refine .nodup (by split <;> simp) fun k' hk => ?_
      obtain ⟨_, rfl⟩ := mem_ite_one.1 hk
      exact ⟨k, .head _, extent_start⟩
    refine (h4.join hi (show (k :: is ++ ts).Sublist _ by subl) h2).congr (fun x => ?_) fun k => ?_
    · rw [h3]; simp [inMsgs_nil, NoExt]
    · rw [oneofErrs]
      have := h1 k
      simp only [List.count_append] at this ⊢
      simp only [optsErrs, fieldsErrs, List.flatMap_nil, List.count_nil] at this ⊢
      omega

theorem message_counts {ts e} (h : MessageG body ts e) (hi : Inc ts) :
    Counts (InMsgs [.message e]) ts fun k => (messageErrs s e).count k := by
  cases h with
  | @mk k is name o ts b z _ _ _ h _ =>
    refine ((hb _ _ h (hi.sub (show ts.Sublist _ by subl))).mono (show ts ⊆ _ from fun a ha => by simp [ha])).congr
      (fun x => by simp [InMsgs, MsgSrc.body]) fun k => by rw [messageErrs]

omit hb in
theorem extensions_counts {ts e} (h : ExtensionsG ts e) (hi : Inc ts) : Counts (fun x => x = e) ts
    fun k => ((allExtRanges [e]).flatMap fun x => extRangeErrs x.1 x.2).count k := by
  cases h with
  | @mk k ts rs us os z _ h1 h2 h5 _ =>
    have c1 := sepBy_counts (E := rangeErrs) (fun _ _ h hi => range_counts h hi) h1 (hi.sub (show ts.Sublist _ by subl))
    have c2 := optList_counts h2 (hi.sub (show us.Sublist _ by subl))
    have key : ∀ k', ((allExtRanges [⟨rs, os, comments (k :: ts) z, extent (k :: ts ++ us ++ [z])⟩]).flatMap fun x =>
        extRangeErrs x.1 x.2).count k' = (rs.flatMap rangeErrs).count k' + rs.length * (optListErrs os).count k' := by
      intro k'
      simp only [allExtRanges, List.flatMap_cons, List.flatMap_nil, List.append_nil]
      clear c1 h1 h5
      induction rs with
      | nil => simp
      | cons r rs ih =>
        simp only [List.map_cons, List.flatMap_cons, List.count_append, extRangeErrs, List.length_cons] at ih ⊢
        rw [ih, Nat.add_mul]; omega
    have hd : Inc (ts ++ us) := hi.sub (by subl)
    refine Counts.congr (c := fun k' => (rs.flatMap rangeErrs).count k' + rs.length * (optListErrs os).count k')
      (N := fun x => x = ⟨rs, os, comments (k :: ts) z, extent (k :: ts ++ us ++ [z])⟩) ?_ (fun _ => .rfl) key
    have s1 : ts ⊆ k :: ts ++ us ++ [z] := fun a ha => by simp [ha]
    have s2 : us ⊆ k :: ts ++ us ++ [z] := fun a ha => by simp [ha]
    constructor
    · intro k' hk
      by_cases h : 0 < (rs.flatMap rangeErrs).count k'
      · exact (c1.on k' h).mono s1
      · refine (c2.on k' (Nat.pos_of_ne_zero fun h0 => ?_)).mono s2
        rw [h0] at hk; omega
    · rintro x rfl k' hk
      exact (c2.on k' (List.count_pos_iff.2 hk)).mono s2
    · intro k' hk
      refine ⟨_, rfl, Classical.byContradiction fun hn => ?_⟩
      have h0 : (optListErrs os).count k' = 0 := List.count_eq_zero.2 hn
      rw [h0] at hk
      exact (c1.one k' (by omega)).elim fun x h => h.1
    · rintro x rfl k' hk
      have hp := List.count_pos_iff.2 hk
      have h1 : (optListErrs os).count k' = 1 := by
        refine Nat.le_antisymm (Nat.le_of_not_lt fun h => ?_) hp
        exact (c2.one k' h).elim fun x h => h.1
      have h2 : (rs.flatMap rangeErrs).count k' = 0 :=
        Nat.eq_zero_of_not_pos fun h => inc_disjoint hd (c1.on k' h) (c2.on k' hp)
      show _ + _ = rs.length
      rw [h1, h2]; omega

theorem body_step {t b b'} (h : BodyElem body t b b') (hi : Inc t) : ∃ X c,
    (∀ k, (bodyErrs s b').count k = (bodyErrs s b).count k + c k) ∧ Counts X t c ∧ ∀ x, InBody b' x ↔ InBody b x ∨ X x := by
  have item : ∀ (b : MessageBody) (i : MessageItem) {X : Extensions → Prop},
      Counts X t (fun k => (itemErrs s i).count k) → (∀ x, X x ↔ InMsgs (itemMsgs i) x) → ∃ X c,
      (∀ k, (bodyErrs s { b with items := b.items ++ [i] }).count k = (bodyErrs s b).count k + c k) ∧ Counts X t c ∧
        ∀ x, InBody { b with items := b.items ++ [i] } x ↔ InBody b x ∨ X x := by
    intro b i X hc hx
    refine ⟨X, _, fun k => ?_, hc, fun x => ?_⟩
    · cases b; simp only [bodyErrs, itemsErrs_append, List.count_append]; omega
    · rw [inBody_iff, inBody_iff, hx, or_assoc, ← inMsgs_append]
      simp [bodyMsgs, List.flatMap_append]
  cases h with
  | field h _ => exact item _ _ ((field_counts hb h hi).congr (fun _ => .rfl) fun k => by rw [itemErrs]) fun x => .rfl
  | oneof h => exact item _ _ ((oneof_counts hb h hi).congr (fun _ => .rfl) fun k => by rw [itemErrs]) fun x => .rfl
  | enum h => exact item _ _ ((enum_counts h hi).congr (fun _ => .rfl) fun k => by rw [itemErrs]) fun x =>
      (by simp [itemMsgs, InMsgs, NoExt])
  | message h => exact item _ _ ((message_counts hb h hi).congr (fun _ => .rfl) fun k => by rw [itemErrs]) fun x => .rfl
  | extend h => exact item _ _ ((extend_counts hb h hi).congr (fun _ => .rfl) fun k => by rw [itemErrs]) fun x => .rfl
  | option h =>
    refine ⟨NoExt, _, fun k => ?_, option_counts h, fun x => ?_⟩
    · cases b; simp [bodyErrs, optsErrs]; omega
    · rw [inBody_iff, inBody_iff]; simp [bodyMsgs, NoExt]
  | reserved h =>
    refine ⟨NoExt, _, fun k => ?_, reserved_counts (R := rangeErrs) (fun _ _ h hi => range_counts h hi) h hi, fun x => ?_⟩
    · cases b; simp [bodyErrs, allRanges]; omega
    · rw [inBody_iff, inBody_iff]; simp [bodyMsgs, NoExt]
  | @extensions _ e b h =>
    refine ⟨_, _, fun k => ?_, extensions_counts h hi, fun x => ?_⟩
    · cases b; simp [bodyErrs, allExtRanges]; omega
    · rw [inBody_iff, inBody_iff]
      simp only [List.mem_append, List.mem_singleton, bodyMsgs]
      constructor
      · rintro ((h | h) | h)
        · exact .inl (.inl h)
        · exact .inr h
        · exact .inl (.inr h)
      · rintro ((h | h) | h)
        · exact .inl (.inl h)
        · exact .inr h
        · exact .inl (.inr h)
  | empty _ => exact ⟨_, _, fun k => rfl, .nil, fun x => by simp [NoExt]⟩

omit hb in
theorem bodyG_counts : ∀ (d : Nat) ts b, BodyG d ts b → Inc ts → Counts (InBody b) ts fun k => (bodyErrs s b).count k
  | 0, _, _, h, _ => h.elim
  | d + 1, ts, b, h, hi => by
    obtain ⟨X, c, h1, h2, h3⟩ := many_counts (E := bodyErrs s) (N := InBody)
      (fun t b b' h hi => body_step (bodyG_counts d) h hi) h hi
    refine h2.congr (fun x => ?_) fun k => ?_
    · rw [h3, inBody_iff]; simp [bodyMsgs, inMsgs_nil]
    · rw [h1]; simp [bodyErrs, itemsErrs, allRanges, allExtRanges, optsErrs]

/-! ### Files -/

omit hb in
theorem statements_counts {ts p} (h : Many StatementG ts {} p) (hi : Inc ts) {sp ssp} :
    Counts (InMsgs (fileMsgs ⟨sp, s, ssp, p.package, p.imports, p.options, p.items⟩)) ts fun k =>
      (fileErrs ⟨sp, s, ssp, p.package, p.imports, p.options, p.items⟩).count k := by
  have hb : ∀ ts b, AnyBodyG ts b → Inc ts → Counts (InBody b) ts fun k => (bodyErrs s b).count k :=
    fun ts b ⟨d, h⟩ hi => bodyG_counts d ts b h hi
  obtain ⟨X, c, h1, h2, h3⟩ := many_counts
    (E := fun p => fileErrs ⟨sp, s, ssp, p.package, p.imports, p.options, p.items⟩)
    (N := fun p => InMsgs (fileMsgs ⟨sp, s, ssp, p.package, p.imports, p.options, p.items⟩)) (by
    intro t p p' h hi
    cases h with
    | package _ _ => exact ⟨_, _, fun k => rfl, .nil, fun x => by simp [NoExt, fileMsgs]⟩
    | import' _ => exact ⟨_, _, fun k => rfl, .nil, fun x => by simp [NoExt, fileMsgs]⟩
    | option h => exact ⟨_, _, fun k => by simp [fileErrs, optsErrs, Nat.add_assoc], option_counts h, fun x => by
        simp [NoExt, fileMsgs]⟩
    | message h => exact ⟨_, _, fun k => by simp [fileErrs, fileItemErrs]; omega, message_counts hb h hi, fun x => by
        simp [fileMsgs, List.flatMap_append, inMsgs_append]⟩
    | enum h => exact ⟨_, _, fun k => by simp [fileErrs, fileItemErrs]; omega, enum_counts h hi, fun x => by
        simp [fileMsgs, List.flatMap_append, NoExt]⟩
    | extend h => exact ⟨_, _, fun k => by simp [fileErrs, fileItemErrs]; omega, extend_counts hb h hi, fun x => by
        simp [fileMsgs, List.flatMap_append, inMsgs_append]⟩
    | service h => exact ⟨_, _, fun k => by simp [fileErrs, fileItemErrs]; omega, service_counts h hi, fun x => by
        simp [fileMsgs, List.flatMap_append, NoExt]⟩
    | empty _ => exact ⟨_, _, fun k => rfl, .nil, fun x => by simp [NoExt]⟩) h hi
  refine h2.congr (fun x => ?_) fun k => ?_
  · rw [h3]; simp [fileMsgs, inMsgs_nil]
  · rw [h1]; simp [fileErrs, optsErrs]

omit hb in
theorem file_counts {len ts f} (h : FileG len ts f) (hi : Inc ts) :
    Counts (InMsgs (fileMsgs f)) ts fun k => (fileErrs f).count k := by
  cases h with
  | noSyntax h _ => exact statements_counts h hi
  | @withSyntax ss s' ssp ts p _ h =>
    exact (statements_counts h (hi.sub (List.sublist_append_right ..))).mono (fun a ha => List.mem_append_right _ ha)

omit [FloatFmt] hb in
theorem inMsgs_file {f : Ast.File} {x} : InMsgs (fileMsgs f) x ↔ ∃ b, BodyWritten f b ∧ x ∈ b.extensions := by
  constructor
  · rintro ⟨m, h1, b, h2, h3⟩
    have : ∀ m, MsgWritten f m → m.body = some b → ∃ b, BodyWritten f b ∧ x ∈ b.extensions := by
      clear h1 h2
      induction h3 with
      | here h => exact fun m h1 h2 => ⟨_, ⟨m, h1, h2⟩, h⟩
      | nested h1 h2 _ ih => exact fun m h3 h4 => ih _ (.nested h3 h4 h1) h2
    exact this m (.top h1) h2
  · rintro ⟨b, ⟨m, h1, h2⟩, h3⟩
    have : ∀ b, m.body = some b → InBody b x → InMsgs (fileMsgs f) x := by
      clear h2 h3
      induction h1 with
      | top h => exact fun b h1 h2 => ⟨_, h, b, h1, h2⟩
      | nested _ h2 h3 ih => exact fun b' h4 h5 => ih _ h2 (.nested h3 h4 h5)
    exact this b h2 (.here h3)

end
end Verif.Repeats
