import Verif.Proofs.Distinct
import Verif.Proofs.Violations
/-!
How often each diagnostic of the generator is reported (C71): every diagnostic points at a token, and the parts of the
syntax tree stand on different tokens.
-/
namespace Verif.Repeats
open Verif.Ast Verif.Spec Verif.Places Verif.Gen Verif.Dist

/-- Where the first label of a diagnostic begins. -/
def errStart (k : ParseErrorKind) : Nat :=
  match k.spans with
  | s :: _ => s.start
  | [] => 0

/-- The diagnostic points at one of these tokens. -/
def AtTok (ts : List ATok) (k : ParseErrorKind) : Prop := ∃ a ∈ ts, errStart k = a.span.start

theorem AtTok.mono {ts us k} (h : AtTok ts k) (hs : ts ⊆ us) : AtTok us k := let ⟨a, h1, h2⟩ := h; ⟨a, hs h1, h2⟩

/-- `c` says how often each diagnostic is reported for these tokens, `N` are the `extensions` statements in them. -/
structure Counts (N : Extensions → Prop) (ts : List ATok) (c : ParseErrorKind → Nat) : Prop where
  on : ∀ k, 0 < c k → AtTok ts k
  onX : ∀ x, N x → ∀ k ∈ optListErrs x.options, AtTok ts k
  one : ∀ k, 1 < c k → ∃ x, N x ∧ k ∈ optListErrs x.options
  many : ∀ x, N x → ∀ k ∈ optListErrs x.options, c k = x.ranges.length

def NoExt : Extensions → Prop := fun _ => False

theorem inc_disjoint {a b : List ATok} {k} (h : Inc (a ++ b)) (h1 : AtTok a k) (h2 : AtTok b k) : False := by
  obtain ⟨x, hx, e1⟩ := h1
  obtain ⟨y, hy, e2⟩ := h2
  unfold Inc st at h
  rw [List.map_append, List.pairwise_append] at h
  have := h.2.2 _ (List.mem_map_of_mem hx) _ (List.mem_map_of_mem hy)
  omega

theorem Counts.nil {ts} : Counts NoExt ts fun _ => 0 :=
  ⟨fun _ h => absurd h (by omega), fun _ h => h.elim, fun _ h => absurd h (by omega), fun _ h => h.elim⟩

theorem Counts.nodup {ts} {E : List ParseErrorKind} (h : E.Nodup) (hs : ∀ k ∈ E, AtTok ts k) :
    Counts NoExt ts fun k => E.count k := by
  refine ⟨fun k hk => hs k (List.count_pos_iff.1 hk), fun _ h => h.elim, fun k hk => ?_, fun _ h => h.elim⟩
  have := List.nodup_iff_count.1 h k
  omega

theorem Counts.congr {N N' : Extensions → Prop} {ts c c'} (h : Counts N ts c) (hn : ∀ x, N' x ↔ N x) (hc : ∀ k, c' k = c k) :
    Counts N' ts c' := by
  obtain rfl : c' = c := funext hc
  obtain rfl : N' = N := funext fun x => propext (hn x)
  exact h

theorem Counts.mono {N ts us c} (h : Counts N ts c) (hs : ts ⊆ us) : Counts N us c :=
  ⟨fun k hk => (h.on k hk).mono hs, fun x hx k hk => (h.onX x hx k hk).mono hs, h.one, h.many⟩

theorem Counts.join {N1 N2 : Extensions → Prop} {t1 t2 ts c1 c2} (hi : Inc ts) (hs : (t1 ++ t2).Sublist ts)
    (h1 : Counts N1 t1 c1) (h2 : Counts N2 t2 c2) : Counts (fun x => N1 x ∨ N2 x) ts fun k => c1 k + c2 k := by
  have hd := hi.sub hs
  have s1 : t1 ⊆ ts := ((List.sublist_append_left ..).trans hs).subset
  have s2 : t2 ⊆ ts := ((List.sublist_append_right ..).trans hs).subset
  have z1 : ∀ k, AtTok t2 k → c1 k = 0 := fun k hk => Nat.eq_zero_of_not_pos fun h => inc_disjoint hd (h1.on k h) hk
  have z2 : ∀ k, AtTok t1 k → c2 k = 0 := fun k hk => Nat.eq_zero_of_not_pos fun h => inc_disjoint hd hk (h2.on k h)
  constructor
  · intro k hk
    by_cases h : 0 < c1 k
    · exact (h1.on k h).mono s1
    · exact (h2.on k (by omega)).mono s2
  · rintro x (hx | hx) k hk
    · exact (h1.onX x hx k hk).mono s1
    · exact (h2.onX x hx k hk).mono s2
  · intro k hk
    by_cases h : 0 < c1 k
    · have := z2 k (h1.on k h)
      obtain ⟨x, hx, h⟩ := h1.one k (by omega)
      exact ⟨x, .inl hx, h⟩
    · obtain ⟨x, hx, h⟩ := h2.one k (by omega)
      exact ⟨x, .inr hx, h⟩
  · rintro x (hx | hx) k hk
    · have := z2 k (h1.onX x hx k hk)
      have := h1.many x hx k hk
      omega
    · have := z1 k (h2.onX x hx k hk)
      have := h2.many x hx k hk
      omega

/-- Nothing but diagnostics, no `extensions` statements. -/
theorem Counts.join0 {t1 t2 ts c1 c2} (hi : Inc ts) (hs : (t1 ++ t2).Sublist ts)
    (h1 : Counts NoExt t1 c1) (h2 : Counts NoExt t2 c2) : Counts NoExt ts fun k => c1 k + c2 k :=
  (h1.join hi hs h2).congr (fun _ => by simp [NoExt]) fun _ => rfl

/-- Subsequences of concatenations. -/
macro "subl" : tactic => `(tactic| (
  try simp only [List.append_assoc, List.cons_append, List.nil_append]
  repeat (first
    | exact List.Sublist.refl _
    | exact List.nil_sublist _
    | exact List.sublist_append_left _ _
    | with_reducible apply List.Sublist.append_left
    | with_reducible apply List.Sublist.cons_cons
    | with_reducible apply List.Sublist.cons
    | with_reducible apply List.sublist_append_of_sublist_right)))

/-! ### Sequences -/

theorem many_counts {σ : Type} {elem : List ATok → σ → σ → Prop} {E : σ → List ParseErrorKind} {N : σ → Extensions → Prop}
    (step : ∀ t s s', elem t s s' → Inc t → ∃ X c, (∀ k, (E s').count k = (E s).count k + c k) ∧ Counts X t c ∧
      ∀ x, N s' x ↔ N s x ∨ X x) {ts s s'} (h : Many elem ts s s') (hi : Inc ts) :
    ∃ X c, (∀ k, (E s').count k = (E s).count k + c k) ∧ Counts X ts c ∧ ∀ x, N s' x ↔ N s x ∨ X x := by
  induction h with
  | nil => exact ⟨NoExt, _, fun _ => rfl, .nil, fun x => by simp [NoExt]⟩
  | cons he _ ih =>
    obtain ⟨X1, c1, a1, b1, d1⟩ := step _ _ _ he (hi.sub (List.sublist_append_left ..))
    obtain ⟨X2, c2, a2, b2, d2⟩ := ih (hi.sub (List.sublist_append_right ..))
    exact ⟨_, _, fun k => by rw [a2, a1, Nat.add_assoc], b1.join hi (.refl _) b2, fun x => by rw [d2, d1, or_assoc]⟩

theorem many_counts0 {σ : Type} {elem : List ATok → σ → σ → Prop} {E : σ → List ParseErrorKind}
    (step : ∀ t s s', elem t s s' → Inc t → ∃ c, (∀ k, (E s').count k = (E s).count k + c k) ∧ Counts NoExt t c)
    {ts s s'} (h : Many elem ts s s') (hi : Inc ts) (h0 : E s = []) : Counts NoExt ts fun k => (E s').count k := by
  have := many_counts (E := E) (N := fun _ => NoExt) (fun t s s' h hi => by
    obtain ⟨c, h1, h2⟩ := step t s s' h hi
    exact ⟨NoExt, c, h1, h2, fun x => by simp [NoExt]⟩) h hi
  obtain ⟨X, c, h1, h2, h3⟩ := this
  refine h2.congr (fun x => ?_) fun k => by rw [h1, h0]; simp
  have := h3 x
  simp only [NoExt, false_or] at this
  exact this

theorem sepBy_counts {α : Type} {sep : Token} {item : List ATok → α → Prop} {E : α → List ParseErrorKind}
    (hitem : ∀ t a, item t a → Inc t → Counts NoExt t fun k => (E a).count k) {ts as} (h : Places.SepBy sep item ts as)
    (hi : Inc ts) : Counts NoExt ts fun k => (as.flatMap E).count k := by
  induction h with
  | one h => exact (hitem _ _ h hi).congr (fun _ => .rfl) fun k => by simp
  | cons h _ _ ih =>
    refine (Counts.join0 hi (by subl) (hitem _ _ h (hi.sub (List.sublist_append_left ..)))
      (ih (hi.sub ((List.sublist_cons_self ..).trans (List.sublist_append_right ..))))).congr (fun _ => .rfl) fun k => ?_
    rw [List.flatMap_cons, List.count_append]

theorem sepBy_starts {α : Type} {sep : Token} {item : List ATok → α → Prop} {s : α → Nat}
    (hitem : ∀ t a, item t a → ∃ x ∈ t, s a = x.span.start) {ts as} (h : Places.SepBy sep item ts as) (hi : Inc ts) :
    (as.map s).Nodup ∧ ∀ a ∈ as, ∃ x ∈ ts, s a = x.span.start := by
  induction h with
  | one h => exact ⟨by simp, fun a ha => by rw [List.mem_singleton.1 ha]; exact hitem _ _ h⟩
  | @cons t a c ts as h _ _ ih =>
    obtain ⟨h1, h2⟩ := ih (hi.sub ((List.sublist_cons_self ..).trans (List.sublist_append_right ..)))
    obtain ⟨x, hx, ex⟩ := hitem _ _ h
    constructor
    · rw [List.map_cons, List.nodup_cons]
      refine ⟨fun hm => ?_, h1⟩
      obtain ⟨b, hb, e⟩ := List.mem_map.1 hm
      obtain ⟨y, hy, ey⟩ := h2 b hb
      unfold Inc st at hi
      rw [List.map_append, List.pairwise_append] at hi
      have := hi.2.2 _ (List.mem_map_of_mem hx) _ (List.mem_map_of_mem (List.mem_cons_of_mem _ hy))
      omega
    · intro b hb
      rcases List.mem_cons.1 hb with rfl | hb
      · exact ⟨x, List.mem_append_left _ hx, ex⟩
      · obtain ⟨y, hy, ey⟩ := h2 b hb
        exact ⟨y, List.mem_append_right _ (List.mem_cons_of_mem _ hy), ey⟩

/-! ### Numbers, ranges, options -/

theorem extent_at {ts : List ATok} (h : ts ≠ []) : ∃ a ∈ ts, (extent ts).start = a.span.start := by
  cases ts with
  | nil => exact absurd rfl h
  | cons a r => exact ⟨a, .head _, extent_start⟩

theorem int_at {ts i} (h : IntG ts i) : ∃ a ∈ ts, i.span.start = a.span.start := by
  cases h <;> exact extent_at (by simp)

theorem messageNumber_counts {ts i} (h : IntG ts i) : Counts NoExt ts fun k => (messageNumberErrs i).count k := by
  refine .nodup (by unfold messageNumberErrs; split <;> simp) fun k hk => ?_
  obtain ⟨_, rfl⟩ := mem_messageNumberErrs.1 hk
  exact int_at h

theorem enumNumber_counts {ts i} (h : IntG ts i) : Counts NoExt ts fun k => (enumNumberErrs i).count k := by
  refine .nodup (by unfold enumNumberErrs; split <;> simp) fun k hk => ?_
  obtain ⟨_, rfl⟩ := mem_enumNumberErrs.1 hk
  exact int_at h

theorem range_counts {ts r} (h : RangeG ts r) (hi : Inc ts) : Counts NoExt ts fun k => (rangeErrs r).count k := by
  cases h with
  | single h => exact (messageNumber_counts h).congr (fun _ => .rfl) fun k => by simp [rangeErrs]
  | to h1 _ h2 =>
    exact (Counts.join0 hi (by subl) (messageNumber_counts h1) (messageNumber_counts h2)).congr (fun _ => .rfl)
      fun k => by simp [rangeErrs]
  | max h _ _ => exact ((messageNumber_counts h).mono (by simp)).congr (fun _ => .rfl) fun k => by simp [rangeErrs]

theorem enumRange_counts {ts r} (h : RangeG ts r) (hi : Inc ts) : Counts NoExt ts fun k => (enumRangeErrs r).count k := by
  cases h with
  | single h => exact (enumNumber_counts h).congr (fun _ => .rfl) fun k => by simp [enumRangeErrs]
  | to h1 _ h2 =>
    exact (Counts.join0 hi (by subl) (enumNumber_counts h1) (enumNumber_counts h2)).congr (fun _ => .rfl)
      fun k => by simp [enumRangeErrs]
  | max h _ _ => exact ((enumNumber_counts h).mono (by simp)).congr (fun _ => .rfl) fun k => by simp [enumRangeErrs]

theorem reserved_counts {R : ReservedRange → List ParseErrorKind}
    (hR : ∀ t r, RangeG t r → Inc t → Counts NoExt t fun k => (R r).count k) {ts r} (h : ReservedG ts r) (hi : Inc ts) :
    Counts NoExt ts fun k => ((resRanges r).flatMap R).count k := by
  cases h with
  | @ranges k ts z rs _ h _ => exact (sepBy_counts hR h (hi.sub (show ts.Sublist _ by subl))).mono (by simp)
  | names => exact Counts.nil.congr (fun _ => .rfl) fun k => by simp [resRanges]

section
variable [FloatFmt]

theorem body_at {ts o} (h : OptionBodyG ts o) : (∃ a ∈ ts, o.value.span.start = a.span.start) ∧
    ∃ a ∈ ts, (ospan o).start = a.span.start := by
  cases h with
  | mk h1 _ h2 =>
    rename_i e v _
    obtain ⟨a, r, p, ps, rfl, rfl, ha⟩ := name_start h1
    obtain ⟨a', r', rfl, ha'⟩ := value_start h2
    refine ⟨⟨a', by simp, ha'⟩, a, by simp, ?_⟩
    rw [← ha]
    unfold ospan OptionBody.span OptionBody.nameSpan
    cases hl : (p :: ps).getLast? with
    | none => simp at hl
    | some y => simp [joinSpan]

omit [FloatFmt] in
theorem optionErrs_at {o k} (h : k ∈ optionErrs o) : errStart k = o.value.span.start := by
  cases mem_optionErrs.1 h with
  | ident hv => rw [hv]; rfl
  | int hv _ _ => rw [hv]; rfl

omit [FloatFmt] in
theorem optionErrs_one (o) : (optionErrs o).length ≤ 1 := by
  unfold optionErrs
  split
  · simp
  · split <;> simp
  · simp

theorem one_nodup {l : List ParseErrorKind} (h : l.length ≤ 1) : l.Nodup := by
  match l, h with
  | [], _ => simp
  | [_], _ => simp

theorem optionBody_counts {ts o} (h : OptionBodyG ts o) : Counts NoExt ts fun k => (optionErrs o).count k := by
  refine .nodup (one_nodup (optionErrs_one o)) fun k hk => ?_
  obtain ⟨a, ha, e⟩ := (body_at h).1
  exact ⟨a, ha, (optionErrs_at hk).trans e⟩

theorem option_counts {ts o} (h : OptionG ts o) : Counts NoExt ts fun k => (optionErrs o.body).count k := by
  cases h with
  | mk _ h _ => exact (optionBody_counts h).mono (by simp)

theorem optList_counts {ts l} (h : OptListG ts l) (hi : Inc ts) : Counts NoExt ts fun k => (optListErrs l).count k := by
  cases h with
  | none => exact Counts.nil.congr (fun _ => .rfl) fun k => by simp [optListErrs]
  | @some l ts r os _ h _ =>
    exact (sepBy_counts (fun _ _ h _ => optionBody_counts h) h (hi.sub (show ts.Sublist _ by subl))).mono (by simp)

/-! ### Enums and services -/

theorem enumValue_counts {ts v} (h : EnumValueG ts v) (hi : Inc ts) : Counts NoExt ts fun k => (enumValueErrs v).count k := by
  cases h with
  | @mk is name e ns number us os z _ _ h1 h2 _ =>
    exact (Counts.join0 hi (show (ns ++ us).Sublist _ by subl) (enumNumber_counts h1)
      (optList_counts h2 (hi.sub (show us.Sublist _ by subl)))).congr (fun _ => .rfl) fun k => by simp [enumValueErrs]

theorem enum_counts {ts e} (h : EnumG ts e) (hi : Inc ts) : Counts NoExt ts fun k => (enumErrs e).count k := by
  cases h with
  | @mk k is name o ts os vs rs z _ _ _ h _ =>
    refine (many_counts0 (E := fun s => enumErrs ⟨name, s.1, s.2.1, s.2.2, comments (k :: is) o, extent (k :: is ++ o :: ts ++ [z])⟩) ?_ h
      (hi.sub (show ts.Sublist _ by subl)) (by simp [enumErrs, optsErrs, allRanges])).mono
      (show ts ⊆ k :: is ++ o :: ts ++ [z] from fun a ha => by simp [ha])
    intro t s s' h hi
    cases h with
    | option h => exact ⟨_, fun k => by simp [enumErrs, optsErrs, Nat.add_assoc], option_counts h⟩
    | reserved h =>
      exact ⟨_, fun k => by simp [enumErrs, allRanges]; omega, reserved_counts (R := enumRangeErrs) (fun _ _ h hi => enumRange_counts h hi) h hi⟩
    | value h _ => exact ⟨_, fun k => by simp [enumErrs]; omega, enumValue_counts h hi⟩
    | empty _ => exact ⟨_, fun k => rfl, .nil⟩

theorem method_counts {ts x} (h : MethodG ts x) (hi : Inc ts) : Counts NoExt ts fun k => (optsErrs x.options).count k := by
  cases h with
  | @mk k is name l ins i cs r k' l' outs o ss r' es os z _ _ _ _ _ _ _ _ _ h =>
    cases h with
    | semi _ => exact Counts.nil.congr (fun _ => .rfl) fun k => by simp [optsErrs]
    | @body o ts _ z _ h _ =>
      refine (many_counts0 (E := optsErrs) ?_ h (hi.sub (show ts.Sublist _ by subl)) rfl).mono (by
        intro a ha; simp [ha])
      intro t s s' h hi
      cases h with
      | option h => exact ⟨_, fun k => by simp [optsErrs], option_counts h⟩
      | empty _ => exact ⟨_, fun k => rfl, .nil⟩

theorem service_counts {ts x} (h : ServiceG ts x) (hi : Inc ts) : Counts NoExt ts fun k => (serviceErrs x).count k := by
  cases h with
  | @mk k is name o ts os ms z _ _ _ h _ =>
    refine (many_counts0 (E := fun s => serviceErrs ⟨name, s.1, s.2, comments (k :: is) o, extent (k :: is ++ o :: ts ++ [z])⟩) ?_ h
      (hi.sub (show ts.Sublist _ by subl)) (by simp [serviceErrs, optsErrs])).mono
      (show ts ⊆ k :: is ++ o :: ts ++ [z] from fun a ha => by simp [ha])
    intro t s s' h hi
    cases h with
    | option h => exact ⟨_, fun k => by simp [serviceErrs, optsErrs, Nat.add_assoc], option_counts h⟩
    | method h => exact ⟨_, fun k => by simp [serviceErrs]; omega, method_counts h hi⟩
    | empty _ => exact ⟨_, fun k => rfl, .nil⟩

end
end Verif.Repeats
