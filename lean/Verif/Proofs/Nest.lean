import Verif.Spec.Nesting
import Verif.Proofs.Rows3
import Verif.Proofs.Distinct
/-!
Marks that nest like their paths do.
-/
namespace Verif.Nesting
open Verif.Ast Verif.Spec Verif.Places Verif.Gen

/-- The tokens are in the order of the text. -/
def Ord (ts : List ATok) : Prop :=
  ts.Pairwise fun a b => a.span.start ≤ b.span.start ∧ a.span.stop ≤ b.span.stop

theorem Ord.sub {a b : List ATok} (h : Ord b) (hs : a.Sublist b) : Ord a := List.Pairwise.sublist hs h

/-- The span lies between the start of a token and the end of a token. -/
def Inn (ts : List ATok) (sp : Span) : Prop :=
  ∃ x ∈ ts, ∃ z ∈ ts, x.span.start ≤ sp.start ∧ sp.stop ≤ z.span.stop

theorem Inn.mono {ts ts' : List ATok} {sp} (h : Inn ts sp) (hs : ts ⊆ ts') : Inn ts' sp := by
  obtain ⟨x, hx, z, hz, h⟩ := h
  exact ⟨x, hs hx, z, hs hz, h⟩

def Within (sp out : Span) : Prop := out.start ≤ sp.start ∧ sp.stop ≤ out.stop

theorem extent_two {a z : ATok} {ts : List ATok} (h1 : ts.head? = some a) (h2 : ts.getLast? = some z) :
    extent ts = ⟨a.span.start, z.span.stop⟩ := by simp [extent, h1, h2]

theorem Ord.head {a : ATok} {ts : List ATok} (h : Ord ts) (h1 : ts.head? = some a) :
    ∀ x ∈ ts, a.span.start ≤ x.span.start := by
  cases ts with
  | nil => cases h1
  | cons b r =>
    cases h1
    intro x hx
    rcases List.mem_cons.1 hx with rfl | hx
    · exact Nat.le_refl _
    · exact ((List.pairwise_cons.1 h).1 x hx).1

theorem Ord.last {a : ATok} {ts : List ATok} (h : Ord ts) (h1 : ts.getLast? = some a) :
    ∀ x ∈ ts, x.span.stop ≤ a.span.stop := by
  obtain ⟨l, rfl⟩ := List.getLast?_eq_some_iff.1 h1
  intro x hx
  rcases List.mem_append.1 hx with hx | hx
  · exact ((List.pairwise_append.1 h).2.2 x hx a (by simp)).2
  · rw [List.mem_singleton] at hx; subst hx; exact Nat.le_refl _

theorem ends_of {ts : List ATok} (h : ts ≠ []) : ∃ a z, ts.head? = some a ∧ ts.getLast? = some z ∧ a ∈ ts ∧ z ∈ ts := by
  cases ts with
  | nil => exact absurd rfl h
  | cons a r =>
    refine ⟨a, (a :: r).getLast (by simp), rfl, List.getLast?_eq_some_getLast _, .head _, List.getLast_mem _⟩

theorem Inn.within {ts : List ATok} {sp} (h : Inn ts sp) (ho : Ord ts) : Within sp (extent ts) := by
  obtain ⟨x, hx, z, hz, h1, h2⟩ := h
  obtain ⟨a, y, e1, e2, _, _⟩ := ends_of (List.ne_nil_of_mem hx)
  rw [extent_two e1 e2]
  exact ⟨Nat.le_trans (ho.head e1 x hx) h1, Nat.le_trans h2 (ho.last e2 z hz)⟩

theorem inn_extent {ts : List ATok} (h : ts ≠ []) : Inn ts (extent ts) := by
  obtain ⟨a, z, e1, e2, h1, h2⟩ := ends_of h
  rw [extent_two e1 e2]
  exact ⟨a, h1, z, h2, Nat.le_refl _, Nat.le_refl _⟩

theorem inn_sub {ts us : List ATok} (h : us ≠ []) (hs : us ⊆ ts) : Inn ts (extent us) := (inn_extent h).mono hs

theorem inn_tok {ts : List ATok} {a : ATok} (h : a ∈ ts) : Inn ts a.span := ⟨a, h, a, h, Nat.le_refl _, Nat.le_refl _⟩

theorem inn_join {ts : List ATok} {s t : Span} (h1 : Inn ts s) (h2 : Inn ts t) : Inn ts (joinSpan s t) := by
  obtain ⟨x, hx, _, _, h, _⟩ := h1
  obtain ⟨_, _, z, hz, _, h'⟩ := h2
  exact ⟨x, hx, z, hz, h, h'⟩

/-! ### Sets of marks -/

/-- Below the path `M`: a mark whose path begins with that of another mark lies in a mark with that path. -/
def Nest (M : List Int) (P : Mark → Prop) : Prop :=
  ∀ a b, P a → P b → ∀ q, q ≠ [] → b.path = a.path ++ q →
    Elsewhere (M ++ a.path) (M ++ b.path) ∨ ∃ c, P c ∧ c.path = a.path ∧ Within b.span c.span

def Heads (T : List Int) (P : Mark → Prop) : Prop := ∀ m, P m → ∃ t ∈ T, ∃ r, m.path = t :: r

/-- Marks of the tokens that nest. -/
structure Whole (M : List Int) (ts : List ATok) (P : Mark → Prop) : Prop where
  nest : Nest M P
  inn : ∀ m, P m → Inn ts m.span

/-- Marks of the tokens that nest, with paths beginning with one of the tags. -/
structure Part (M : List Int) (T : List Int) (ts : List ATok) (P : Mark → Prop) : Prop where
  nest : Nest M P
  inn : ∀ m, P m → Inn ts m.span
  heads : Heads T P

theorem Nest.congr {M P Q} (h : Nest M P) (e : ∀ m, P m ↔ Q m) : Nest M Q := by
  have : P = Q := funext fun m => propext (e m)
  exact this ▸ h
theorem Whole.congr {M ts P Q} (h : Whole M ts P) (e : ∀ m, P m ↔ Q m) : Whole M ts Q := by
  have : P = Q := funext fun m => propext (e m)
  exact this ▸ h
theorem Part.congr {M T ts P Q} (h : Part M T ts P) (e : ∀ m, P m ↔ Q m) : Part M T ts Q := by
  have : P = Q := funext fun m => propext (e m)
  exact this ▸ h
theorem Whole.mono {M ts ts' P} (h : Whole M ts P) (hs : ts ⊆ ts') : Whole M ts' P := ⟨h.nest, fun m hm => (h.inn m hm).mono hs⟩
theorem Part.mono {M T ts ts' P} (h : Part M T ts P) (hs : ts ⊆ ts') : Part M T ts' P :=
  ⟨h.nest, fun m hm => (h.inn m hm).mono hs, h.heads⟩

theorem Part.none {M T ts} {P : Mark → Prop} (h : ∀ m, ¬ P m) : Part M T ts P :=
  ⟨fun a _ ha => (h a ha).elim, fun m hm => (h m hm).elim, fun m hm => (h m hm).elim⟩

/-- One mark. -/
theorem Whole.one {M ts sp c} (p : List Int) (h : Inn ts sp) : Whole M ts (fun m => m = ⟨p, sp, c⟩) := by
  refine ⟨?_, by rintro _ rfl; exact h⟩
  rintro _ _ rfl rfl q hq e
  have := congrArg List.length e
  simp at this
  exact absurd this hq

theorem Part.leaf {M ts sp c} (t : Int) (h : Inn ts sp) : Part M [t] ts (fun m => m = ⟨[t], sp, c⟩) :=
  ⟨(Whole.one _ h).nest, (Whole.one (M := M) _ h).inn, by rintro _ rfl; exact ⟨t, .head _, [], rfl⟩⟩

/-- Several marks with the same path of one tag. -/
theorem Part.flat {M ts} (t : Int) {P : Mark → Prop} (hp : ∀ m, P m → m.path = [t]) (h : ∀ m, P m → Inn ts m.span) :
    Part M [t] ts P := by
  refine ⟨?_, h, fun m hm => ⟨t, .head _, [], hp m hm⟩⟩
  intro a b ha hb q hq e
  rw [hp a ha, hp b hb] at e
  have := congrArg List.length e
  simp at this
  exact absurd this hq

theorem Part.or {M T U ts P Q} (hP : Part M T ts P) (hQ : Part M U ts Q) (hd : ∀ t ∈ T, t ∉ U) :
    Part M (T ++ U) ts (fun m => P m ∨ Q m) := by
  refine ⟨?_, fun m hm => hm.elim (hP.inn m) (hQ.inn m), ?_⟩
  · rintro a b (ha | ha) (hb | hb) q hq e
    · rcases hP.nest a b ha hb q hq e with h | ⟨c, hc, h⟩
      · exact .inl h
      · exact .inr ⟨c, .inl hc, h⟩
    · obtain ⟨t, ht, r, er⟩ := hP.heads a ha
      obtain ⟨u, hu, r', er'⟩ := hQ.heads b hb
      rw [er, er'] at e; cases e
      exact absurd hu (hd _ ht)
    · obtain ⟨t, ht, r, er⟩ := hQ.heads a ha
      obtain ⟨u, hu, r', er'⟩ := hP.heads b hb
      rw [er, er'] at e; cases e
      exact absurd ht (hd _ hu)
    · rcases hQ.nest a b ha hb q hq e with h | ⟨c, hc, h⟩
      · exact .inl h
      · exact .inr ⟨c, .inr hc, h⟩
  · rintro m (hm | hm)
    · obtain ⟨t, ht, h⟩ := hP.heads m hm; exact ⟨t, List.mem_append_left _ ht, h⟩
    · obtain ⟨t, ht, h⟩ := hQ.heads m hm; exact ⟨t, List.mem_append_right _ ht, h⟩

/-- A mark for the whole of the text, unless the others are elsewhere. -/
theorem Whole.rootBut {M T ts P sp c} (h : Part M T ts P) (hin : Inn ts sp)
    (hc : ∀ m, P m → Elsewhere M (M ++ m.path) ∨ Within m.span sp) :
    Whole M ts (fun m => m = ⟨[], sp, c⟩ ∨ P m) := by
  refine ⟨?_, ?_⟩
  · rintro a b (rfl | ha) (rfl | hb) q hq e
    · simp at e; exact absurd e.symm (by simpa using hq)
    · rcases hc b hb with h | h
      · exact .inl (by simpa using h)
      · exact .inr ⟨_, .inl rfl, rfl, h⟩
    · obtain ⟨t, _, r, er⟩ := h.heads a ha
      rw [er] at e; cases e
    · rcases h.nest a b ha hb q hq e with h | ⟨c, hc, h⟩
      · exact .inl h
      · exact .inr ⟨c, .inr hc, h⟩
  · rintro m (rfl | hm)
    · exact hin
    · exact h.inn m hm

theorem Whole.root {M T ts P c} (h : Part M T ts P) (hn : ts ≠ []) (ho : Ord ts) :
    Whole M ts (fun m => m = ⟨[], extent ts, c⟩ ∨ P m) :=
  Whole.rootBut h (inn_extent hn) fun m hm => .inr ((h.inn m hm).within ho)

theorem Nest.sub {M p} {P : Mark → Prop} (h : Nest (M ++ p) P) : Nest M (fun m => ∃ x, P x ∧ m = x.sub p) := by
  rintro _ _ ⟨a, ha, rfl⟩ ⟨b, hb, rfl⟩ q hq e
  have e' : b.path = a.path ++ q := by
    simp only [Mark.sub, List.append_assoc] at e
    exact List.append_cancel_left e
  rcases h a b ha hb q hq e' with h | ⟨c, hc, h1, h2⟩
  · exact .inl (by simpa [Mark.sub] using h)
  · exact .inr ⟨c.sub p, ⟨c, hc, rfl⟩, by simp [Mark.sub, h1], h2⟩

theorem Part.under {M ts t} {ms : List Mark} (h : Whole (M ++ [t]) ts (· ∈ ms)) : Part M [t] ts (· ∈ under [t] ms) := by
  have e : ∀ m, (∃ x, x ∈ ms ∧ m = x.sub [t]) ↔ m ∈ Gen.under [t] ms := fun m => mem_under.symm
  refine ⟨h.nest.sub.congr e, ?_, ?_⟩
  · intro m hm
    obtain ⟨x, hx, rfl⟩ := mem_under.1 hm
    exact h.inn x hx
  · intro m hm
    obtain ⟨x, hx, rfl⟩ := mem_under.1 hm
    exact ⟨t, .head _, _, rfl⟩

theorem Part.at {α : Type} {M ts b} (tag : Int) {l : List α} {g : α → List Mark}
    (h : ∀ (i : Nat) y, y ∈ l → Whole (M ++ [tag, (i : Int)]) ts (· ∈ g y)) : Part M [tag] ts (At b tag l g) := by
  refine ⟨?_, ?_, ?_⟩
  · rintro _ _ ⟨i, x, hx, ha⟩ ⟨j, y, hy, hb⟩ q hq e
    obtain ⟨a, ha', rfl⟩ := mem_under.1 ha
    obtain ⟨c, hc, rfl⟩ := mem_under.1 hb
    have : i = j := by
      simp only [Mark.sub, List.cons_append, List.cons.injEq] at e
      omega
    subst this
    rw [hx] at hy; cases hy
    have hm : x ∈ l := List.mem_of_getElem? hx
    rcases (h (b + i) x hm).nest.sub _ _ ⟨a, ha', rfl⟩ ⟨c, hc, rfl⟩ q hq e with h | ⟨c', ⟨d, hd, rfl⟩, h⟩
    · exact .inl h
    · exact .inr ⟨_, ⟨i, x, hx, mem_under.2 ⟨d, hd, rfl⟩⟩, h⟩
  · rintro _ ⟨i, x, hx, ha⟩
    obtain ⟨a, ha', rfl⟩ := mem_under.1 ha
    exact (h 0 x (List.mem_of_getElem? hx)).inn a ha'
  · rintro _ ⟨i, x, hx, ha⟩
    obtain ⟨a, ha, rfl⟩ := mem_under.1 ha
    exact ⟨tag, .head _, _, rfl⟩

/-- Statements that share a path, and the elements below it: each of them belongs to one of the statements. -/
theorem Part.block {M ts tag} {R P : Mark → Prop} (hR : ∀ m, R m → m.path = [tag]) (hi : ∀ m, R m → Inn ts m.span)
    (hP : Part M [tag] ts P) (hl : ∀ m, P m → m.path ≠ [tag])
    (hc : ∀ m, P m → ∃ r, R r ∧ Within m.span r.span) : Part M [tag] ts (fun m => R m ∨ P m) := by
  refine ⟨?_, fun m hm => hm.elim (hi m) (hP.inn m), ?_⟩
  · rintro a b (ha | ha) (hb | hb) q hq e
    · rw [hR a ha, hR b hb] at e
      have := congrArg List.length e
      simp at this
      exact absurd this hq
    · obtain ⟨r, hr, h⟩ := hc b hb
      exact .inr ⟨r, .inl hr, by rw [hR r hr, hR a ha], h⟩
    · obtain ⟨t, ht, r, er⟩ := hP.heads a ha
      rw [List.mem_singleton] at ht; subst ht
      rw [hR b hb, er] at e
      simp only [List.cons_append, List.cons.injEq, true_and] at e
      exact absurd (List.append_eq_nil_iff.1 e.symm).2 hq
    · rcases hP.nest a b ha hb q hq e with h | ⟨c, hc, h⟩
      · exact .inl h
      · exact .inr ⟨c, .inr hc, h⟩
  · rintro m (hm | hm)
    · exact ⟨tag, .head _, [], hR m hm⟩
    · exact hP.heads m hm

theorem at_ne {α : Type} {b tag} {l : List α} {g : α → List Mark} {m} (h : At b tag l g m) : m.path ≠ [tag] := by
  obtain ⟨i, x, _, h⟩ := h
  obtain ⟨y, _, rfl⟩ := mem_under.1 h
  simp [Mark.sub]

theorem at_mem {α : Type} {b tag} {l : List α} {g : α → List Mark} {m} (h : At b tag l g m) :
    ∃ x ∈ l, ∃ y ∈ g x, y.span = m.span := by
  obtain ⟨i, x, hx, h⟩ := h
  obtain ⟨y, hy, rfl⟩ := mem_under.1 h
  exact ⟨x, List.mem_of_getElem? hx, y, hy, rfl⟩

end Verif.Nesting
