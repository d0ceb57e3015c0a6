import Verif.Proofs.Distinct
/-!
No two locations have the same path and the same start.
-/
namespace Verif.Dist
open Verif.Ast Verif.Gen

/-- Different path or different start. -/
def Sep (a b : Mark) : Prop := a.path = b.path → a.span.start ≠ b.span.start

def ND (ms : List Mark) : Prop := ms.Pairwise Sep

theorem ND.nil : ND [] := List.Pairwise.nil

theorem ND.app {a b : List Mark} (ha : ND a) (hb : ND b) (h : ∀ x ∈ a, ∀ y ∈ b, Sep x y) : ND (a ++ b) :=
  List.pairwise_append.2 ⟨ha, hb, h⟩

theorem ND.cons {x : Mark} {a : List Mark} (ha : ND a) (h : ∀ y ∈ a, Sep x y) : ND (x :: a) :=
  List.pairwise_cons.2 ⟨h, ha⟩

theorem under_mem {p : List Int} {ms : List Mark} {m : Mark} (h : m ∈ under p ms) :
    ∃ m' ∈ ms, m = { m' with path := p ++ m'.path } := by
  obtain ⟨m', h1, h2⟩ := List.mem_map.1 h
  exact ⟨m', h1, h2.symm⟩

theorem sep_under {p : List Int} {a b : Mark} (h : Sep a b) : Sep { a with path := p ++ a.path } { b with path := p ++ b.path } :=
  fun e => h (List.append_cancel_left e)

theorem ND.under {p : List Int} {ms : List Mark} (h : ND ms) : ND (under p ms) :=
  List.pairwise_map.2 (h.imp fun h => sep_under h)

/-- The paths begin with one of these numbers (`none`: the path is empty). -/
def Top (T : List (Option Int)) (ms : List Mark) : Prop := ∀ m ∈ ms, m.path.head? ∈ T

theorem Top.nil {T} : Top T [] := nofun
theorem Top.app {T a b} (ha : Top T a) (hb : Top T b) : Top T (a ++ b) := fun m h =>
  (List.mem_append.1 h).elim (ha m) (hb m)
theorem Top.cons {T p sp c a} (hx : p.head? ∈ T) (ha : Top T a) : Top T (⟨p, sp, c⟩ :: a) := fun m h =>
  (List.mem_cons.1 h).elim (fun e => e ▸ hx) (ha m)
theorem Top.under {T p} {t : Int} {ms} (h : some t ∈ T) : Top T (under (t :: p) ms) := by
  intro m hm
  obtain ⟨m', _, rfl⟩ := under_mem hm
  exact h
theorem Top.mono {T T' ms} (h : Top T ms) (hs : ∀ t ∈ T, t ∈ T') : Top T' ms := fun m hm => hs _ (h m hm)

/-- Appending marks with different first numbers. -/
theorem ND.tops {a b : List Mark} {T T'} (ha : ND a) (hb : ND b) (h : Top T a) (h' : Top T' b)
    (hd : ∀ t ∈ T, t ∉ T') : ND (a ++ b) :=
  ha.app hb fun x hx y hy e => absurd (e ▸ h x hx : y.path.head? ∈ T) fun k => hd _ k (h' y hy)

theorem ND.topc {p sp c} {b : List Mark} {T'} (hb : ND b) (h' : Top T' b) (hd : p.head? ∉ T') : ND (⟨p, sp, c⟩ :: b) :=
  hb.cons fun y hy e => absurd (h' y hy) (e ▸ hd)

/-- The marks of one of several elements: below `[t, i]` with `lo t ≤ i < hi t`, or a mark with at most one number that
begins at one of these offsets. -/
def Rng (lo hi : Int → Nat) (S : List Nat) (ms : List Mark) : Prop := ∀ m ∈ ms,
  (∃ (t : Int) (i : Nat) (q : List Int), m.path = t :: (i : Int) :: q ∧ lo t ≤ i ∧ i < hi t) ∨
  (m.path.length ≤ 1 ∧ m.span.start ∈ S)

theorem Rng.nil {lo hi S} : Rng lo hi S [] := nofun
theorem Rng.app {lo hi S a b} (ha : Rng lo hi S a) (hb : Rng lo hi S b) : Rng lo hi S (a ++ b) := fun m h =>
  (List.mem_append.1 h).elim (ha m) (hb m)
theorem Rng.cons {lo hi S a} {x : Mark} (hx : Rng lo hi S [x]) (ha : Rng lo hi S a) : Rng lo hi S (x :: a) :=
  Rng.app (a := [x]) hx ha
theorem Rng.mono {lo hi S lo' hi' S' a} (h : Rng lo hi S a) (h1 : ∀ t, lo' t ≤ lo t) (h2 : ∀ t, hi t ≤ hi' t)
    (h3 : ∀ x ∈ S, x ∈ S') : Rng lo' hi' S' a := by
  intro m hm
  rcases h m hm with ⟨t, i, q, e, a, b⟩ | ⟨e, a⟩
  · exact .inl ⟨t, i, q, e, Nat.le_trans (h1 t) a, Nat.lt_of_lt_of_le b (h2 t)⟩
  · exact .inr ⟨e, h3 _ a⟩
theorem Rng.under {lo hi S} {t : Int} {i : Nat} {p ms} (h1 : lo t ≤ i) (h2 : i < hi t) :
    Rng lo hi S (under (t :: (i : Int) :: p) ms) := by
  intro m hm
  obtain ⟨m', _, rfl⟩ := under_mem hm
  exact .inl ⟨t, i, p ++ m'.path, rfl, h1, h2⟩
theorem Rng.one {lo hi S} {t : Int} {i : Nat} {p sp c} (h1 : lo t ≤ i) (h2 : i < hi t) :
    Rng lo hi S [⟨t :: (i : Int) :: p, sp, c⟩] := by
  intro m hm
  rw [List.mem_singleton] at hm; subst hm
  exact .inl ⟨t, i, p, rfl, h1, h2⟩
theorem Rng.short {lo hi S} {m : Mark} (h1 : m.path.length ≤ 1) (h2 : m.span.start ∈ S) : Rng lo hi S [m] := by
  intro x hx
  rw [List.mem_singleton] at hx; subst hx
  exact .inr ⟨h1, h2⟩

/-- Appending the marks of later elements. -/
theorem ND.rng {a b : List Mark} {lo mid hi S S'} (ha : ND a) (hb : ND b) (h : Rng lo mid S a) (h' : Rng mid hi S' b)
    (hd : ∀ x ∈ S, x ∉ S') : ND (a ++ b) := by
  refine ha.app hb fun x hx y hy e => ?_
  rcases h x hx with ⟨t, i, q, ex, a1, a2⟩ | ⟨ex, a⟩ <;> rcases h' y hy with ⟨t', i', q', ey, b1, b2⟩ | ⟨ey, b⟩
  · rw [ex, ey] at e
    injection e with e1 e; injection e with e2 e3
    subst e1
    have : i = i' := by omega
    omega
  · rw [← e, ex] at ey; simp at ey
  · rw [e, ey] at ex; simp at ex
  · intro es; rw [es] at a; exact hd _ a b

/-! ### Options -/

theorem optsMarks_rng : ∀ (k : Nat) (os : List Opt),
    Rng (fun _ => k) (fun _ => k + os.length) (os.map fun o => o.span.start) (optsMarks k os)
  | _, [] => .nil
  | k, o :: os => by
    rw [optsMarks]
    refine .cons (.short (Nat.zero_le _) (.head _)) (.cons (.one (Nat.le_refl _) (by simp)) ?_)
    exact (optsMarks_rng (k + 1) os).mono (fun _ => Nat.le_succ _) (fun _ => by simp; omega) (fun _ h => .tail _ h)

theorem optsMarks_nd : ∀ (k : Nat) (os : List Opt), optsD os → ND (optsMarks k os)
  | _, [], _ => .nil
  | k, o :: os, h => by
    obtain ⟨h1, h2⟩ := List.nodup_cons.1 h
    have := ND.rng (a := [⟨[], o.span, {}⟩, ⟨[Tag.uninterpretedOption, k], o.span, o.comments⟩]) (lo := fun _ => k)
      (S := [o.span.start]) (by simp [ND, Sep]) (optsMarks_nd (k + 1) os h2)
      (.cons (.short (Nat.zero_le _) (.head _)) (.one (Nat.le_refl _) (Nat.lt_succ_self _))) (optsMarks_rng (k + 1) os)
      (by intro x hx; rw [List.mem_singleton] at hx; subst hx; exact h1)
    exact this

theorem bodiesMarks_rng : ∀ (k : Nat) (os : List OptionBody),
    Rng (fun _ => k) (fun _ => k + os.length) [] (bodiesMarks k os)
  | _, [] => .nil
  | k, o :: os => by
    rw [bodiesMarks]
    refine .cons (.one (Nat.le_refl _) (by simp)) ?_
    exact (bodiesMarks_rng (k + 1) os).mono (fun _ => Nat.le_succ _) (fun _ => by simp; omega) (fun _ h => h)

theorem bodiesMarks_nd : ∀ (k : Nat) (os : List OptionBody), ND (bodiesMarks k os)
  | _, [] => .nil
  | k, o :: os =>
    ND.rng (a := [⟨[Tag.uninterpretedOption, k], ospan o, {}⟩]) (lo := fun _ => k) (S := [])
      (List.pairwise_singleton ..) (bodiesMarks_nd (k + 1) os) (.one (Nat.le_refl _) (Nat.lt_succ_self _))
      (bodiesMarks_rng (k + 1) os) nofun

theorem bodiesMarks_top : ∀ (k : Nat) (os : List OptionBody), Top [some 999] (bodiesMarks k os)
  | _, [] => .nil
  | k, _ :: os => .cons (by simp [Tag.uninterpretedOption]) (bodiesMarks_top (k + 1) os)

theorem optListMarks_nd (l : Option OptionList) : ND (optListMarks l) := by
  cases l with
  | none => exact .nil
  | some l => exact (bodiesMarks_nd 0 _).topc (bodiesMarks_top 0 _) (by simp)

/-! ### Ranges -/

theorem rangeMarks_nd (r : ReservedRange) : ND (rangeMarks r) := by simp [ND, rangeMarks, Sep, Tag.rangeStart, Tag.rangeEnd]

theorem extRangeMarks_nd (os r) : ND (extRangeMarks os r) :=
  (rangeMarks_nd r).tops (optListMarks_nd os).under (T := [none, some 1, some 2]) (T' := [some 3])
    (by intro m hm; simp only [rangeMarks, List.mem_cons, List.not_mem_nil, or_false] at hm; rcases hm with rfl | rfl | rfl <;> simp [Tag.rangeStart, Tag.rangeEnd])
    (.under (by simp [Tag.extensionRangeOptions])) (by decide)

theorem rangesMarks_rng (f : ReservedRange → List Mark) (t : Int) : ∀ (k : Nat) (rs : List ReservedRange),
    Rng (fun _ => k) (fun _ => k + rs.length) [] (under [t] (rangesMarks f k rs))
  | _, [] => .nil
  | k, r :: rs => by
    rw [rangesMarks, under_append, under_under]
    refine .app (.under (p := []) (Nat.le_refl _) (by simp)) ?_
    exact (rangesMarks_rng f t (k + 1) rs).mono (fun _ => Nat.le_succ _) (fun _ => by simp; omega) (fun _ h => h)

theorem rangesMarks_nd (f : ReservedRange → List Mark) (hf : ∀ r, ND (f r)) (t : Int) : ∀ (k : Nat) (rs : List ReservedRange),
    ND (under [t] (rangesMarks f k rs))
  | _, [] => .nil
  | k, r :: rs => by
    rw [rangesMarks, under_append, under_under]
    exact ND.rng (lo := fun _ => k) (S := []) (hf r).under (rangesMarks_nd f hf t (k + 1) rs)
      (.under (p := []) (Nat.le_refl _) (Nat.lt_succ_self _)) (rangesMarks_rng f t (k + 1) rs) nofun

theorem namesMarks_rng (t : Int) : ∀ (k : Nat) (rs : List Ident),
    Rng (fun _ => k) (fun _ => k + rs.length) [] (under [t] (namesMarks k rs))
  | _, [] => .nil
  | k, r :: rs => by
    rw [namesMarks, under_cons]
    refine .cons (.one (p := []) (Nat.le_refl _) (by simp)) ?_
    exact (namesMarks_rng t (k + 1) rs).mono (fun _ => Nat.le_succ _) (fun _ => by simp; omega) (fun _ h => h)

theorem namesMarks_nd (t : Int) : ∀ (k : Nat) (rs : List Ident), ND (under [t] (namesMarks k rs))
  | _, [] => .nil
  | k, r :: rs => by
    rw [namesMarks, under_cons]
    exact ND.rng (a := [⟨[t] ++ [(k : Int)], r.span, {}⟩]) (lo := fun _ => k) (S := []) (List.pairwise_singleton ..)
      (namesMarks_nd t (k + 1) rs) (.one (p := []) (Nat.le_refl _) (Nat.lt_succ_self _)) (namesMarks_rng t (k + 1) rs) nofun

/-- Below `[t]` nothing but the first mark has the path `[t]`. -/
theorem rng_pos {lo hi : Int → Nat} {ms : List Mark} (h : Rng lo hi [] ms) : ∀ m ∈ ms, 2 ≤ m.path.length := by
  intro m hm
  rcases h m hm with ⟨t, i, q, e, _⟩ | ⟨_, e⟩
  · rw [e]; simp
  · cases e

theorem two {tagR tagN : Int} (hne : tagR ≠ tagN) (a b : Nat) :
    (fun t => if t = tagR then a else if t = tagN then b else 0) tagR = a ∧
    (fun t => if t = tagR then a else if t = tagN then b else 0) tagN = b := by
  constructor
  · simp
  · simp [Ne.symm hne]

def lo2 (tagR tagN : Int) (a b : Nat) : Int → Nat := fun t => if t = tagR then a else if t = tagN then b else 0

theorem reservedMarks_top {tagR tagN : Int} : ∀ (k j : Nat) (rs : List Reserved),
    Top [some tagR, some tagN] (reservedMarks tagR tagN k j rs)
  | _, _, [] => .nil
  | k, j, ⟨.ranges xs, cm, sp⟩ :: rs => .app (.under (by simp)) (reservedMarks_top _ _ rs)
  | k, j, ⟨.names xs, cm, sp⟩ :: rs => .app (.under (by simp)) (reservedMarks_top _ _ rs)

theorem rng_single {t : Int} {ms : List Mark} {k n : Nat} {lo hi : Int → Nat} {S}
    (h : Rng (fun _ => k) (fun _ => n) [] (under [t] ms)) (hlo : lo t ≤ k) (hhi : n ≤ hi t) : Rng lo hi S (under [t] ms) := by
  intro m hm
  obtain ⟨m', hm', rfl⟩ := under_mem hm
  rcases h _ hm with ⟨t', i, q, e, h1, h2⟩ | ⟨_, e⟩
  · injection e with e1 e2
    subst e1
    have h1 : k ≤ i := h1
    have h2 : i < n := h2
    exact .inl ⟨t, i, q, by rw [← e2]; rfl, by omega, by omega⟩
  · cases e

theorem reservedMarks_both {tagR tagN : Int} (hne : tagR ≠ tagN) : ∀ (k j : Nat) (rs : List Reserved), resD rs →
    ND (reservedMarks tagR tagN k j rs) ∧ ∃ hi, Rng (lo2 tagR tagN k j) hi (rs.map fun r => r.span.start)
      (reservedMarks tagR tagN k j rs)
  | _, _, [], _ => ⟨.nil, fun _ => 0, .nil⟩
  | k, j, ⟨.ranges xs, cm, sp⟩ :: rs, h => by
    obtain ⟨h1, h2⟩ := List.nodup_cons.1 h
    obtain ⟨n2, hi, r2⟩ := reservedMarks_both hne (k + xs.length) (j + 0) rs h2
    have r1 : Rng (lo2 tagR tagN k j) (lo2 tagR tagN (k + xs.length) (j + 0)) [sp.start]
        (under [tagR] (⟨[], sp, cm⟩ :: rangesMarks rangeMarks k xs)) := by
      rw [under_cons]
      exact .cons (.short (by simp) (.head _)) (rng_single (rangesMarks_rng _ tagR k xs) (by simp [lo2]) (by simp [lo2]))
    have n1 : ND (under [tagR] (⟨[], sp, cm⟩ :: rangesMarks rangeMarks k xs)) := by
      rw [under_cons]
      refine (rangesMarks_nd _ rangeMarks_nd tagR k xs).cons fun y hy e => ?_
      have := rng_pos (rangesMarks_rng rangeMarks tagR k xs) y hy
      rw [← e] at this; simp at this
    refine ⟨n1.rng n2 r1 r2 (by intro x hx; rw [List.mem_singleton] at hx; subst hx; exact h1),
      fun t => max (hi t) (lo2 tagR tagN (k + xs.length) (j + 0) t), .app ?_ ?_⟩
    · exact r1.mono (fun _ => Nat.le_refl _) (fun _ => Nat.le_max_right ..) (by simp)
    · exact r2.mono (fun t => by unfold lo2; split <;> (try split) <;> omega) (fun _ => Nat.le_max_left ..) (fun _ h => .tail _ h)
  | k, j, ⟨.names xs, cm, sp⟩ :: rs, h => by
    obtain ⟨h1, h2⟩ := List.nodup_cons.1 h
    obtain ⟨n2, hi, r2⟩ := reservedMarks_both hne (k + 0) (j + xs.length) rs h2
    have r1 : Rng (lo2 tagR tagN k j) (lo2 tagR tagN (k + 0) (j + xs.length)) [sp.start]
        (under [tagN] (⟨[], sp, cm⟩ :: namesMarks j xs)) := by
      rw [under_cons]
      exact .cons (.short (by simp) (.head _))
        (rng_single (namesMarks_rng tagN j xs) (by simp [lo2, Ne.symm hne]) (by simp [lo2, Ne.symm hne]))
    have n1 : ND (under [tagN] (⟨[], sp, cm⟩ :: namesMarks j xs)) := by
      rw [under_cons]
      refine (namesMarks_nd tagN j xs).cons fun y hy e => ?_
      have := rng_pos (namesMarks_rng tagN j xs) y hy
      rw [← e] at this; simp at this
    refine ⟨n1.rng n2 r1 r2 (by intro x hx; rw [List.mem_singleton] at hx; subst hx; exact h1),
      fun t => max (hi t) (lo2 tagR tagN (k + 0) (j + xs.length) t), .app ?_ ?_⟩
    · exact r1.mono (fun _ => Nat.le_refl _) (fun _ => Nat.le_max_right ..) (by simp)
    · exact r2.mono (fun t => by unfold lo2; split <;> (try split) <;> omega) (fun _ => Nat.le_max_left ..) (fun _ h => .tail _ h)

theorem extensionsMarks_both (t : Int) : ∀ (k : Nat) (es : List Extensions), extsD es →
    ND (under [t] (extensionsMarks k es)) ∧ ∃ hi, Rng (fun _ => k) hi (es.map fun r => r.span.start)
      (under [t] (extensionsMarks k es))
  | _, [], _ => ⟨.nil, fun _ => 0, .nil⟩
  | k, e :: es, h => by
    obtain ⟨h1, h2⟩ := List.nodup_cons.1 h
    obtain ⟨n2, hi, r2⟩ := extensionsMarks_both t (k + e.ranges.length) es h2
    have r1 : Rng (fun _ => k) (fun _ => k + e.ranges.length) [e.span.start]
        (under [t] (⟨[], e.span, e.comments⟩ :: rangesMarks (extRangeMarks e.options) k e.ranges)) := by
      rw [under_cons]
      exact .cons (.short (by simp) (.head _)) ((rangesMarks_rng _ t k e.ranges).mono (fun _ => Nat.le_refl _) (fun _ => Nat.le_refl _) nofun)
    have n1 : ND (under [t] (⟨[], e.span, e.comments⟩ :: rangesMarks (extRangeMarks e.options) k e.ranges)) := by
      rw [under_cons]
      refine (rangesMarks_nd _ (extRangeMarks_nd _) t k e.ranges).cons fun y hy e' => ?_
      have := rng_pos (rangesMarks_rng (extRangeMarks e.options) t k e.ranges) y hy
      rw [← e'] at this; simp at this
    rw [extensionsMarks, under_append]
    refine ⟨n1.rng n2 r1 r2 (by intro x hx; rw [List.mem_singleton] at hx; subst hx; exact h1),
      fun t => max (hi t) (k + e.ranges.length), .app ?_ ?_⟩
    · exact r1.mono (fun _ => Nat.le_refl _) (fun _ => Nat.le_max_right ..) (by simp)
    · exact r2.mono (fun t => by omega) (fun _ => Nat.le_max_left ..) (fun _ h => .tail _ h)

/-! ### Enums and services -/

theorem enumValueMarks_nd (v : EnumValue) : ND (enumValueMarks v) := by
  refine ND.topc (T' := [some 1, some 2, some 3]) (ND.topc (T' := [some 2, some 3]) (ND.topc (T' := [some 3])
    (optListMarks_nd _).under (.under (by decide)) (by decide)) ?_ (by decide)) ?_ (by decide)
  · exact .cons (by decide) (.under (by decide))
  · exact .cons (by decide) (.cons (by decide) (.under (by decide)))

theorem valuesMarks_both : ∀ (k : Nat) (vs : List EnumValue),
    ND (valuesMarks k vs) ∧ Rng (fun _ => k) (fun _ => k + vs.length) [] (valuesMarks k vs) ∧ Top [some 2] (valuesMarks k vs)
  | _, [] => ⟨.nil, .nil, .nil⟩
  | k, v :: vs => by
    obtain ⟨n, r, t⟩ := valuesMarks_both (k + 1) vs
    rw [valuesMarks]
    have r1 : Rng (fun _ => k) (fun _ => k + 1) [] (under [Tag.enumValue, (k : Int)] (enumValueMarks v)) :=
      .under (Nat.le_refl _) (Nat.lt_succ_self _)
    exact ⟨(enumValueMarks_nd v).under.rng n r1 r nofun,
      .app (r1.mono (fun _ => Nat.le_refl _) (fun _ => by simp) nofun)
        (r.mono (fun _ => Nat.le_succ _) (fun _ => by simp; omega) nofun), .app (.under (by decide)) t⟩

theorem enumMarks_nd {e : Enum} (h : enumD e) : ND (enumMarks e) := by
  obtain ⟨n1, _, t1⟩ := valuesMarks_both 0 e.values
  obtain ⟨n2, _⟩ := reservedMarks_both (tagR := Tag.enumReservedRange) (tagN := Tag.enumReservedName) (by decide) 0 0 e.reserved h.2
  have t2 := reservedMarks_top (tagR := Tag.enumReservedRange) (tagN := Tag.enumReservedName) 0 0 e.reserved
  have n3 := optsMarks_nd 0 e.options h.1
  have t3 : Top [some 3] (under [Tag.enumOptions] (optsMarks 0 e.options)) := .under (by decide)
  have t4 : Top [some 2, some 4, some 5] (valuesMarks 0 e.values ++
      reservedMarks Tag.enumReservedRange Tag.enumReservedName 0 0 e.reserved) :=
    .app (t1.mono (by decide)) (t2.mono (by decide))
  have n5 := (n1.tops n2 t1 t2 (by decide)).tops (n3.under (p := [Tag.enumOptions])) t4 t3 (by decide)
  have t5 : Top [some 2, some 4, some 5, some 3] _ := .app (t4.mono (by decide)) (t3.mono (by decide))
  exact ((n5.topc t5 (p := [Tag.enumName]) (sp := e.name.span) (c := {}) (by decide))).topc (p := []) (sp := e.span) (c := e.comments)
    (T' := [some 1, some 2, some 4, some 5, some 3]) (.cons (by decide) (t5.mono (by decide))) (by decide)

theorem optMark_nd (t s) : ND (optMark t s) := by cases s <;> simp [optMark, ND]
theorem optMark_top (t s) : Top [some t] (optMark t s) := by
  cases s with
  | none => exact .nil
  | some => exact .cons (by simp) .nil

theorem methodMarks_nd {x : Method} (h : methodD x) : ND (methodMarks x) := by
  have t3 : Top [some 4] (under [Tag.methodOptions] (optsMarks 0 x.options)) := .under (by decide)
  have t12 : Top [some 5, some 6] (optMark Tag.methodClientStreaming x.clientStreaming ++
    optMark Tag.methodServerStreaming x.serverStreaming) :=
    .app ((optMark_top _ _).mono (by decide)) ((optMark_top _ _).mono (by decide))
  have n := ((optMark_nd Tag.methodClientStreaming x.clientStreaming).tops (optMark_nd Tag.methodServerStreaming x.serverStreaming)
    (optMark_top _ _) (optMark_top _ _) (by decide)).tops (optsMarks_nd 0 _ h).under t12 t3 (by decide)
  have t : Top [some 5, some 6, some 4] _ := .app (t12.mono (by decide)) (t3.mono (by decide))
  have n0 := n.topc (p := [Tag.methodOutputType]) (sp := tspan x.outputTy) (c := {}) t (by decide)
  have t0 : Top [some 3, some 5, some 6, some 4] (⟨[Tag.methodOutputType], tspan x.outputTy, {}⟩ :: _) := .cons (by decide) (t.mono (by decide))
  have n1 := n0.topc (p := [Tag.methodInputType]) (sp := tspan x.inputTy) (c := {}) t0 (by decide)
  have t1 : Top [some 2, some 3, some 5, some 6, some 4] (⟨[Tag.methodInputType], tspan x.inputTy, {}⟩ :: _) := .cons (by decide) (t0.mono (by decide))
  have n2 := n1.topc (p := [Tag.methodName]) (sp := x.name.span) (c := {}) t1 (by decide)
  have t2 : Top [some 1, some 2, some 3, some 5, some 6, some 4] (⟨[Tag.methodName], x.name.span, {}⟩ :: _) := .cons (by decide) (t1.mono (by decide))
  exact n2.topc (p := []) (sp := x.span) (c := x.comments) t2 (by decide)

theorem methodsMarks_both (t : Int) : ∀ (k : Nat) (vs : List Method), (∀ x ∈ vs, methodD x) →
    ND (under [t] (methodsMarks k vs)) ∧ Rng (fun _ => k) (fun _ => k + vs.length) [] (under [t] (methodsMarks k vs))
  | _, [], _ => ⟨.nil, .nil⟩
  | k, v :: vs, h => by
    obtain ⟨n, r⟩ := methodsMarks_both t (k + 1) vs (fun x hx => h x (.tail _ hx))
    rw [methodsMarks, under_append, under_under]
    have r1 : Rng (fun _ => k) (fun _ => k + 1) [] (under ([t] ++ [(k : Int)]) (methodMarks v)) :=
      .under (p := []) (Nat.le_refl _) (Nat.lt_succ_self _)
    exact ⟨(methodMarks_nd (h v (.head _))).under.rng n r1 r nofun,
      .app (r1.mono (fun _ => Nat.le_refl _) (fun _ => by simp) nofun)
        (r.mono (fun _ => Nat.le_succ _) (fun _ => by simp; omega) nofun)⟩

theorem serviceMarks_nd {x : Service} (h : serviceD x) : ND (serviceMarks x) := by
  have n := (methodsMarks_both Tag.serviceMethod 0 x.methods h.2).1.tops (optsMarks_nd 0 _ h.1).under (T := [some 2]) (T' := [some 3])
    (.under (by decide)) (.under (p := []) (t := Tag.serviceOptions) (by decide)) (by decide)
  have t : Top [some 2, some 3] (under [Tag.serviceMethod] (methodsMarks 0 x.methods) ++ under [Tag.serviceOptions] (optsMarks 0 x.options)) :=
    .app (.under (by decide)) (.under (by decide))
  have n2 := n.topc (p := [Tag.serviceName]) (sp := x.name.span) (c := {}) t (by decide)
  have t2 : Top [some 1, some 2, some 3] (⟨[Tag.serviceName], x.name.span, {}⟩ :: _) := .cons (by decide) (t.mono (by decide))
  exact n2.topc (p := []) (sp := x.span) (c := x.comments) t2 (by decide)

end Verif.Dist
