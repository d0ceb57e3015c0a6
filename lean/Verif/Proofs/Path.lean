import Verif.Spec.Path
/-! Helper lemmas about paths. -/
namespace Verif

theorem splitAt_append (sep : UInt8) (a b : Bytes) :
    splitAt sep (a ++ sep :: b) = splitAt sep a ++ splitAt sep b := by
  induction a with
  | nil => simp [splitAt]
  | cons x xs ih =>
    rw [List.cons_append, splitAt, splitAt]
    split
    · rw [ih]; simp
    · rw [ih]
      cases h : splitAt sep xs with
      | nil => exact absurd h (splitAt_ne_nil sep xs)
      | cons p ps => simp

namespace Path

@[simp] theorem noCur_nil : noCur [] = [] := rfl
@[simp] theorem noCur_cur (cs) : noCur (.cur :: cs) = noCur cs := by simp [noCur]
@[simp] theorem noCur_root (cs) : noCur (.root :: cs) = .root :: noCur cs := by simp [noCur]
@[simp] theorem noCur_parent (cs) : noCur (.parent :: cs) = .parent :: noCur cs := by simp [noCur]
@[simp] theorem noCur_normal (n cs) : noCur (.normal n :: cs) = .normal n :: noCur cs := by simp [noCur]
theorem noCur_cons_ne {c} (h : c ≠ .cur) (cs) : noCur (c :: cs) = c :: noCur cs := by simp [noCur, h]
@[simp] theorem noCur_append (a b) : noCur (a ++ b) = noCur a ++ noCur b := by simp [noCur]
@[simp] theorem noCur_map_normal (cs : List Bytes) : noCur (cs.map .normal) = cs.map .normal := by
  induction cs <;> simp_all

theorem pathEq_iff (l r : List Component) : pathEq l r = true ↔ noCur l = noCur r := by
  fun_induction pathEq l r with
  | case1 => simp
  | case2 ls rs ih => simp [ih]
  | case3 ls rs h ih => simp [ih]
  | case4 l ls r rs h1 h2 heq ih =>
    have e : l = r := by simpa [componentEq] using heq
    subst e
    have hl : l ≠ .cur := by rintro rfl; exact h1 rfl
    rw [noCur_cons_ne hl, noCur_cons_ne hl, ih]; simp
  | case5 l ls r rs h1 h2 hne =>
    have hl : l ≠ .cur := by rintro rfl; exact h1 rfl
    have hr : r ≠ .cur := by rintro rfl; exact h2 rfl
    rw [noCur_cons_ne hl, noCur_cons_ne hr]
    simp only [componentEq, beq_iff_eq] at hne
    simp [hne]
  | case6 l r h1 h2 h3 h4 =>
    constructor
    · intro h; cases h
    intro h
    cases l with
    | nil =>
      cases r with
      | nil => exact absurd rfl (fun h => h1 rfl h)
      | cons a as =>
        have : a ≠ .cur := by rintro rfl; exact h3 _ rfl
        rw [noCur_cons_ne this] at h; simp at h
    | cons b bs =>
      have hb : b ≠ .cur := by rintro rfl; exact h2 _ rfl
      cases r with
      | nil => rw [noCur_cons_ne hb] at h; simp at h
      | cons a as => exact absurd rfl (fun hh => h4 _ _ _ _ rfl hh)

/-- Full characterisation of `iter_after`, given that `.` can only be the first component. -/
theorem iterAfter_spec (ps qs : List Component) :
    (∀ rest, iterAfter ps qs = some rest →
        noCur ps = noCur qs ++ noCur rest ∧ rest <:+ ps ∧ rest.head? ≠ some .cur) ∧
    (iterAfter ps qs = none → ¬ ∃ rest, noCur ps = noCur qs ++ rest) := by
  fun_induction iterAfter ps qs with
  | case1 ps qs ih =>
    refine ⟨fun rest h => ?_, fun h => by simpa using ih.2 h⟩
    obtain ⟨a, b, c⟩ := ih.1 rest h
    exact ⟨by simpa using a, b.trans (List.suffix_cons _ _), c⟩
  | case2 ps qs h ih =>
    refine ⟨fun rest h => ?_, fun h => by simpa using ih.2 h⟩
    obtain ⟨a, b, c⟩ := ih.1 rest h
    exact ⟨by simpa using a, b, c⟩
  | case3 p ps q qs h1 h2 heq ih =>
    have e : p = q := by simpa [componentEq] using heq
    subst e
    have hp : p ≠ .cur := by rintro rfl; exact h1 rfl
    rw [noCur_cons_ne hp, noCur_cons_ne hp]
    refine ⟨fun rest h => ?_, fun h => by simpa using ih.2 h⟩
    obtain ⟨a, b, c⟩ := ih.1 rest h
    exact ⟨by simp [a], b.trans (List.suffix_cons _ _), c⟩
  | case4 p ps q qs h1 h2 hne =>
    have hp : p ≠ .cur := by rintro rfl; exact h1 rfl
    have hq : q ≠ .cur := by rintro rfl; exact h2 rfl
    refine ⟨fun rest h => by simp at h, fun _ => ?_⟩
    rw [noCur_cons_ne hp, noCur_cons_ne hq]
    simp only [componentEq, beq_iff_eq] at hne
    rintro ⟨rest, h⟩; simp at h; exact hne h.1
  | case5 ps h1 =>
    refine ⟨fun rest h => ?_, fun h => by simp at h⟩
    simp at h; subst h
    refine ⟨by simp, List.suffix_refl _, ?_⟩
    cases ps with
    | nil => simp
    | cons p ps => simp; rintro rfl; exact h1 _ rfl
  | case6 q qs h1 =>
    have hq : q ≠ .cur := by rintro rfl; exact h1 rfl
    refine ⟨fun rest h => by simp at h, fun _ => ?_⟩
    rw [noCur_cons_ne hq]
    rintro ⟨rest, h⟩; simp at h

end Path
end Verif
