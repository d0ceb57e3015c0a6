import Verif.Model.Lines
import Verif.Spec.Lines
namespace Verif.Lines
open Verif.Spec

theorem newlineEnds_spec (src : Bytes) (off : Nat) :
    ∀ e ∈ newlineEnds off src, off < e ∧ e ≤ off + src.length := by
  induction src generalizing off with
  | nil => simp [newlineEnds]
  | cons b bs ih =>
    intro e he
    simp only [newlineEnds] at he
    split at he
    · rcases List.mem_cons.1 he with rfl | h
      · simp
      · have := ih (off + 1) e h; simp; omega
    · have := ih (off + 1) e he; simp; omega

theorem newlineEnds_length (src : Bytes) (off : Nat) : (newlineEnds off src).length ≤ src.length := by
  induction src generalizing off with
  | nil => simp [newlineEnds]
  | cons b bs ih =>
    simp only [newlineEnds]
    split
    · simp; exact ih _
    · exact Nat.le_succ_of_le (ih _)

theorem mapOpt_some (xs : List Nat) (h : ∀ x ∈ xs, x ≤ 2147483647) :
    mapOpt indexToI32 xs = some (xs.map (fun (n : Nat) => (n : Int))) := by
  induction xs with
  | nil => rfl
  | cons x xs ih =>
    have h1 : x ≤ 2147483647 := h x (by simp)
    simp [mapOpt, indexToI32, h1]
    rw [ih (fun y hy => h y (List.mem_cons_of_mem _ hy))]

theorem new_some (src : Bytes) (h : src.length ≤ maxParseLen) :
    new src = some ((newlineEnds 0 src).map (fun (n : Nat) => (n : Int))) := by
  apply mapOpt_some
  intro x hx
  have := newlineEnds_spec src 0 x hx
  simp [maxParseLen] at h; omega

/-- The search, on the table of a source: the line and the start of the line. -/
theorem search_spec (src : Bytes) (base off i : Nat) (hoff : off ≤ src.length) :
    match search ((base + off : Nat) : Int) i ((newlineEnds base src).map (fun (n : Nat) => (n : Int))) with
    | .ok j => j + 1 = i + lineOf src off ∧ colOf src off = 0 ∧ i ≤ j
    | .error j => j = i + lineOf src off ∧
        (j = i → colOf src off = off) ∧
        (∀ k, j = i + (k + 1) → ∃ st, (newlineEnds base src)[k]? = some st ∧ st + colOf src off = base + off) := by
  induction src generalizing base off i with
  | nil =>
    have : off = 0 := by simpa using hoff
    subst this
    simp [search, newlineEnds, lineOf, colOf]
  | cons b bs ih =>
    cases off with
    | zero =>
      simp only [newlineEnds]
      have key : ∀ l : List Nat, (∀ e ∈ l, base < e) →
          search ((base + 0 : Nat) : Int) i (l.map (fun (n : Nat) => (n : Int))) = .error i := by
        intro l hl
        cases l with
        | nil => rfl
        | cons e es =>
          have := hl e (by simp)
          simp only [List.map_cons, search]
          rw [if_neg (by omega), if_neg (by omega)]
      by_cases hb : b = 10
      · rw [if_pos hb]
        rw [key _ (by
          intro e he
          rcases List.mem_cons.1 he with rfl | h
          · omega
          · have := newlineEnds_spec bs (base + 1) e h; omega)]
        refine ⟨by simp [lineOf], fun _ => by simp [colOf], fun k hk => by omega⟩
      · rw [if_neg hb, key _ (by
          intro e he
          have := newlineEnds_spec bs (base + 1) e he; omega)]
        refine ⟨by simp [lineOf], fun _ => by simp [colOf], fun k hk => by omega⟩
    | succ off =>
      have hoff' : off ≤ bs.length := by simpa using hoff
      simp only [newlineEnds]
      by_cases hb : b = 10
      · subst hb
        rw [if_pos rfl]
        have hline : lineOf (10 :: bs) (off + 1) = lineOf bs off + 1 := by simp [lineOf]
        have hcol : colOf (10 :: bs) (off + 1) = colOf bs off := by
          simp only [colOf, List.take_succ_cons, List.reverse_cons]
          rw [List.takeWhile_append]
          split
          · rename_i h; rw [h]; simp
          · rfl
        simp only [List.map_cons, search]
        by_cases hz : off = 0
        · subst hz
          rw [if_neg (by omega), if_pos (by omega)]
          simp [hline, hcol, lineOf, colOf]
        · rw [if_pos (by omega)]
          have := ih (base + 1) off (i + 1) hoff'
          rw [show ((base + (off + 1) : Nat) : Int) = ((base + 1 + off : Nat) : Int) by omega]
          split at this
          · rename_i j hj
            try rw [hj]
            refine ⟨by omega, by rw [hcol]; exact this.2.1, by omega⟩
          · rename_i j hj
            try rw [hj]
            obtain ⟨h1, h2, h3⟩ := this
            refine ⟨by omega, fun h => by omega, fun k hk => ?_⟩
            cases k with
            | zero =>
              refine ⟨base + 1, by simp, ?_⟩
              rw [hcol, h2 (by omega)]; omega
            | succ k =>
              obtain ⟨st, hst, hs⟩ := h3 k (by omega)
              exact ⟨st, by simpa using hst, by rw [hcol]; omega⟩
      · rw [if_neg hb]
        have hline : lineOf (b :: bs) (off + 1) = lineOf bs off := by
          simp [lineOf, hb]
        have hle : colOf bs off ≤ off := by
          simp only [colOf]
          refine Nat.le_trans (List.takeWhile_sublist _).length_le (by simp; omega)
        have := ih (base + 1) off i hoff'
        rw [show ((base + (off + 1) : Nat) : Int) = ((base + 1 + off : Nat) : Int) by omega]
        have hcol0 : lineOf bs off = 0 → colOf bs off = off → colOf (b :: bs) (off + 1) = off + 1 := by
          intro _ h
          simp only [colOf, List.take_succ_cons, List.reverse_cons] at h ⊢
          rw [List.takeWhile_append]
          rw [if_pos (by simp at h ⊢; omega)]
          simp [hb]; omega
        have hcol1 : colOf bs off < off → colOf (b :: bs) (off + 1) = colOf bs off := by
          intro h
          simp only [colOf, List.take_succ_cons, List.reverse_cons] at h ⊢
          rw [List.takeWhile_append]
          rw [if_neg (by simp at h ⊢; omega)]
        split at this
        · rename_i j hj
          try rw [hj]
          obtain ⟨h1, h2, h3⟩ := this
          have : off ≠ 0 := by
            rintro rfl
            simp [lineOf] at h1; omega
          exact ⟨by omega, by rw [hcol1 (by omega)]; exact h2, h3⟩
        · rename_i j hj
          try rw [hj]
          obtain ⟨h1, h2, h3⟩ := this
          refine ⟨by omega, fun h => hcol0 (by omega) (h2 h), fun k hk => ?_⟩
          obtain ⟨st, hst, hs⟩ := h3 k hk
          have hst' := newlineEnds_spec bs (base + 1) st (List.mem_of_getElem? hst)
          exact ⟨st, hst, by rw [hcol1 (by omega)]; omega⟩

theorem lineOf_le (src : Bytes) (off : Nat) : lineOf src off ≤ src.length := by
  simp only [lineOf]
  exact Nat.le_trans (List.length_filter_le _ _) (by simp; omega)

/-- The line resolver finds the specified line and column. -/
theorem resolve_eq (src : Bytes) (lines : List Int) (off : Nat) (hlen : src.length ≤ maxParseLen)
    (hoff : off ≤ src.length) (hl : new src = some lines) :
    resolve lines off = some ((lineOf src off : Int), (colOf src off : Int)) := by
  rw [new_some src hlen] at hl
  injection hl with hl
  have h := search_spec src 0 off 0 hoff
  simp only [maxParseLen] at hlen
  have hll := lineOf_le src off
  simp only [resolve, indexToI32]
  rw [if_pos (by omega)]
  simp only [← hl]
  simp only [Nat.zero_add] at h
  split at h
  · rename_i j hj
    try rw [hj]
    simp only
    rw [if_pos (by omega)]
    simp [h.2.1]; omega
  · rename_i j hj
    try rw [hj]
    obtain ⟨h1, h2, h3⟩ := h
    cases j with
    | zero => simp [← h1, h2 rfl]
    | succ k =>
      simp only
      obtain ⟨st, hst, hs⟩ := h3 k (by omega)
      rw [if_pos (by omega)]
      simp [hst, ← h1]
      omega

end Verif.Lines
