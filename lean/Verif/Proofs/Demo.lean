import Verif.Proofs.Parse
/-!
Instances used to run the model on concrete sources.
-/
namespace Verif.Demo
open Verif.Ast

/-- A float formatter (literals are printed as written). -/
def fmt : FloatVal → Bytes
  | .lit neg t => if neg then 45 :: t else t
  | .ofInt neg n => if neg then 45 :: decimal n else decimal n
  | .nan _ => b!"NaN"
  | .inf neg => if neg then b!"-inf" else b!"inf"

instance demoFmt : FloatFmt := ⟨fmt, fmt, fun _ => rfl, fun _ => rfl⟩

theorem pathLe_total : ∀ a b, (pathLe a b || pathLe b a) = true
  | [], _ => by simp [pathLe]
  | _ :: _, [] => by simp [pathLe]
  | a :: as, b :: bs => by
    have := pathLe_total as bs
    simp only [Bool.or_eq_true] at this ⊢
    unfold pathLe
    by_cases h1 : a < b
    · simp [h1]
    · by_cases h2 : b < a
      · simp [h2]
      · simp [h1, h2, this]

theorem pathLe_trans : ∀ a b c, pathLe a b = true → pathLe b c = true → pathLe a c = true
  | [], _, _, _, _ => by simp [pathLe]
  | _ :: _, [], _, h, _ => by simp [pathLe] at h
  | _ :: _, _ :: _, [], _, h => by simp [pathLe] at h
  | a :: as, b :: bs, c :: cs, h1, h2 => by
    have ih := pathLe_trans as bs cs
    unfold pathLe at h1 h2 ⊢
    split at h1
    · split at h2
      · rw [if_pos (by omega)]
      · split at h2
        · cases h2
        · rw [if_pos (by omega)]
    · split at h1
      · cases h1
      · split at h2
        · rw [if_pos (by omega)]
        · split at h2
          · cases h2
          · rw [if_neg (by omega), if_neg (by omega)]; exact ih h1 h2

def insert (x : Location) : List Location → List Location
  | [] => [x]
  | y :: ys => if pathLe x.path y.path then x :: y :: ys else y :: insert x ys

def isort : List Location → List Location
  | [] => []
  | x :: xs => insert x (isort xs)

theorem insert_perm (x) : ∀ l, (insert x l).Perm (x :: l)
  | [] => .refl _
  | y :: ys => by
    unfold insert
    split
    · exact .refl _
    · exact ((insert_perm x ys).cons y).trans (.swap x y ys)

theorem isort_perm : ∀ l, (isort l).Perm l
  | [] => .refl _
  | x :: xs => (insert_perm x _).trans ((isort_perm xs).cons x)

theorem insert_sorted (x) : ∀ l : List Location, l.Pairwise (fun a b => pathLe a.path b.path = true) →
    (insert x l).Pairwise (fun a b => pathLe a.path b.path = true)
  | [], _ => by simp [insert]
  | y :: ys, h => by
    rw [List.pairwise_cons] at h
    unfold insert
    split
    · rename_i hxy
      refine List.pairwise_cons.2 ⟨fun z hz => ?_, List.pairwise_cons.2 h⟩
      rcases List.mem_cons.1 hz with rfl | hz
      · exact hxy
      · exact pathLe_trans _ _ _ hxy (h.1 z hz)
    · rename_i hxy
      refine List.pairwise_cons.2 ⟨fun z hz => ?_, insert_sorted x ys h.2⟩
      rcases List.mem_cons.1 ((insert_perm x ys).mem_iff.1 hz) with rfl | hz
      · have := pathLe_total z.path y.path
        simp only [Bool.or_eq_true] at this
        exact this.resolve_left hxy
      · exact h.1 z hz

theorem isort_sorted : ∀ l, (isort l).Pairwise (fun a b => pathLe a.path b.path = true)
  | [] => .nil
  | x :: xs => insert_sorted x _ (isort_sorted xs)

/-- Sorting exists: the contract of the sort is satisfiable. -/
instance demoSort : LocSort := ⟨isort, isort_perm, isort_sorted⟩

def accepts (src : Bytes) : Bool :=
  match parse b!"a.proto" src with
  | some (.ok _) => true
  | _ => false

def rejects (src : Bytes) : Bool :=
  match parse b!"a.proto" src with
  | some (.error _) => true
  | _ => false

example : accepts b!"message A { optional int32 x = 1; }" = true := by decide +kernel
example : rejects b!"message A { optional int32 x = 0; }" = true := by decide +kernel
end Verif.Demo
