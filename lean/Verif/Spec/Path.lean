import Verif.Model.Path
/-!
Specification vocabulary for paths, independent of the loops in the code: two paths denote the same
place when they agree after deleting `.` components.
-/
namespace Verif.Path

/-- Delete the `.` components. -/
def noCur (cs : List Component) : List Component := cs.filter (fun c => c ≠ .cur)

/-- A legal piece of a file name: non-empty, valid UTF-8, not `.` or `..`, without `/`. -/
def GoodPiece (c : Bytes) : Prop :=
  c ≠ [] ∧ c ≠ b!"." ∧ c ≠ b!".." ∧ (47 : UInt8) ∉ c ∧ utf8Valid c = true

/-- A canonical file name: one or more legal pieces joined with `/` (relative, no empty, `.` or `..` piece). -/
def Canonical (n : Bytes) : Prop := ∃ ps : List Bytes, ps ≠ [] ∧ (∀ c ∈ ps, GoodPiece c) ∧ n = joinWith 47 ps

end Verif.Path
