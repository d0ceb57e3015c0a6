import Verif.Spec.Path
import Verif.Spec.Opening
/-!
The vocabulary of the property about shadowed files: what "shadowed" means in terms of the include directories and of what
the file system says, and what it means to follow the advice of the error.
-/
namespace Verif

/-- The path lies below the directory and is called `n` there: the path is the directory followed by one or more legal
pieces (`.` components do not matter), and `n` is these pieces joined with `/`. -/
def Path.Calls (incl p n : Bytes) : Prop :=
  ∃ pieces : List Bytes, pieces ≠ [] ∧ (∀ c ∈ pieces, Path.GoodPiece c) ∧
    Path.noCur (Path.components p) = Path.noCur (Path.components incl) ++ pieces.map .normal ∧ n = joinWith 47 pieces

/-- The two paths are the same but for `.` components and repeated slashes. -/
def Path.Same (p q : Bytes) : Prop := Path.noCur (Path.components p) = Path.noCur (Path.components q)

/-- Asking for the path `p` is asking for the file `s`: `p` is called `n` in the first include directory that it lies below;
the first include directory with something of this name has a protobuf file there, whose path is `s`; but `s` is not `p`.
The last argument is the position of that directory. -/
structure ShadowedBy (parse : ParseFn) (fs : Bytes → FsEntry) (includes : List Bytes) (p n s : Bytes) (k : Nat) : Prop where
  called : ∃ pre j post, includes = pre ++ j :: post ∧ (∀ i ∈ pre, ∀ m, ¬ Path.Calls i p m) ∧ Path.Calls j p n
  found : ∃ pre i post f, includes = pre ++ i :: post ∧ (∀ i ∈ pre, SaysNotFound fs (Path.includeTarget i n)) ∧
    FoundAt parse fs n s (.ok f) ∧ s = Path.includeTarget i n ∧ k = pre.length
  other : ¬ Path.Same s p

/-- No include directory lies below another one. -/
def Unnested (includes : List Bytes) : Prop := ∀ i ∈ includes, ∀ j ∈ includes, ∀ n, ¬ Path.Calls i j n

/-- The file system does not tell apart two spellings of a path. -/
def SpellingFree (fs : Bytes → FsEntry) : Prop := ∀ p q, Path.Same p q → fs p = fs q

/-- Replacing, again and again, a shadowed path by the one that shadows it leads from `p` to `q`. -/
inductive Follows (parse : ParseFn) (fs : Bytes → FsEntry) (includes : List Bytes) : Bytes → Bytes → Prop where
  | stop {p} : Follows parse fs includes p p
  | pass {p n s k q} : ShadowedBy parse fs includes p n s k → Follows parse fs includes s q → Follows parse fs includes p q

end Verif
