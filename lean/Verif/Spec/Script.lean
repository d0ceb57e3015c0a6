import Verif.Model.Compiler
/-! Sequences of calls to a compiler. -/
namespace Verif.Compiler

/-- A sequence of calls: the outcome of each, and the compiler afterwards. -/
def script (R : Resolver) (link : Linker) (fuel : Nat) : Compiler → List Op → List Out × Compiler
  | s, [] => ([], s)
  | s, op :: ops =>
    let r := step R link fuel s op
    let rs := script R link fuel r.2 ops
    (r.1 :: rs.1, rs.2)

end Verif.Compiler

namespace Verif.Spec
open Verif.Compiler

/-- A call that opens files. -/
def opening : Op → Bool
  | .openFile _ | .openFiles _ => true
  | _ => false

/-- The last value given to `include_imports`, or `false`. -/
def importsWanted (ops : List Op) : Bool :=
  (ops.filterMap fun | .setIncludeImports b => some b | _ => none).getLast?.getD false

/-- The last value given to `include_source_info`, or `false`. -/
def infoWanted (ops : List Op) : Bool :=
  (ops.filterMap fun | .setIncludeSourceInfo b => some b | _ => none).getLast?.getD false

end Verif.Spec
