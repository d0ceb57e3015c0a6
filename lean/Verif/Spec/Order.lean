import Verif.Spec.Compiler
import Verif.Spec.Path
/-!
What the compiler produces, as a list: the files in the order of a depth-first walk over the imports.
-/
namespace Verif

/-- Opening the names `ns` one after the other on top of the files `pool` gives the files `out`. A name that is there is
passed over. For any other name there is a file of this name, which lists no import twice; its imports are opened first, in
the order in which the file lists them; then what the linker makes of the file, given all files so far, is put at the end. -/
inductive Builds (opens : Bytes → File → Prop) (link : Linker) :
    List FileDescriptorProto → List Bytes → List FileDescriptorProto → Prop where
  | done {pool} : Builds opens link pool [] pool
  | held {pool n ns out} : n ∈ fileNames pool → Builds opens link pool ns out → Builds opens link pool (n :: ns) out
  | new {pool n ns f mid d out} : n ∉ fileNames pool → opens n f → f.descriptor.dependency.Nodup →
      Builds opens link pool f.descriptor.dependency mid → link mid f = .ok d → Builds opens link (mid ++ [d]) ns out →
      Builds opens link pool (n :: ns) out

/-- If the resolver takes the path for a name, then the file of this name is the one at the path, as far as the file says
where it is (`.` components do not matter). -/
def PureResolver.Unshadowed (r : PureResolver) (p : Bytes) : Prop :=
  ∀ n f a, r.resolvePath p = some n → r.openFile n = .ok f → f.path = some a →
    Path.noCur (Path.components a) = Path.noCur (Path.components p)

/-- The linker leaves what it made as it is: given the files before it in the list, each file of the list becomes itself. -/
def Relinks (link : Linker) (set : List (FileDescriptorProto × Option Bytes)) : Prop :=
  ∀ pre x post, set = pre ++ x :: post → link (pre.map (·.1)) ⟨none, none, x.1, x.2⟩ = .ok x.1

end Verif
