import Verif.Spec.Order
/-!
The error that the compiler returns: the first obstacle on the depth-first walk (`Builds`, Spec/Order.lean).
-/
namespace Verif

/-- On the way to `n` (through the files `stack`, each importing the next), with the files `pool` done, the walk has come to
the import `d` of the file `f` of the name `n`: the imports `pre` before it are all different and done, giving `mid`. -/
structure AtImport (opens : Bytes → Except Error File → Prop) (link : Linker) (stack : List Bytes)
    (pool : List FileDescriptorProto) (n : Bytes) (f : File) (pre : List Bytes) (d : Bytes) (mid : List FileDescriptorProto) :
    Prop where
  fresh : n ∉ stack
  notHeld : n ∉ fileNames pool
  opened : opens n (.ok f)
  next : ∃ post, f.descriptor.dependency = pre ++ d :: post
  nodup : pre.Nodup
  walked : Builds (fun n f => opens n (.ok f)) link pool pre mid

/-- The walk to `n`, on the way through the files `stack`, with the files `pool` done, meets the error `e` first; the last
argument are the files that are done then. -/
inductive Fails (opens : Bytes → Except Error File → Prop) (link : Linker) :
    List Bytes → List FileDescriptorProto → Bytes → Error → List FileDescriptorProto → Prop where
  /-- The file is on the way already. -/
  | cycle {stack pool n} : n ∈ stack →
      Fails opens link stack pool n (.circularImport n (stack.flatMap (· ++ b!" -> ") ++ n)) pool
  /-- The file cannot be opened, for a reason other than not being there. -/
  | cannotOpen {stack pool n e} : n ∉ stack → n ∉ fileNames pool → opens n (.error e) → (∀ k, e ≠ .fileNotFound k) →
      Fails opens link stack pool n e pool
  /-- The next import is listed for the second time. -/
  | duplicate {stack pool n f pre d mid span} : AtImport opens link stack pool n f pre d mid → d ∈ pre →
      findImportSpan f pre.length = some span →
      Fails opens link stack pool n (.duplicateImport span f.name (f.source.getD []) d) mid
  /-- The next import is not there. -/
  | missing {stack pool n f pre d mid k span} : AtImport opens link stack pool n f pre d mid → d ∉ pre →
      d ∉ stack → d ≠ n → d ∉ fileNames mid → opens d (.error (.fileNotFound k)) → findImportSpan f pre.length = some span →
      Fails opens link stack pool n (.importNotFound span f.name (f.source.getD []) k) mid
  /-- The walk to the next import meets an error. -/
  | inside {stack pool n f pre d mid e left} : AtImport opens link stack pool n f pre d mid → d ∉ pre →
      Fails opens link (stack ++ [n]) mid d e left → Fails opens link stack pool n e left
  /-- The imports are all different and done, but the linker rejects the file. -/
  | check {stack pool n f mid code} : n ∉ stack → n ∉ fileNames pool → opens n (.ok f) → f.descriptor.dependency.Nodup →
      Builds (fun n f => opens n (.ok f)) link pool f.descriptor.dependency mid → link mid f = .error code →
      Fails opens link stack pool n (.check code) mid

/-- Opening the path `p` with the files `pool` done gives the error `e`; the last argument are the files that are done
then. -/
inductive OpenFails (r : PureResolver) (link : Linker) (pool : List FileDescriptorProto) (p : Bytes) :
    Error → List FileDescriptorProto → Prop where
  /-- The path has no name. -/
  | noName : r.nameOf p = none → OpenFails r link pool p (.fileNotIncluded p) pool
  /-- The file is not there. -/
  | notThere {n e} : r.nameOf p = some n → n ∉ fileNames pool → r.openFile n = .error e → e.isFileNotFound = true →
      OpenFails r link pool p (.fileNotIncluded p) pool
  /-- The file cannot be opened. -/
  | cannotOpen {n e} : r.nameOf p = some n → n ∉ fileNames pool → r.openFile n = .error e → e.isFileNotFound = false →
      OpenFails r link pool p e pool
  /-- The resolver gives the path a name which opens another file. -/
  | shadowed {n f a} : r.resolvePath p = some n → r.openFile n = .ok f → f.path = some a →
      Path.noCur (Path.components a) ≠ Path.noCur (Path.components p) → OpenFails r link pool p (.fileShadowed n p a) pool
  /-- The file is there and the right one, but the walk meets an error. -/
  | inside {n f e left} : r.nameOf p = some n → r.Unshadowed p → r.openFile n = .ok f →
      Fails (fun n x => r.openFile n = x) link [] pool n e left → OpenFails r link pool p e left

/-- Opening the paths one after the other, with the files `pool` done, gives the error `e`: those before some path `p` are
opened, and `p` gives the error. The last argument are the files that are done then. -/
def ListFails (r : PureResolver) (link : Linker) (pool : List FileDescriptorProto) (ps : List Bytes) (e : Error)
    (left : List FileDescriptorProto) : Prop :=
  ∃ pre p post ns mid, ps = pre ++ p :: post ∧ pre.map r.nameOf = ns.map some ∧ (∀ q ∈ pre, r.Unshadowed q) ∧
    Builds (fun n f => r.openFile n = .ok f) link pool ns mid ∧ OpenFails r link mid p e left

end Verif
