import Verif.Spec.Compiler
/-!
What the errors of the compiler say: for each error that `open_file` may return, the fact about the files that it
reports.  Written in terms of the files that the resolver shows, not of the compiler's recursion.
-/
namespace Verif
open PureResolver

/-- The error is about `root` or a file that it imports, directly or not, and what it says is the case. -/
inductive Justified (r : PureResolver) (link : Linker) (root : Bytes) : Error → Prop where
  /-- A file cannot be opened, for a reason other than not being there. -/
  | cannotOpen {n e} : r.Reach root n → r.openFile n = .error e → (∀ k, e ≠ .fileNotFound k) → Justified r link root e
  /-- The file `f` imports a file that is not there; the error names `f`, shows its text and points at the import. -/
  | importNotFound {n f pre d post k span} : r.Reach root n → r.openFile n = .ok f →
      f.descriptor.dependency = pre ++ d :: post → r.openFile d = .error (.fileNotFound k) →
      findImportSpan f pre.length = some span →
      Justified r link root (.importNotFound span f.name (f.source.getD []) k)
  /-- The file `f` lists an import for the second time; the error points at the second one. -/
  | duplicateImport {n f pre d post span} : r.Reach root n → r.openFile n = .ok f →
      f.descriptor.dependency = pre ++ d :: post → d ∈ pre → findImportSpan f pre.length = some span →
      Justified r link root (.duplicateImport span f.name (f.source.getD []) d)
  /-- Starting at `root`, each file of `l` imports the next one, and the last one imports `n` again. -/
  | cycle {l n} : l.head? = some root → r.IsChain (l ++ [n]) → n ∈ l →
      Justified r link root (.circularImport n (l.flatMap (· ++ b!" -> ") ++ n))
  /-- The linker rejects a file although everything that it imports has been linked. -/
  | check {n f pool code} : r.Reach root n → r.openFile n = .ok f → TopoSorted pool → n ∉ fileNames pool →
      (∀ d ∈ f.descriptor.dependency, d ∈ fileNames pool) → link pool f = .error code →
      Justified r link root (.check code)

/-- What an error of `open_file(p)` says. -/
inductive OpenError (r : PureResolver) (link : Linker) (p : Bytes) : Error → Prop where
  /-- The path is not the name of a file. -/
  | noName : r.nameOf p = none → OpenError r link p (.fileNotIncluded p)
  /-- The file is not there. -/
  | notThere {n e} : r.nameOf p = some n → r.openFile n = .error e → e.isFileNotFound = true →
      OpenError r link p (.fileNotIncluded p)
  /-- The name given to the path by the resolver opens a file with another path. -/
  | shadowed {n f a} : r.resolvePath p = some n → r.openFile n = .ok f → f.path = some a →
      ¬ Path.pathEq (Path.components a) (Path.components p) = true → OpenError r link p (.fileShadowed n p a)
  /-- The file cannot be opened for another reason. -/
  | cannotOpen {n e} : r.nameOf p = some n → r.openFile n = .error e → e.isFileNotFound = false → OpenError r link p e
  /-- The file is there, but it or one of its imports is faulty. -/
  | inside {n f e} : r.nameOf p = some n → r.openFile n = .ok f → Justified r link n e → OpenError r link p e

end Verif
