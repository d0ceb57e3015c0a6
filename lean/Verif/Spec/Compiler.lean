import Verif.Model.Compiler
/-!
Specification vocabulary for the compiler properties.
-/
namespace Verif

/-- The resolver returns, for each requested name, a descriptor with that name. -/
def Resolver.WellNamed (R : Resolver) : Prop := ∀ h n f, R.openFile h n = .ok f → f.name = n

/-- Files with source text carry import locations that `find_import_span` can process (shown for parsed
files elsewhere); files without source always do. -/
def File.SpansOk (f : File) : Prop := ∀ i, findImportSpan f i ≠ none

/-- All files given out by the resolver are fine in that respect. -/
def Resolver.SpansOk (R : Resolver) : Prop := ∀ h n f, R.openFile h n = .ok f → f.SpansOk

/-- The names in a list of descriptors. -/
def fileNames (l : List FileDescriptorProto) : List Bytes := l.map (·.getName)

/-- Every file comes after all its imports. -/
def TopoSorted (l : List FileDescriptorProto) : Prop :=
  ∀ pre d post, l = pre ++ d :: post → ∀ dep ∈ d.dependency, dep ∈ fileNames pre

/-- The name that a path stands for: the one the resolver gives it, or else the path itself as a name. -/
def PureResolver.nameOf (r : PureResolver) (p : Bytes) : Option Bytes :=
  match r.resolvePath p with
  | some n => some n
  | none => pathToFileName p

namespace PureResolver

/-- `a` imports `b` (as the resolver shows the files). -/
def Edge (r : PureResolver) (a b : Bytes) : Prop := ∃ f, r.openFile a = .ok f ∧ b ∈ f.descriptor.dependency

/-- `b` is reachable from `a` by zero or more imports. -/
inductive Reach (r : PureResolver) : Bytes → Bytes → Prop where
  | refl (a) : Reach r a a
  | step {a b c} : Edge r a b → Reach r b c → Reach r a c

/-- `b` is reachable from `a` by one or more imports. -/
def ReachPlus (r : PureResolver) (a c : Bytes) : Prop := ∃ b, Edge r a b ∧ Reach r b c

/-- A list of names in which each imports the next. -/
def IsChain (r : PureResolver) : List Bytes → Prop
  | a :: b :: rest => Edge r a b ∧ IsChain r (b :: rest)
  | _ => True

end PureResolver
end Verif

namespace Verif.Compiler

/-- A history of calls together with the file names that were opened successfully so far. -/
inductive History (R : Resolver) (link : Linker) : Compiler → List Bytes → Prop where
  | init : History R link .init []
  | openOk {s ns} (fuel : Nat) (p n : Bytes) (b : Bool) : History R link s ns →
      resolveName R s p = some (n, b) → (openFile R link fuel s p).1 = .ok →
      History R link (openFile R link fuel s p).2 (n :: ns)
  | openFail {s ns} (fuel : Nat) (p : Bytes) : History R link s ns →
      (openFile R link fuel s p).1 ≠ .ok →
      History R link (openFile R link fuel s p).2 ns
  | setImports {s ns} (b : Bool) : History R link s ns → History R link { s with includeImports := b } ns
  | setInfo {s ns} (b : Bool) : History R link s ns → History R link { s with includeSourceInfo := b } ns

end Verif.Compiler

namespace Verif

/-- The file of a given name in a pool. -/
def poolGet (pool : List FileDescriptorProto) (n : Bytes) : Option FileDescriptorProto :=
  pool.find? (fun d => d.getName == n)

/-- The linked form of a file depends only on the files it imports, directly or not (assumed of the
descriptor pool where stated). -/
def Linker.Deterministic (link : Linker) (r : PureResolver) : Prop :=
  ∀ p1 p2 f d1 d2, (∀ dep ∈ f.descriptor.dependency, ∀ m, r.Reach dep m → poolGet p1 m = poolGet p2 m) →
    link p1 f = .ok d1 → link p2 f = .ok d2 → d1 = d2

/-- All files of the finite set `U` of names are found, import only members of `U`, none twice, are accepted
by the linker once their imports are present, and no file imports itself, directly or not. -/
structure ValidGraph (r : PureResolver) (link : Linker) (U : List Bytes) : Prop where
  found : ∀ a ∈ U, ∃ f, r.openFile a = .ok f ∧ f.descriptor.dependency.Nodup ∧ ∀ d ∈ f.descriptor.dependency, d ∈ U
  acyclic : ∀ a ∈ U, ¬ r.ReachPlus a a
  links : ∀ a ∈ U, ∀ f, r.openFile a = .ok f → ∀ pool, TopoSorted pool → a ∉ fileNames pool →
    (∀ d ∈ f.descriptor.dependency, d ∈ fileNames pool) → ∃ d, link pool f = .ok d

end Verif
