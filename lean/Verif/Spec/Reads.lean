import Verif.Spec.Compiler
/-!
Which files the compiler asks its resolver for.
-/
namespace Verif

/-- The names of the files asked for in a list of calls to the resolver. -/
def askedFor : List Call → List Bytes
  | [] => []
  | .resolve _ :: cs => askedFor cs
  | .openF n :: cs => n :: askedFor cs

/-- Opening the names `ns` one after the other, on top of the files `pool` and after the calls `calls`, asks the resolver for
the files `asked`, in this order, and gives the files `out`. A name that is there is passed over. Any other name is asked for;
the answer at this moment is a file that lists no import twice; its imports are opened next, in the order in which the file
lists them; then what the linker makes of this answer, given all files so far, is put at the end. -/
inductive Walks (R : Resolver) (link : Linker) : List Call → List FileDescriptorProto → List Bytes → List Bytes →
    List FileDescriptorProto → Prop where
  | done {calls pool} : Walks R link calls pool [] [] pool
  | held {calls pool n ns asked out} : n ∈ fileNames pool → Walks R link calls pool ns asked out →
      Walks R link calls pool (n :: ns) asked out
  | new {calls pool n ns f a1 mid d a2 out} : n ∉ fileNames pool → R.openFile calls n = .ok f →
      f.descriptor.dependency.Nodup →
      Walks R link (calls ++ [.openF n]) pool f.descriptor.dependency a1 mid → link mid f = .ok d →
      Walks R link (calls ++ .openF n :: a1.map .openF) (mid ++ [d]) ns a2 out →
      Walks R link calls pool (n :: ns) (n :: (a1 ++ a2)) out

namespace Compiler

/-- A history of calls to the compiler together with the number of those that did not succeed. -/
inductive Failures (R : Resolver) (link : Linker) : Compiler → Nat → Prop where
  | init : Failures R link .init 0
  | ok {s k} (fuel : Nat) (op : Op) : Failures R link s k → (step R link fuel s op).1 = .ok →
      Failures R link (step R link fuel s op).2 k
  | fail {s k} (fuel : Nat) (op : Op) : Failures R link s k → (step R link fuel s op).1 ≠ .ok →
      Failures R link (step R link fuel s op).2 (k + 1)

end Compiler
end Verif
