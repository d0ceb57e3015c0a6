import Verif.Model.Descriptor
/-!
What it means for one source location to lie inside another, and which locations of a file lie outside the location of the
element they belong to.
-/
namespace Verif.Spec
open Verif

/-- The line and column where a location begins (google/protobuf/descriptor.proto, `Location.span`). -/
def _root_.Verif.Location.first (l : Location) : Int × Int :=
  match l.span with
  | line :: col :: _ => (line, col)
  | _ => (0, 0)

/-- The line and column where a location ends; the end line is left out if it is the start line. -/
def _root_.Verif.Location.last (l : Location) : Int × Int :=
  match l.span with
  | [line, _, col] => (line, col)
  | [_, _, line, col] => (line, col)
  | _ => (0, 0)

/-- `p` does not come after `q` in the text. -/
def NotAfter (p q : Int × Int) : Prop := p.1 < q.1 ∨ p.1 = q.1 ∧ p.2 ≤ q.2

/-- The text of `b` is part of the text of `a`. -/
def LiesIn (b a : Location) : Prop := NotAfter a.first b.first ∧ NotAfter b.last a.last

/-- The path of a message descriptor in a file: field 4 of the file, field 3 of a message. -/
inductive MsgPath : List Int → Prop where
  | top (i : Nat) : MsgPath [4, (i : Int)]
  | nested {p} (i : Nat) : MsgPath p → MsgPath (p ++ [3, (i : Int)])

/-- The path of an extension field: field 7 of the file, field 6 of a message. -/
inductive ExtPath : List Int → Prop where
  | top (i : Nat) : ExtPath [7, (i : Int)]
  | nested {p} (i : Nat) : MsgPath p → ExtPath (p ++ [6, (i : Int)])

/-- The locations that do not lie in that of the element they belong to: the name of the extended message, which stands in
front of all the fields of an `extend` block, and the options of an extension range, which follow all the ranges of an
`extensions` statement. -/
inductive Elsewhere : List Int → List Int → Prop where
  | extendee {p} : ExtPath p → Elsewhere p (p ++ [2])
  | rangeOptions {p} (i : Nat) (r) : MsgPath p → Elsewhere (p ++ [5, (i : Int)]) (p ++ [5, (i : Int)] ++ 3 :: r)

end Verif.Spec
