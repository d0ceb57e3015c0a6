import Verif.Basic
/-! What "line" and "column" of a byte offset mean, independently of the line table. -/
namespace Verif.Spec

/-- The line of a byte offset: how many newline bytes precede it. -/
def lineOf (src : Bytes) (off : Nat) : Nat := ((src.take off).filter (· == 10)).length

/-- The column of a byte offset: how many bytes directly before it are not a newline (up to the line
start). -/
def colOf (src : Bytes) (off : Nat) : Nat := ((src.take off).reverse.takeWhile (· != 10)).length

/-- How a range of bytes is written in a descriptor (google/protobuf/descriptor.proto, `Location.span`): start line,
start column, end line, end column; the end line is left out if it is the start line. -/
def spanNumbers (src : Bytes) (start stop : Nat) : List Int :=
  if lineOf src start = lineOf src stop then
    [(lineOf src start : Int), (colOf src start : Int), (colOf src stop : Int)]
  else
    [(lineOf src start : Int), (colOf src start : Int), (lineOf src stop : Int), (colOf src stop : Int)]

/-- The bytes before an offset on its line are ASCII characters. -/
def AsciiBefore (src : Bytes) (off : Nat) : Prop :=
  ∀ c ∈ (src.take off).drop (off - colOf src off), c < 128

end Verif.Spec
