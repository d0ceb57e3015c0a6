import Verif.Model.Descriptor
/-!
Line resolution: protox-parse/src/generate/lines.rs and `index_to_i32` (protox-parse/src/lib.rs).
A panic is `none`.
-/
namespace Verif

/-- `MAX_FILE_LEN` (protox-parse/src/lib.rs:91) = `i32::MAX`. -/
def maxParseLen : Nat := 2147483647

/-- `index_to_i32` (protox-parse/src/lib.rs:93-98): panics (`none`) above `i32::MAX`. -/
def indexToI32 (n : Nat) : Option Int := if n ≤ 2147483647 then some (n : Int) else none

namespace Lines

/-- `source_code.match_indices('\n').map(|(index, _)| index + 1)` (generate/lines.rs:10-13), from
position `off` on. -/
def newlineEnds (off : Nat) : Bytes → List Nat
  | [] => []
  | b :: bs => if b = 10 then (off + 1) :: newlineEnds (off + 1) bs else newlineEnds (off + 1) bs

/-- `Option`-valued `map` (a panic in any element is a panic). -/
def mapOpt (f : Nat → Option Int) : List Nat → Option (List Int)
  | [] => some []
  | x :: xs => match f x with
    | none => none
    | some y => match mapOpt f xs with
      | none => none
      | some ys => some (y :: ys)

/-- `LineResolver::new` (generate/lines.rs:9-16). -/
def new (src : Bytes) : Option (List Int) := mapOpt indexToI32 (newlineEnds 0 src)

/-- The contract of `slice::binary_search` (std) on a strictly increasing list: `Ok` with the index of an
equal element if there is one, else `Err` with the number of smaller elements.  The halving search itself
is std code; we scan. -/
def search (x : Int) : Nat → List Int → Except Nat Nat
  | i, [] => .error i
  | i, y :: ys => if y < x then search x (i + 1) ys else if y = x then .ok i else .error i

/-- `LineResolver::resolve` (generate/lines.rs:18-27).  `self.lines[index - 1]` out of bounds is a panic. -/
def resolve (lines : List Int) (offset : Nat) : Option (Int × Int) :=
  match indexToI32 offset with
  | none => none
  | some off =>
    match search off 0 lines with
    | .ok index => (indexToI32 (index + 1)).map fun l => (l, 0)
    | .error 0 => some (0, off)
    | .error (index + 1) =>
      match indexToI32 (index + 1), lines[index]? with
      | some l, some st => some (l, off - st)
      | _, _ => none

/-- `LineResolver::resolve_span` (generate/lines.rs:29-38). -/
def resolveSpan (lines : List Int) (span : Span) : Option (List Int) :=
  match resolve lines span.start, resolve lines span.stop with
  | some (sl, sc), some (el, ec) =>
    if sl = el then some [sl, sc, ec] else some [sl, sc, el, ec]
  | _, _ => none

end Lines
end Verif
