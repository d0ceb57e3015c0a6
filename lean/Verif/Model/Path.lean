import Verif.Basic
/-!
Model of path handling: `protox/src/file/include.rs` and the parts of `std::path` (Unix) it uses.
A path is its byte string.
-/
namespace Verif

/-- `std::path::Component` on Unix (no `Prefix`). -/
inductive Component where
  | root
  | cur
  | parent
  | normal (name : Bytes)
  deriving DecidableEq, Repr

namespace Path

/-- One `/`-separated piece of a path body: empty and `.` pieces are skipped
(`std::path::Components::parse_single_component`, std). -/
def bodyComponent (s : Bytes) : Option Component :=
  if s = [] then none
  else if s = b!"." then none
  else if s = b!".." then some .parent
  else some (.normal s)

/-- `Path::components()` on Unix (std): a root component if the path starts with `/`; a `.` component
only if the path is relative and its first piece is `.`; then the body pieces. -/
def components (p : Bytes) : List Component :=
  let pieces := splitAt 47 p
  let body := pieces.filterMap bodyComponent
  if p.head? = some 47 then .root :: body
  else if pieces.head? = some b!"." then .cur :: body
  else body

/-- `Path::is_absolute` on Unix (std). -/
def isAbsolute (p : Bytes) : Bool := p.head? = some 47

/-- `Path::join` on Unix (`PathBuf::push`, std). -/
def join (base p : Bytes) : Bytes :=
  if isAbsolute p then p
  else if base ≠ [] ∧ base.getLast? ≠ some 47 then base ++ 47 :: p
  else base ++ p

/-- The loop of `path_to_file_name` (protox/src/file/include.rs:72-88). -/
def fileNameLoop (name : Bytes) : List Component → Option Bytes
  | [] => some name
  | .normal c :: cs =>
    if utf8Valid c then
      fileNameLoop ((if name.isEmpty then name else name ++ [47]) ++ c) cs
    else none
  | _ :: _ => none

/-- `path_to_file_name` (protox/src/file/include.rs:72-95), on the components of the path. -/
def fileName (cs : List Component) : Option Bytes :=
  match fileNameLoop [] cs with
  | none => none
  | some name => if name.isEmpty then none else some name

/-- `path_component_eq` on non-Windows (protox/src/file/include.rs:177-180). -/
def componentEq (l r : Component) : Bool := l == r

/-- `path_eq` (protox/src/file/include.rs:121-141), on component lists. -/
def pathEq : List Component → List Component → Bool
  | [], [] => true
  | .cur :: ls, rs => pathEq ls rs
  | ls, .cur :: rs => pathEq ls rs
  | l :: ls, r :: rs => if componentEq l r then pathEq ls rs else false
  | _, _ => false
termination_by l r => l.length + r.length

/-- `iter_after` (protox/src/file/include.rs:144-170), on component lists. -/
def iterAfter : List Component → List Component → Option (List Component)
  | .cur :: ps, qs => iterAfter ps qs
  | ps, .cur :: qs => iterAfter ps qs
  | p :: ps, q :: qs => if componentEq p q then iterAfter ps qs else none
  | ps, [] => some ps
  | [], _ :: _ => none
termination_by p q => p.length + q.length

/-- `strip_prefix` (protox/src/file/include.rs:116-118). The result is given by its components:
`Components::as_path` of an iterator yields exactly the remaining components (std). -/
def stripPrefix (path pre : Bytes) : Option (List Component) :=
  iterAfter (components path) (components pre)

/-- `IncludeFileResolver::resolve_path` (protox/src/file/include.rs:32-40). -/
def includeResolve (incl path : Bytes) : Option Bytes :=
  match stripPrefix path incl with
  | some rel => fileName rel
  | none => none

/-- The path opened by `IncludeFileResolver::open_file` (protox/src/file/include.rs:67-69). -/
def includeTarget (incl name : Bytes) : Bytes := join incl name

end Path

/-- `is_valid_import` (protox-parse/src/parse/mod.rs:1359-1368). -/
def isValidImport (s : Bytes) : Bool :=
  (splitAt 47 s).all (fun c => !(c.isEmpty || c.contains 92 || c == b!"." || c == b!".."))
    && !Path.isAbsolute s

end Verif
