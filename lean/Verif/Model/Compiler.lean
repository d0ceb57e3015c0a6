import Verif.Model.Resolver
/-!
Model of `protox/src/compile/mod.rs`.
-/
namespace Verif

/-- `FileMetadata` (protox/src/file/mod.rs:72-77). -/
structure FileMetadata where
  name : Bytes
  path : Option Bytes
  isImport : Bool
  deriving DecidableEq, Repr

/-- `Compiler` (protox/src/compile/mod.rs:48-54). The pool is the list of its (linked) files in the order
of `DescriptorPool::files()`; `trace` is a ghost field: the calls made to the resolver so far. -/
structure Compiler where
  pool : List FileDescriptorProto
  files : Bytes → Option FileMetadata
  includeImports : Bool
  includeSourceInfo : Bool
  trace : List Call

/-- `Compiler::with_file_resolver` (protox/src/compile/mod.rs:80-91). -/
def Compiler.init : Compiler := ⟨[], fun _ => none, false, false, []⟩

/-- Outcome of a call: `Ok`, `Err`, a panic, or out of fuel (shown unreachable). -/
inductive Out where
  | ok
  | err (e : Error)
  | panic
  | oof
  deriving DecidableEq, Repr

/-- The linker: what the descriptor pool makes of a file that it accepts (external, prost-reflect).
`Except.error` is a `DescriptorError`. -/
abbrev Linker := List FileDescriptorProto → File → Except Nat FileDescriptorProto

/-- Assumed contract of the linker: the file keeps its name, its imports and its source info. -/
structure Linker.Lawful (link : Linker) : Prop where
  name_eq : ∀ pool f d, link pool f = .ok d → d.getName = f.name
  deps_eq : ∀ pool f d, link pool f = .ok d → d.dependency = f.descriptor.dependency

/-- `DescriptorPool::add_file_descriptor_proto` / `decode_file_descriptor_proto` (external,
prost-reflect): a file whose name is already present is skipped, a rejected file leaves the pool
unchanged, an accepted one is appended. -/
def poolAdd (link : Linker) (pool : List FileDescriptorProto) (f : File) :
    Except Error (List FileDescriptorProto) :=
  if pool.any (fun g => g.getName == f.name) then .ok pool
  else match link pool f with
    | .error c => .error (.check c)
    | .ok d => .ok (pool ++ [d])

namespace Compiler
variable (R : Resolver) (link : Linker)

/-- `self.files.insert(..)`. -/
def setFile (s : Compiler) (n : Bytes) (m : FileMetadata) : Compiler :=
  { s with files := fun k => if k = n then some m else s.files k }

/-- `self.check_file(file)?` followed by `self.files.insert(..)` (protox/src/compile/mod.rs:160-168,
286-295, 298-319). Attaching source code to a pool error is not modelled. -/
def finish (s : Compiler) (name : Bytes) (f : File) (isImport : Bool) : Out × Compiler :=
  match poolAdd link s.pool f with
  | .error e => (.err e, s)
  | .ok pool => (.ok, { s with pool := pool }.setFile name ⟨name, f.path, isImport⟩)

/-- The loop over the imports of a file (protox/src/compile/mod.rs:151-158 and 276-283). `add` is
`self.add_import(.., import_stack)`, `seen` is `already_imported`, `i` the index. -/
def importLoop (add : Bytes → Compiler → Out × Compiler) (f : File) :
    Nat → List Bytes → List Bytes → Compiler → Out × Compiler
  | _, _, [], s => (.ok, s)
  | i, seen, d :: ds, s =>
    if d ∈ seen then
      match duplicatedImport d f i with
      | some e => (.err e, s)
      | none => (.panic, s)
    else
      match add d s with
      | (.ok, s') => importLoop add f (i + 1) (seen ++ [d]) ds s'
      | (.err e, s') =>
        match intoImportError e f i with
        | some e' => (.err e', s')
        | none => (.panic, s')
      | (o, s') => (o, s')

/-- The text built for an import cycle (protox/src/compile/mod.rs:257-261). -/
def cycleText (stack : List Bytes) (name : Bytes) : Bytes :=
  stack.flatMap (· ++ b!" -> ") ++ name

/-- `Compiler::add_import` (protox/src/compile/mod.rs:255-296). Fuel bounds the recursion depth. The
import stack is passed down instead of pushed and popped (it is dropped on every error path). -/
def addImport : Nat → List Bytes → Bytes → Compiler → Out × Compiler
  | 0, _, _, s => (.oof, s)
  | fuel + 1, stack, name, s =>
    if name ∈ stack then (.err (.circularImport name (cycleText stack name)), s)
    else if (s.files name).isSome then (.ok, s)
    else
      let s1 := { s with trace := s.trace ++ [.openF name] }
      match R.openFile s.trace name with
      | .error e => (.err e, s1)
      | .ok f =>
        match importLoop (addImport fuel (stack ++ [name])) f 0 [] f.descriptor.dependency s1 with
        | (.ok, s2) => finish link s2 name f true
        | r => r

/-- The name chosen for a path and whether the resolver chose it (protox/src/compile/mod.rs:119-127). -/
def resolveName (s : Compiler) (path : Bytes) : Option (Bytes × Bool) :=
  match R.resolvePath s.trace path with
  | some n => some (n, true)
  | none => match pathToFileName path with
    | some n => some (n, false)
    | none => none

/-- The shadow check, made only for resolved names (protox/src/compile/mod.rs:130-132, 146-148). -/
def shadowError (isResolved : Bool) (name : Bytes) (actual : Option Bytes) (path : Bytes) : Option Error :=
  if isResolved then checkShadow name actual path else none

/-- `Compiler::open_file` (protox/src/compile/mod.rs:117-170). -/
def openFile (fuel : Nat) (s : Compiler) (path : Bytes) : Out × Compiler :=
  let s0 := { s with trace := s.trace ++ [.resolve path] }
  match resolveName R s path with
  | none => (.err (.fileNotIncluded path), s0)
  | some (name, isResolved) =>
    match s.files name with
    | some m =>
      match shadowError isResolved name m.path path with
      | some e => (.err e, s0)
      | none => (.ok, s0.setFile name { m with isImport := false })
    | none =>
      let s1 := { s0 with trace := s0.trace ++ [.openF name] }
      match R.openFile s0.trace name with
      | .error e => (.err (if e.isFileNotFound then .fileNotIncluded path else e), s1)
      | .ok f =>
        match shadowError isResolved name f.path path with
        | some e => (.err e, s1)
        | none =>
          match importLoop (addImport R link fuel [name]) f 0 [] f.descriptor.dependency s1 with
          | (.ok, s2) => finish link s2 name f false
          | r => r

/-- `Compiler::open_files` (protox/src/compile/mod.rs:175-184). -/
def openFiles (fuel : Nat) (s : Compiler) : List Bytes → Out × Compiler
  | [] => (.ok, s)
  | p :: ps => match openFile R link fuel s p with
    | (.ok, s') => openFiles fuel s' ps
    | r => r

/-- `Compiler::files` (protox/src/compile/mod.rs:251-253). The map index panics on a missing name: `none`. -/
def filesOut (s : Compiler) : Option (List FileMetadata) :=
  s.pool.mapM (fun f => s.files f.getName)

/-- The filter of `file_descriptor_set` and `encode_file_descriptor_set` for one file
(protox/src/compile/mod.rs:193, 224); `none` is a panic. -/
def emitted (s : Compiler) (f : FileDescriptorProto) : Option Bool :=
  if s.includeImports then some true
  else match s.files f.getName with
    | some m => some (!m.isImport)
    | none => none

/-- `Iterator::filter` with a predicate that may panic. -/
def filterP (p : FileDescriptorProto → Option Bool) : List FileDescriptorProto → Option (List FileDescriptorProto)
  | [] => some []
  | f :: fs => match p f, filterP p fs with
    | some true, some r => some (f :: r)
    | some false, some r => some r
    | _, _ => none

/-- `Compiler::file_descriptor_set` (protox/src/compile/mod.rs:189-208); `none` is a panic. -/
def fileDescriptorSet (s : Compiler) : Option (List FileDescriptorProto) :=
  match filterP (s.emitted) s.pool with
  | none => none
  | some fs => some (fs.map (fun f =>
      if s.includeSourceInfo then f else { f with sourceCodeInfo := none }))

/-- What a function that returns `Result<T, Error>` does: a value, an error, a panic, or out of fuel. -/
inductive Res (α : Type) where
  | ok (a : α)
  | err (e : Error)
  | panic
  | oof

/-- The outcome of opening files followed by a query of the state (`none` is a panic). -/
def finally' {α : Type} (q : Compiler → Option α) : Out × Compiler → Res α
  | (.ok, s) => match q s with
    | some a => .ok a
    | none => .panic
  | (.err e, _) => .err e
  | (.panic, _) => .panic
  | (.oof, _) => .oof

/-- `protox::compile` (protox/src/lib.rs:178-187); the resolver is the one built by `Compiler::new`. -/
def compile (fuel : Nat) (files : List Bytes) : Res (List FileDescriptorProto) :=
  let s : Compiler := { Compiler.init with includeSourceInfo := true }
  let s : Compiler := { s with includeImports := true }
  finally' fileDescriptorSet (openFiles R link fuel s files)

/-- The calls a user can make. -/
inductive Op where
  | openFile (path : Bytes)
  | openFiles (paths : List Bytes)
  | setIncludeImports (yes : Bool)
  | setIncludeSourceInfo (yes : Bool)

/-- One call; `include_imports`/`include_source_info` are protox/src/compile/mod.rs:98-110. -/
def step (fuel : Nat) (s : Compiler) : Op → Out × Compiler
  | .openFile p => openFile R link fuel s p
  | .openFiles ps => openFiles R link fuel s ps
  | .setIncludeImports b => (.ok, { s with includeImports := b })
  | .setIncludeSourceInfo b => (.ok, { s with includeSourceInfo := b })

/-- States reachable by any history of calls, successful or not. -/
inductive Reachable : Compiler → Prop where
  | init : Reachable .init
  | step (fuel : Nat) (s : Compiler) (op : Op) : Reachable s → Reachable (step R link fuel s op).2

end Compiler
end Verif
