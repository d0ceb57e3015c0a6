import Verif.Model.Error
import Verif.Model.Path
/-!
Files and resolvers: `protox/src/file/mod.rs`, `chain.rs`, `google.rs`, `include.rs`, `descriptor_set.rs`,
and the import errors of `protox/src/error.rs`.
-/
namespace Verif

/-- `File` (protox/src/file/mod.rs:63-69). -/
structure File where
  path : Option Bytes
  source : Option Bytes
  descriptor : FileDescriptorProto
  encoded : Option Bytes

/-- `File::name` (protox/src/file/mod.rs:233-235). -/
def File.name (f : File) : Bytes := f.descriptor.getName

/-- A call made to a resolver. -/
inductive Call where
  | resolve (path : Bytes)
  | openF (name : Bytes)
  deriving DecidableEq, Repr

/-- `dyn FileResolver` (protox/src/file/mod.rs:34-46). The resolver may change its answers over time
(interior mutability, a changing file system): its answers are an arbitrary function of the calls made
to it so far (oldest first). -/
structure Resolver where
  resolvePath : List Call → Bytes → Option Bytes
  openFile : List Call → Bytes → Except Error File

/-- A resolver whose answers do not change over time. -/
structure PureResolver where
  resolvePath : Bytes → Option Bytes
  openFile : Bytes → Except Error File

/-- A pure resolver seen as a general one. -/
def PureResolver.toResolver (r : PureResolver) : Resolver := ⟨fun _ p => r.resolvePath p, fun _ n => r.openFile n⟩

/-- `ChainFileResolver::resolve_path` (protox/src/file/chain.rs:32-40). -/
def chainResolve (rs : List PureResolver) (p : Bytes) : Option Bytes :=
  match rs with
  | [] => none
  | r :: rs => match r.resolvePath p with
    | some n => some n
    | none => chainResolve rs p

/-- `ChainFileResolver::open_file` (protox/src/file/chain.rs:42-52). -/
def chainOpen (rs : List PureResolver) (name : Bytes) : Except Error File :=
  match rs with
  | [] => .error (.fileNotFound name)
  | r :: rs => match r.openFile name with
    | .ok f => .ok f
    | .error e => if e.isFileNotFound then chainOpen rs name else .error e

/-- `ChainFileResolver` (protox/src/file/chain.rs:10-29). -/
def chain (rs : List PureResolver) : PureResolver := ⟨chainResolve rs, chainOpen rs⟩

/-- `DescriptorSetFileResolver::open_file` (protox/src/file/descriptor_set.rs:69-84); the set is the list
of decoded files and their bytes. The default `resolve_path` is protox/src/file/mod.rs:36-38. -/
def setOpen (set : List (FileDescriptorProto × Option Bytes)) (name : Bytes) : Except Error File :=
  match set with
  | [] => .error (.fileNotFound name)
  | (fd, enc) :: rest =>
    if fd.getName = name then .ok { path := none, source := none, descriptor := fd, encoded := enc }
    else setOpen rest name

/-- `DescriptorSetFileResolver` as a resolver. -/
def setResolver (set : List (FileDescriptorProto × Option Bytes)) : PureResolver :=
  ⟨fun _ => none, setOpen set⟩

/-- The parser as seen by the resolvers: `protox_parse::parse(name, source)`. -/
abbrev ParseFn := Bytes → Bytes → Except ParseError FileDescriptorProto

/-- `File::from_source` (protox/src/file/mod.rs:189-198). -/
def fromSource (parse : ParseFn) (name source : Bytes) : Except Error File :=
  match parse name source with
  | .error e => .error (.parse e)
  | .ok d => .ok { path := none, source := some source, descriptor := d, encoded := none }

/-- The names of protox/src/file/google.rs:42-55. -/
def googleNames : List Bytes :=
  [b!"google/protobuf/any.proto", b!"google/protobuf/api.proto", b!"google/protobuf/descriptor.proto",
   b!"google/protobuf/duration.proto", b!"google/protobuf/empty.proto",
   b!"google/protobuf/field_mask.proto", b!"google/protobuf/source_context.proto",
   b!"google/protobuf/struct.proto", b!"google/protobuf/timestamp.proto", b!"google/protobuf/type.proto",
   b!"google/protobuf/wrappers.proto", b!"google/protobuf/compiler/plugin.proto"]

/-- `GoogleFileResolver::open_file` (protox/src/file/google.rs:41-59). `text` gives the bundled source of
a bundled name (the constants of google.rs:27-38). -/
def googleOpen (parse : ParseFn) (text : Bytes → Bytes) (name : Bytes) : Except Error File :=
  if name ∈ googleNames then fromSource parse name (text name) else .error (.fileNotFound name)

/-- `GoogleFileResolver`. -/
def googleResolver (parse : ParseFn) (text : Bytes → Bytes) : PureResolver :=
  ⟨fun _ => none, googleOpen parse text⟩

/-- What the operating system says about a path: an error from `fs::File::open`/`metadata`, or the
length reported by `metadata` together with the result of reading at most the first 2147483647 bytes. -/
inductive FsEntry where
  | err (e : IoError)
  | file (metaLen : Nat) (content : Except IoError Bytes)

/-- `MAX_FILE_LEN` (protox/src/file/mod.rs:28, protox-parse/src/lib.rs:91). -/
def maxFileLen : Nat := 2147483647

/-- `map_io_err` in `File::open` (protox/src/file/mod.rs:120-132). -/
def mapIoErr (name path : Bytes) : IoError → Error
  | .notFound => .fileNotFound name
  | .invalidData => .fileInvalidUtf8 name
  | .other c => .openFile name path (.other c)

/-- `File::open` (protox/src/file/mod.rs:119-156). `read_to_string` of a `Take` reads at most
`MAX_FILE_LEN` bytes and fails with `InvalidData` on invalid UTF-8 (std). -/
def fileOpen (parse : ParseFn) (fs : Bytes → FsEntry) (name path : Bytes) : Except Error File :=
  match fs path with
  | .err e => .error (mapIoErr name path e)
  | .file metaLen content =>
    if metaLen > maxFileLen then .error (.fileTooLarge name)
    else match content with
      | .error e => .error (mapIoErr name path e)
      | .ok bytes =>
        let buf := bytes.take maxFileLen
        if utf8Valid buf then
          match parse name buf with
          | .error e => .error (.parse e)
          | .ok d => .ok { path := some path, source := some buf, descriptor := d, encoded := none }
        else .error (mapIoErr name path .invalidData)

/-- `IncludeFileResolver` (protox/src/file/include.rs:9-70). -/
def includeResolver (parse : ParseFn) (fs : Bytes → FsEntry) (incl : Bytes) : PureResolver :=
  ⟨Path.includeResolve incl, fun name => fileOpen parse fs name (Path.includeTarget incl name)⟩

/-- The resolver built by `Compiler::new` (protox/src/compile/mod.rs:61-77). -/
def defaultResolver (parse : ParseFn) (fs : Bytes → FsEntry) (text : Bytes → Bytes) (includes : List Bytes) :
    PureResolver :=
  chain (includes.map (includeResolver parse fs) ++ [googleResolver parse text])

/-- The same resolver (protox/src/compile/mod.rs:61-77) on a file system that may change between any two calls:
`fs calls` is what the file system says after those calls. `resolve_path` does not look at the file system. -/
def defaultResolverOn (parse : ParseFn) (fs : List Call → Bytes → FsEntry) (text : Bytes → Bytes)
    (includes : List Bytes) : Resolver :=
  ⟨fun calls p => (defaultResolver parse (fs calls) text includes).resolvePath p,
   fun calls n => (defaultResolver parse (fs calls) text includes).openFile n⟩

/-- `check_shadow` (protox/src/file/include.rs:97-114). -/
def checkShadow (name : Bytes) (actual : Option Bytes) (expected : Bytes) : Option Error :=
  match actual with
  | some a =>
    if Path.pathEq (Path.components a) (Path.components expected) then none
    else some (.fileShadowed name expected a)
  | none => none

/-- `path_to_file_name` (protox/src/file/include.rs:72-95) on a path. -/
def pathToFileName (p : Bytes) : Option Bytes := Path.fileName (Path.components p)

/-- Number of bytes of the UTF-8 character that starts with this byte. -/
def charLen (b : UInt8) : Nat :=
  if b < 0x80 then 1 else if b < 0xE0 then 2 else if b < 0xF0 then 3 else 4

/-- `miette::SourceOffset::from_location` (external): walks the characters of the source until line and
column (1-based, columns counted in characters) are reached. -/
def fromLocation (locLine locCol : Nat) : Nat → Nat → Nat → Bytes → Nat
  | _, _, off, [] => off
  | line, col, off, c :: cs =>
    if line + 1 ≥ locLine ∧ col + 1 ≥ locCol then off
    else
      let k := charLen c
      let rest := cs.drop (k - 1)
      if c = 10 then fromLocation locLine locCol (line + 1) 0 (off + k) rest
      else fromLocation locLine locCol line (col + 1) (off + k) rest
termination_by _ _ _ s => s.length
decreasing_by all_goals (simp; omega)

/-- One location of `find_import_span` (protox/src/error.rs:179-191). `none`: continue; `some none`: panic
(arithmetic underflow; a negative number is also counted as a panic, the code would wrap); `some (some s)`:
return `s`. -/
def importSpanAt (source : Bytes) (idx : Nat) (l : Location) : Option (Option (Nat × Nat)) :=
  if l.path = [3, (idx : Int)] then
    match l.span with
    | [a, b, c] =>
      if a < 0 ∨ b < 0 ∨ c < b then some none
      else some (some (fromLocation (a.toNat + 1) (b.toNat + 1) 0 0 0 source, c.toNat - b.toNat))
    | _ => none
  else none

/-- `find_import_span` (protox/src/error.rs:176-196). The outer `none` is a panic. -/
def findImportSpan (f : File) (idx : Nat) : Option (Option (Nat × Nat)) :=
  match f.descriptor.sourceCodeInfo, f.source with
  | some locs, some source =>
    match locs.findSome? (importSpanAt source idx) with
    | some (some s) => some (some s)
    | some none => none
    | none => some none
  | _, _ => some none

/-- `Error::into_import_error` (protox/src/error.rs:148-162); `none` is a panic. -/
def intoImportError (e : Error) (f : File) (idx : Nat) : Option Error :=
  match e with
  | .fileNotFound name =>
    match findImportSpan f idx with
    | some span => some (.importNotFound span f.name (f.source.getD []) name)
    | none => none
  | e => some e

/-- `Error::duplicated_import` (protox/src/error.rs:164-173); `none` is a panic. -/
def duplicatedImport (name : Bytes) (f : File) (idx : Nat) : Option Error :=
  match findImportSpan f idx with
  | some span => some (.duplicateImport span f.name (f.source.getD []) name)
  | none => none

end Verif
