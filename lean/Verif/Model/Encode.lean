import Verif.Model.Compiler
import Verif.Spec.Wire
/-!
`Compiler::encode_file_descriptor_set` (protox/src/compile/mod.rs:214-243) and the command line tool
(protox/src/main.rs).
-/
namespace Verif.Compiler

/-- The external encoders: `raw` is `FileDescriptor::encode_to_vec` (prost-reflect); `redact keep` is
`DynamicMessage::decode`, `clear_field_by_name("source_code_info")` unless `keep`, and the encoding of the result as a
sub-message (`none`: decoding failed, so that the `unwrap` panics); `dec` is `FileDescriptorProto::decode` (prost). -/
structure Codec where
  raw : FileDescriptorProto → Bytes
  redact : Bool → Bytes → Option Bytes
  dec : Bytes → Option FileDescriptorProto

/-- Assumed contract of the encoders on the file `d`: decoding undoes encoding, clearing the source info clears the source
info and nothing else, and the messages are shorter than 2^64 bytes. (prost and prost-reflect guarantee the first two for
every file; the third cannot fail on a 64-bit machine.) -/
structure Codec.Faithful (c : Codec) (d : FileDescriptorProto) : Prop where
  raw_dec : c.dec (c.raw d) = some d
  redact_dec : ∀ keep, ∃ b, c.redact keep (c.raw d) = some b ∧
    c.dec b = some (if keep then d else { d with sourceCodeInfo := none }) ∧ b.length < 2 ^ 64
  raw_len : (c.raw d).length < 2 ^ 64

/-- The wire encoding of a set of encoded files (`FileDescriptorSet::encode_to_vec`, prost; `DescriptorPool::encode_to_vec`,
prost-reflect): field 1, length-delimited, for each. -/
def encodeFiles (files : List Bytes) : Bytes := files.flatMap fun b => Wire.encKey 1 2 ++ Wire.encVarint b.length ++ b

/-- `Compiler::encode_file_descriptor_set` (protox/src/compile/mod.rs:214-243); `none` is a panic. -/
def encodeFileDescriptorSet (c : Codec) (s : Compiler) : Option Bytes :=
  if s.includeImports && s.includeSourceInfo then some (encodeFiles (s.pool.map c.raw))
  else match filterP (s.emitted) s.pool with
    | none => none
    | some fs => match fs.mapM (fun f => c.redact s.includeSourceInfo (c.raw f)) with
      | none => none
      | some bs => some (encodeFiles bs)

/-- The arguments of the command line tool (protox/src/main.rs:7-40), after parsing (clap). -/
structure Args where
  files : List Bytes
  includes : List Bytes
  output : Option Bytes
  includeSourceInfo : Bool
  includeImports : Bool

/-- What the tool does: the file it writes, if any, and whether it ends with an error or a panic. -/
inductive Tool where
  | done
  | write (path bytes : Bytes)
  | fail (e : Error)
  | panic
  | oof
  deriving DecidableEq

/-- `main` (protox/src/main.rs:42-58), up to the outcome of the write itself; the resolver is the one built by
`Compiler::new(args.includes)`. The loop over the files is `openFiles`. -/
def tool (R : Resolver) (link : Linker) (c : Codec) (fuel : Nat) (args : Args) : Tool :=
  let s : Compiler := { Compiler.init with includeImports := args.includeImports }
  let s : Compiler := { s with includeSourceInfo := args.includeSourceInfo }
  match openFiles R link fuel s args.files with
  | (.ok, s) => match args.output with
    | none => .done
    | some path => match encodeFileDescriptorSet c s with
      | none => .panic
      | some bytes => .write path bytes
  | (.err e, _) => .fail e
  | (.panic, _) => .panic
  | (.oof, _) => .oof

end Verif.Compiler
