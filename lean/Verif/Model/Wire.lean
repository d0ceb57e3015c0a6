import Verif.Model.Resolver
/-!
`DescriptorSetFileResolver::decode` (protox/src/file/descriptor_set.rs) on top of the wire format primitives
of the `prost` crate (external: `decode_varint`, `decode_key`, `skip_field`, `bytes::Buf`; modelled from
prost's published source, version 0.14, on a 64-bit target).
-/
namespace Verif.Wire

/-- Result of a decoding step: value and remaining buffer, a `DecodeError`, or a panic. -/
inductive DRes (α : Type) where
  | ok (a : α) (rest : Bytes)
  | err
  | panic

/-- Sequencing with `?`. -/
def DRes.bind {α β : Type} : DRes α → (α → Bytes → DRes β) → DRes β
  | .ok a r, f => f a r
  | .err, _ => .err
  | .panic, _ => .panic

/-- `Buf::get_u8` (bytes): panics on an empty buffer. -/
def getU8 : Bytes → DRes UInt8
  | [] => .panic
  | b :: r => .ok b r

/-- `Buf::advance` (bytes): panics if there are fewer bytes. -/
def advance (n : Nat) (buf : Bytes) : DRes Unit :=
  if n ≤ buf.length then .ok () (buf.drop n) else .panic

/-- `Buf::copy_to_bytes` (bytes): panics if there are fewer bytes. -/
def copyToBytes (n : Nat) (buf : Bytes) : DRes Bytes :=
  if n ≤ buf.length then .ok (buf.take n) (buf.drop n) else .panic

/-- The loop of `prost::encoding::decode_varint`: at most `iters = min(10, remaining)` bytes; a tenth byte
above 1 overflows a `u64`. -/
def varintLoop : Nat → Nat → Nat → Bytes → DRes Nat
  | 0, _, _, _ => .err
  | iters + 1, count, value, buf =>
    (getU8 buf).bind fun b rest =>
      let value := value + (b.toNat % 128) * 2 ^ (7 * count)
      if b.toNat ≤ 127 then
        if count = 9 ∧ b.toNat ≥ 2 then .err else .ok value rest
      else varintLoop iters (count + 1) value rest

/-- `prost::encoding::decode_varint`. -/
def decodeVarint (buf : Bytes) : DRes Nat := varintLoop (min 10 buf.length) 0 0 buf

/-- `prost::encoding::WireType`. -/
inductive WireType where
  | varint | sixtyFourBit | lengthDelimited | startGroup | endGroup | thirtyTwoBit
  deriving DecidableEq, Repr

/-- `WireType::try_from`. -/
def WireType.tryFrom : Nat → Option WireType
  | 0 => some .varint
  | 1 => some .sixtyFourBit
  | 2 => some .lengthDelimited
  | 3 => some .startGroup
  | 4 => some .endGroup
  | 5 => some .thirtyTwoBit
  | _ => none

/-- `prost::encoding::decode_key`. -/
def decodeKey (buf : Bytes) : DRes (Nat × WireType) :=
  (decodeVarint buf).bind fun key rest =>
    if key > 4294967295 then .err
    else match WireType.tryFrom (key % 8) with
      | none => .err
      | some wt => if key / 8 < 1 then .err else .ok (key / 8, wt) rest

/-- The tail of `skip_field`: length check and advance. -/
def skipLen (len : Nat) (buf : Bytes) : DRes Unit :=
  if len > buf.length then .err else advance len buf

/-- The loop of `skip_field` over the fields of a group. Every iteration consumes at least one byte, so the
number of remaining bytes bounds the iterations. -/
def skipGroup (skip : WireType → Nat → Bytes → DRes Unit) (tag : Nat) : Nat → Bytes → DRes Unit
  | 0, _ => .err
  | iters + 1, buf =>
    (decodeKey buf).bind fun (innerTag, innerWt) rest =>
      if innerWt = .endGroup then
        if innerTag ≠ tag then .err else skipLen 0 rest
      else (skip innerWt innerTag rest).bind fun _ rest => skipGroup skip tag iters rest

/-- `prost::encoding::skip_field`; the first argument is the recursion limit left. -/
def skipField : Nat → WireType → Nat → Bytes → DRes Unit
  | 0, _, _, _ => .err
  | depth + 1, wt, tag, buf =>
    match wt with
    | .varint => (decodeVarint buf).bind fun _ rest => skipLen 0 rest
    | .thirtyTwoBit => skipLen 4 buf
    | .sixtyFourBit => skipLen 8 buf
    | .lengthDelimited => (decodeVarint buf).bind fun len rest => skipLen len rest
    | .startGroup => skipGroup (skipField depth) tag (buf.length + 1) buf
    | .endGroup => .err

/-- prost's `RECURSION_LIMIT`, the limit of `DecodeContext::default()`. -/
def recursionLimit : Nat := 100

/-- `FileDescriptor::decode` on `(&mut buf).take(len)` (protox/src/file/descriptor_set.rs:86-95 and 59).
`dec` is `FileDescriptorProto::decode` (external). -/
def decodeOne (dec : Bytes → Option FileDescriptorProto) (len : Nat) (buf : Bytes) :
    DRes (FileDescriptorProto × Option Bytes) :=
  (copyToBytes (min len buf.length) buf).bind fun encoded rest =>
    match dec encoded with
    | none => .err
    | some fd => .ok (fd, some encoded) rest

/-- The loop of `DescriptorSetFileResolver::decode` (protox/src/file/descriptor_set.rs:49-65). Every iteration
consumes at least one byte, so the number of remaining bytes bounds the iterations. -/
def decodeLoop (dec : Bytes → Option FileDescriptorProto) :
    Nat → Bytes → List (FileDescriptorProto × Option Bytes) → DRes (List (FileDescriptorProto × Option Bytes))
  | 0, buf, set => if buf.isEmpty then .ok set [] else .err
  | iters + 1, buf, set =>
    if buf.isEmpty then .ok set []
    else
      (decodeKey buf).bind fun (key, wt) rest =>
        if key = 1 then
          if wt = .lengthDelimited then
            (decodeVarint rest).bind fun len rest =>
              if len > rest.length then .err
              else (decodeOne dec len rest).bind fun fd rest => decodeLoop dec iters rest (set ++ [fd])
          else .err
        else (skipField recursionLimit wt key rest).bind fun _ rest => decodeLoop dec iters rest set

/-- `DescriptorSetFileResolver::decode` (protox/src/file/descriptor_set.rs:43-67). -/
def decodeSet (dec : Bytes → Option FileDescriptorProto) (buf : Bytes) :
    DRes (List (FileDescriptorProto × Option Bytes)) := decodeLoop dec buf.length buf []

/-- `File::decode_file_descriptor_proto` (protox/src/file/mod.rs:218-230). -/
def decodeFile (dec : Bytes → Option FileDescriptorProto) (buf : Bytes) : DRes File :=
  (copyToBytes buf.length buf).bind fun encoded rest =>
    match dec encoded with
    | none => .err
    | some fd => .ok ⟨none, none, fd, some encoded⟩ rest

end Verif.Wire
