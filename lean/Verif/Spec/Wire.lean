import Verif.Basic
/-!
The protobuf wire format, as an encoder (specification, independent of the decoder).
-/
namespace Verif.Wire

/-- Base-128 varint, least significant group first. -/
def encVarint (n : Nat) : Bytes :=
  if n < 128 then [UInt8.ofNat n] else UInt8.ofNat (128 + n % 128) :: encVarint (n / 128)

/-- Key of a field. -/
def encKey (tag wire : Nat) : Bytes := encVarint (8 * tag + wire)

/-- A field of unknown meaning. -/
inductive Field where
  | varint (tag v : Nat)
  | fixed64 (tag : Nat) (bytes : Bytes)
  | len (tag : Nat) (bytes : Bytes)
  | group (tag : Nat) (fields : List Field)
  | fixed32 (tag : Nat) (bytes : Bytes)

/-- Wire encoding of a field. -/
def Field.enc : Field → Bytes
  | .varint tag v => encKey tag 0 ++ encVarint v
  | .fixed64 tag bytes => encKey tag 1 ++ bytes
  | .len tag bytes => encKey tag 2 ++ encVarint bytes.length ++ bytes
  | .group tag fs => encKey tag 3 ++ encFields fs ++ encKey tag 4
  | .fixed32 tag bytes => encKey tag 5 ++ bytes
where
  /-- Wire encoding of a list of fields. -/
  encFields : List Field → Bytes
    | [] => []
    | f :: fs => f.enc ++ encFields fs

/-- The field number. -/
def Field.tag : Field → Nat
  | .varint tag _ | .fixed64 tag _ | .len tag _ | .group tag _ | .fixed32 tag _ => tag

/-- Well-formed fields: field numbers of at most 29 bits, 64-bit values, the right number of bytes, and groups
nested less than `depth` deep. -/
def Field.Ok : Nat → Field → Prop
  | 0, _ => False
  | depth + 1, f => 1 ≤ f.tag ∧ f.tag ≤ 536870911 ∧
    match f with
    | .varint _ v => v < 2 ^ 64
    | .fixed64 _ bytes => bytes.length = 8
    | .fixed32 _ bytes => bytes.length = 4
    | .len _ bytes => bytes.length < 2 ^ 64
    | .group _ fs => ∀ g ∈ fs, Field.Ok depth g

/-- An entry of a serialized `FileDescriptorSet`: a serialized file (field 1) or any other field. -/
inductive Entry where
  | file (bytes : Bytes)
  | unknown (f : Field)

/-- Wire encoding of an entry. -/
def Entry.enc : Entry → Bytes
  | .file bytes => encKey 1 2 ++ encVarint bytes.length ++ bytes
  | .unknown f => f.enc

/-- Well-formed entries: unknown fields do not have number 1 and respect prost's nesting limit of 100. -/
def Entry.Ok : Entry → Prop
  | .file bytes => bytes.length < 2 ^ 64
  | .unknown f => f.tag ≠ 1 ∧ f.Ok 100

/-- The serialized files among the entries. -/
def Entry.files : List Entry → List Bytes
  | [] => []
  | .file b :: es => b :: files es
  | .unknown _ :: es => files es

/-- The given byte strings are disjoint substrings of `buf`, in this order. -/
def Chunks : List Bytes → Bytes → Prop
  | [], _ => True
  | e :: es, buf => ∃ pre post, buf = pre ++ e ++ post ∧ Chunks es post

/-- Numbers that are not keys of a field: the wire types 6 and 7 do not exist, field numbers begin with 1, and
a key has at most 32 bits. -/
def BadKey (k : Nat) : Prop := k < 2 ^ 64 ∧ (6 ≤ k % 8 ∨ k < 8 ∨ 2 ^ 32 ≤ k)

/-- The beginnings of groups, each within the one before: the key that opens the group, and some of its fields. -/
def openGroups : List (Nat × List Field) → Bytes
  | [] => []
  | g :: gs => encKey g.1 3 ++ Field.enc.encFields g.2 ++ openGroups gs

/-- Groups that are opened: with numbers in range, and well-formed fields, nested at will. -/
def OpenOk (gs : List (Nat × List Field)) : Prop :=
  ∀ g ∈ gs, 1 ≤ g.1 ∧ g.1 ≤ 536870911 ∧ ∀ f ∈ g.2, ∃ d, f.Ok d

end Verif.Wire
