import Verif.Props.Descriptor3
import Verif.Proofs.Demo
/-!
What a descriptor returned by `parse` contains: names and types (C52), and concrete files that the theorems about
descriptors apply to.
-/
namespace Verif
open Verif.Spec Verif.Ast Verif.Gen

section
variable [FloatFmt] [LocSort]

/-! ### C52 -/

/-- C52 (files): the name is the one given to `parse`; the package is the written one; `syntax` is "proto3" for a file
that says so, and absent for proto2. -/
theorem C52_file {name src : Bytes} {fd} (h : parse name src = some (.ok fd)) :
    ForTree src fun f => fd.name = some name ∧ fd.package = f.package.map (fun p => identText p.name) ∧
      fd.syntax' = (match f.syntax' with | .proto2 => none | .proto3 => some b!"proto3") := by
  refine forTree h fun f ht hm => ?_
  have hd := hm.desc
  have h1 : fd.name = (fileDesc name f).name := by rw [← hd]
  have h2 : fd.package = (fileDesc name f).package := by rw [← hd]
  have h3 : fd.syntax' = (fileDesc name f).syntax' := by rw [← hd]
  refine ⟨h1, ?_, ?_⟩
  · rw [h2]
    simp only [fileDesc]
    cases hpk : f.package with
    | none => rfl
    | some p =>
      simp [identText_eq]
  · rw [h3]
    simp only [fileDesc]
    cases f.syntax' <;> rfl

/-- C52 (messages): each message descriptor has the written name (for a group the name of the group, for a map the name
of the entry). -/
theorem C52_messages {name src : Bytes} {fd} (h : parse name src = some (.ok fd)) :
    ForTree src fun f => Paired f fd ∧ ∀ p s d, MsgAt f fd p s d → d.name = some s.name := by
  refine forTree h fun f ht hm => ⟨hm.paired, fun p s d hat => ?_⟩
  rw [(hm.msgAt hat).1]
  cases s with
  | message m => rcases m with ⟨n, b, c, sp⟩; simp [srcDesc, messageDesc, MsgSrc.name]
  | group f b => rfl
  | map f k v => simp [srcDesc, entryOf, mapEntry, entryName, MsgSrc.name, toPascalCase_eq]

/-- C52 (fields and extensions): the name (lower case for groups), the type, the type name and the extended type. -/
theorem C52_fields {name src : Bytes} {fd} (h : parse name src = some (.ok fd)) :
    ForTree src fun f => Paired f fd ∧ ∀ q pl x d, FieldAt f fd q pl x d →
      d.name = some (fieldNameOf x) ∧ d.type = fieldTypeOf x ∧ d.typeName = fieldTypeNameOf x ∧
      d.extendee = extendeeOf pl := by
  refine forTree h fun f ht hm => ⟨hm.paired, fun q pl x d hf => ?_⟩
  obtain ⟨p1, _, p3, p4, _, _, _, _, p9⟩ := field_parts hm hf
  refine ⟨?_, ?_, ?_, ?_⟩
  · rw [p1]; unfold kindName fieldNameOf; cases x.kind <;> rfl
  · rw [p3]; unfold kindType fieldTypeOf; cases x.kind with
    | normal t sp => cases t <;> rfl
    | _ => rfl
  · rw [p4]; unfold kindTypeName fieldTypeNameOf
    cases hk : x.kind with
    | normal t sp => cases t with
      | named n =>
        simp [typeNameOf, typeText_eq]
      | _ => rfl
    | group => rfl
    | map => simp [entryName, toPascalCase_eq]
  · rw [p9]; cases pl with
    | extend t => simp [extendeeOf, typeText_eq]
    | _ => rfl

/-- C52 (enums): the names of the enum and of its values, and the numbers of the values, which fit `int32`. -/
theorem C52_enums {name src : Bytes} {fd} (h : parse name src = some (.ok fd)) :
    ForTree src fun f => Paired f fd ∧ ∀ p e d, EnumAt f fd p e d →
      d.name = some e.name.value ∧ d.value.map (·.name) = e.values.map (fun v => some v.name.value) ∧
      d.value.map (·.number) = e.values.map (fun v => some v.number.toInt) ∧
      ∀ v ∈ e.values, -(2 ^ 31) ≤ v.number.toInt ∧ v.number.toInt ≤ 2 ^ 31 - 1 := by
  refine forTree h fun f ht hm => ⟨hm.paired, fun p e d hat => ?_⟩
  obtain ⟨hd, he⟩ := hm.enumAt hat
  subst hd
  simp only [Gen.enumErrs, enumValueErrs, List.append_eq_nil_iff, List.flatMap_eq_nil_iff] at he
  have key : ∀ v ∈ e.values, v.number.asI32 = some v.number.toInt := by
    intro v hv
    exact (enumNumber_ok (he.1.1 v hv).1).1
  refine ⟨rfl, by simp [enumDesc, enumValueDesc], ?_, fun v hv => ?_⟩
  · simp only [enumDesc, List.map_map]
    exact List.map_congr_left fun v hv => key v hv
  · exact (enumNumber_ok (he.1.1 v hv).1).2

/-- C52 (services): the names of the service and of its methods, the input and output types and the streaming flags. -/
theorem C52_services {name src : Bytes} {fd} (h : parse name src = some (.ok fd)) :
    ForTree src fun f => Paired f fd ∧ ∀ p s d, ServiceAt f fd p s d →
      d.name = some s.name.value ∧ d.method.length = s.methods.length ∧
      ∀ (i : Nat) x y, s.methods[i]? = some x → d.method[i]? = some y →
        y.name = some x.name.value ∧ y.inputType = some (typeText x.inputTy) ∧
        y.outputType = some (typeText x.outputTy) ∧
        y.clientStreaming = (if x.clientStreaming.isSome then some true else none) ∧
        y.serverStreaming = (if x.serverStreaming.isSome then some true else none) := by
  refine forTree h fun f ht hm => ⟨hm.paired, fun p s d hat => ?_⟩
  obtain ⟨hd, he⟩ := hm.serviceAt hat
  subst hd
  refine ⟨rfl, by simp [serviceDesc], fun i x y hx hy => ?_⟩
  simp only [serviceDesc, List.getElem?_map, hx, Option.map_some, Option.some.injEq] at hy
  subst hy
  refine ⟨rfl, ?_, ?_, rfl, rfl⟩
  · simp only [methodDesc]; rw [typeText_eq]
  · simp only [methodDesc]; rw [typeText_eq]

end

namespace Demo
set_option synthInstance.maxHeartbeats 400000
set_option synthInstance.maxSize 1000
/-- Something about the descriptor of an accepted source. -/
def ofFile {α : Type} (src : Bytes) (g : FileDescriptorProto → α) : Option α :=
  match parse b!"a.proto" src with
  | some (.ok fd) => some (g fd)
  | _ => none

theorem ofFile_ok {α : Type} {src : Bytes} {g : FileDescriptorProto → α} {x : α} (h : ofFile src g = some x) :
    ∃ fd, parse b!"a.proto" src = some (.ok fd) ∧ g fd = x := by
  unfold ofFile at h
  split at h
  · rename_i fd hp; cases h; exact ⟨fd, hp, rfl⟩
  · cases h

/-- A proto2 file with groups, extensions, oneofs, ranges and options. -/
def file2 : Bytes := b!"package a.b; import public \"x.proto\"; import \"y.proto\"; import weak \"z.proto\"; option java_package = \"p\";
message M { required uint32 n = 1 [default = 7, json_name = \"k\", deprecated = true];
  optional group G = 2 { optional .a.N q = 536870911; } oneof o { string s = 4; bytes b = 5 [default = \"\\001\"]; }
  reserved 10, 12 to 14, 100 to max; reserved \"foo\", \"bar\"; extensions 20 to 30; extend N { repeated sint64 e = 9; } 
  enum E { option allow_alias = true; A = 0; B = -2147483648 [x = 1]; reserved -5 to 7, 9 to max; } }
extend M { optional float f = 20 [default = -1]; }
service S { rpc Do(M) returns (stream .a.N); }"

/-- A proto3 file with optional fields and maps. -/
def file3 : Bytes := b!"syntax = \"proto3\"; message M { optional int32 a = 1; oneof r { int32 b = 2; } optional string _c = 3; map<sint32, M> my_map = 4; repeated bool z = 5; }"

example : ofFile file2 (fun fd => (fd.package, fd.dependency, fd.publicDependency, fd.weakDependency, fd.syntax')) =
    some (some b!"a.b", [b!"x.proto", b!"y.proto", b!"z.proto"], [0], [2], none) := by decide +kernel
example : ofFile file2 (fun fd => fd.messageType.map fun d => (d.name, d.field.map fun f => (f.name, f.number, f.type))) =
    some [(some b!"M", [(some b!"n", some 1, some .uint32), (some b!"g", some 2, some .group),
      (some b!"s", some 4, some .string), (some b!"b", some 5, some .bytes)])] := by decide +kernel
example : ofFile file2 (fun fd => fd.messageType.map fun d => (d.field.map fun f => (f.defaultValue, f.jsonName, f.oneofIndex, f.typeName))) =
    some [[(some b!"7", some b!"k", none, none), (none, none, none, some b!"G"), (none, none, some 0, none),
      (some b!"\\001", none, some 0, none)]] := by decide +kernel
example : ofFile file2 (fun fd => fd.messageType.map fun d => (d.reservedRange, d.reservedName)) =
    some [([⟨some 10, some 11⟩, ⟨some 12, some 15⟩, ⟨some 100, some 536870912⟩], [b!"foo", b!"bar"])] := by decide +kernel
example : ofFile file2 (fun fd => fd.messageType.flatMap fun d => d.enumType.map fun e => (e.name, e.value, e.reservedRange)) =
    some [(some b!"E", [⟨some b!"A", some 0, none⟩, ⟨some b!"B", some (-2147483648),
      some [{ name := [⟨b!"x", false⟩], positiveIntValue := some 1 }]⟩], [⟨some (-5), some 7⟩, ⟨some 9, some 2147483647⟩])] := by
  decide +kernel
example : ofFile file2 (fun fd => fd.extension.map fun f => (f.name, f.extendee, f.label, f.defaultValue)) =
    some [(some b!"f", some b!"M", some .optional, some b!"-1")] := by decide +kernel
example : ofFile file2 (fun fd => fd.service.flatMap fun s => s.method.map fun x => (x.name, x.inputType, x.outputType,
      x.clientStreaming, x.serverStreaming)) =
    some [(some b!"Do", some b!"M", some b!".a.N", none, some true)] := by decide +kernel

example : ofFile file3 (fun fd => fd.messageType.map fun d => (d.oneofDecl.map (·.name),
      d.field.map fun f => (f.label, f.oneofIndex, f.proto3Optional, f.typeName))) =
    some [([some b!"r", some b!"_a", some b!"X_c"],
      [(some .optional, some 1, some true, none), (some .optional, some 0, none, none),
       (some .optional, some 2, some true, none), (some .repeated, none, none, some b!"MyMapEntry"),
       (some .repeated, none, none, none)])] := by decide +kernel
example : ofFile file3 (fun fd => fd.messageType.flatMap fun d => d.nestedType.map fun e => (e.name, e.options, e.field)) =
    some [(some b!"MyMapEntry", some { mapEntry := some true }, entryFields .sint32 (.named ⟨none, ⟨[⟨b!"M", ⟨0, 0⟩⟩]⟩⟩))] := by
  decide +kernel

/-- Files that break a rule are rejected: an enum number, a field number, a default value out of range, a default in
proto3, a group in proto3, `required` in an extension, a missing label, a label in a oneof, a floating point map key. -/
example : (rejects b!"enum E { A = 2147483648; }" && rejects b!"message M { optional int32 a = 536870912; }" &&
    rejects b!"message M { optional uint32 a = 1 [default = -1]; }" &&
    rejects b!"syntax = \"proto3\"; message M { int32 a = 1 [default = 1]; }" &&
    rejects b!"syntax = \"proto3\"; message M { repeated group G = 1 {} }" &&
    rejects b!"extend M { required int32 a = 1; }" && rejects b!"message M { int32 a = 1; }" &&
    rejects b!"message M { oneof o { optional int32 a = 1; } }" &&
    rejects b!"message M { map<float, M> a = 1; }" && rejects b!"option a = -b;" &&
    rejects b!"option a = -9223372036854775809;") = true := by decide +kernel
end Demo
end Verif
