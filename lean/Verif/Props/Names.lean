import Verif.Props.Lexing
import Verif.Props.Descriptor4
/-! C51: accepted imports and names are well-formed. -/
namespace Verif
open Verif.Spec Verif.Ast Verif.Gen Verif.Grammar

section
variable [FloatFmt] [LocSort]

omit [FloatFmt] [LocSort] in
theorem mem_joinWith {sep b : UInt8} : ∀ {cs : List Bytes}, b ∈ joinWith sep cs → b = sep ∨ ∃ c ∈ cs, b ∈ c := by
  intro cs
  fun_induction joinWith sep cs with
  | case1 => nofun
  | case2 c => exact fun h => .inr ⟨c, by simp, h⟩
  | case3 c cs _ ih =>
    intro h
    simp only [List.append_eq, List.mem_append, List.mem_cons] at h
    rcases h with h | h | h
    · exact .inr ⟨c, by simp, h⟩
    · exact .inl h
    · rcases ih h with h | ⟨d, hd, h⟩
      · exact .inl h
      · exact .inr ⟨d, by simp [hd], h⟩

/-- C51 (imports): imported paths are made of components separated by `/`, none of them empty, `.` or `..`, and contain
no backslash. -/
theorem C51_imports {name src : Bytes} {fd} (h : parse name src = some (.ok fd)) : ∀ d ∈ fd.dependency,
    (92 : UInt8) ∉ d ∧ ∀ c ∈ splitAt 47 d, c ≠ [] ∧ c ≠ b!"." ∧ c ≠ b!".." := by
  intro d hd
  obtain ⟨f, ts, hp⟩ := parsed_of_ok h
  have : fd.dependency = (fileDesc name f).dependency := by rw [← hp.made.desc]
  rw [this] at hd
  obtain ⟨i, hi, rfl⟩ := List.mem_map.1 hd
  obtain ⟨t, ht, hg⟩ := (fileG_from hp.gram).imports i hi
  cases hg with
  | mk h1 h2 h3 =>
    obtain ⟨cs, hne, rfl, hc⟩ := h3
    rw [splitAt_joinWith 47 cs hne fun c hcs => (hc c hcs).2.2.2.2]
    refine ⟨fun hb => ?_, fun c hcs => ⟨(hc c hcs).1, (hc c hcs).2.1, (hc c hcs).2.2.1⟩⟩
    rcases mem_joinWith hb with h | ⟨c, hcs, hb⟩
    · cases h
    · exact (hc c hcs).2.2.2.1 hb

theorem aField_group {t : List Token} {x : Field} (h : AField t x) {sp b} (hk : x.kind = .group sp b) : GroupName x.name.value := by
  obtain ⟨d, h⟩ := h
  cases h with
  | normal => cases hk
  | map => cases hk
  | group h1 h2 h3 h4 h5 h6 => exact h3

/-- C51 (groups): the name of a group is an identifier that begins with an upper-case letter; the field is named by it
in lower case. -/
theorem C51_groups {name src : Bytes} {fd} (h : parse name src = some (.ok fd)) :
    ∀ x, FieldIn fd x → x.type = some .group →
      ∃ n, x.typeName = some n ∧ GroupName n ∧ x.name = some (n.map toLower) := by
  intro x hx hty
  obtain ⟨f, ts, hp⟩ := parsed_of_ok h
  have hm := hp.made
  rcases hm.fieldIn hx with ⟨p, pl, y, hat⟩ | ⟨p, g, k, v, e, hat, hx⟩
  · obtain ⟨h1, _, h3, h4, _⟩ := field_parts hm hat
    cases hk : y.kind with
    | normal t sp =>
      rw [hk] at h3
      have ht : x.type = t.protoTy := h3
      rw [hty] at ht
      cases t <;> cases ht
    | map => rw [hk, hty] at h3; cases h3
    | group sp b =>
      rw [hk] at h1 h4
      obtain ⟨t, ht, hf⟩ := (fieldAt_from hp.gram hat).2
      exact ⟨_, h4, aField_group hf hk, h1⟩
  · rw [(hm.msgAt hat).1] at hx
    have key : ∀ t : Ty, t.protoTy ≠ some .group := by intro t; cases t <;> nofun
    simp only [srcDesc, entryOf, mapEntry, List.mem_cons, List.not_mem_nil, or_false] at hx
    rcases hx with rfl | rfl <;> exact absurd hty (key _)

omit [LocSort] in
theorem reserved_idents {ts : List Token} {rs : List Reserved} (h : ∀ r ∈ rs, From ts ReservedG r) :
    ∀ n ∈ reservedNames rs, utf8Valid n = true ∧
      ∃ b r, n = b :: r ∧ isAlpha b = true ∧ ∀ c ∈ r, isAlnum c = true ∨ c = 95 := by
  intro n hn
  obtain ⟨r, hr, hn⟩ := List.mem_flatMap.1 hn
  obtain ⟨t, ht, hg⟩ := h r hr
  cases hg with
  | ranges => cases hn
  | names hs =>
    obtain ⟨i, hi, rfl⟩ := List.mem_map.1 hn
    obtain ⟨_, _, h1, h2⟩ := sepBy_mem hs i hi
    exact ⟨h1.2, h2⟩

/-- C51 (reserved names): every reserved name of a message or enum is an identifier (as implemented it may not begin
with an underscore). -/
theorem C51_reserved {name src : Bytes} {fd} (h : parse name src = some (.ok fd)) :
    ∀ n, ((∃ d, MsgIn fd d ∧ n ∈ d.reservedName) ∨ ∃ e, EnumIn fd e ∧ n ∈ e.reservedName) →
      ∃ b r, n = b :: r ∧ isAlpha b = true ∧ ∀ c ∈ r, isAlnum c = true ∨ c = 95 := by
  intro n hn
  obtain ⟨f, ts, hp⟩ := parsed_of_ok h
  have hm := hp.made
  rcases hn with ⟨d, hd, hn⟩ | ⟨e, he, hn⟩
  · obtain ⟨p, s, hat⟩ := hm.msgIn hd
    cases hb : s.body with
    | none => rw [(hm.paired.entry p s d hat hb).2.2.2.2.2.2.2] at hn; cases hn
    | some b =>
      rw [(hm.msgAt hat).1, (srcDesc_body (s := f.syntax') hb).2.2.2.2.2.2.2.1, allNames_eq] at hn
      exact (reserved_idents (srcFrom_body (msgAt_from hp.gram hat) hb).reserved n hn).2
  · obtain ⟨p, x, hat⟩ := hm.enumIn he
    rw [(hm.enumAt hat).1] at hn
    have hn : n ∈ reservedNames x.reserved := by rw [← allNames_eq]; exact hn
    obtain ⟨t, ht, hg⟩ := enumAt_from hp.gram hat
    exact (reserved_idents (fun r hr => ((enumG_from hg).2.2 r hr).mono ht) n hn).2

/-- The token sequence of a statement at the top level of a file, other than `syntax`. -/
def IsStatement (t : List Token) : Prop := ∃ a b, StatementG t a b

/-- The statement is a `package` statement. -/
def isPackage (t : List Token) : Bool := t.head? == some (kw b!"package")

omit [LocSort] in
theorem statement_package {t : List Token} {a b : Parts} (h : StatementG t a b) :
    if isPackage t then a.package = none ∧ b.package.isSome = true else b.package = a.package := by
  cases h with
  | package h1 h2 => cases h1; exact ⟨h2, rfl⟩
  | import' h1 => cases h1; rfl
  | option h1 => cases h1; rfl
  | message h1 => cases h1; rfl
  | enum h1 => cases h1; rfl
  | extend h1 => cases h1; rfl
  | service h1 => cases h1; rfl
  | empty => rfl

omit [LocSort] in
theorem statements_package {ts : List Token} {a b : Parts} (h : Many StatementG ts a b) :
    ∃ ss : List (List Token), ts = ss.flatten ∧ (∀ t ∈ ss, IsStatement t) ∧
      (a.package.isSome = true → (ss.filter isPackage) = [] ∧ b.package = a.package) ∧
      (a.package = none → (ss.filter isPackage).length = if b.package.isSome then 1 else 0) := by
  induction h with
  | @nil a =>
    refine ⟨[], rfl, nofun, fun _ => ⟨rfl, rfl⟩, fun h => ?_⟩
    rw [h]; rfl
  | @cons t ts a b c h1 _ ih =>
    obtain ⟨ss, rfl, hs, i1, i2⟩ := ih
    have hp := statement_package h1
    refine ⟨t :: ss, rfl, ?_, ?_, ?_⟩
    · intro x hx
      rcases List.mem_cons.1 hx with rfl | hx
      · exact ⟨_, _, h1⟩
      · exact hs x hx
    · intro ha
      by_cases ht : isPackage t = true
      · rw [if_pos ht] at hp; rw [hp.1] at ha; cases ha
      · rw [if_neg ht] at hp
        rw [← hp] at ha
        rw [List.filter_cons_of_neg ht, (i1 ha).1, (i1 ha).2, hp]
        exact ⟨rfl, rfl⟩
    · intro ha
      by_cases ht : isPackage t = true
      · rw [if_pos ht] at hp
        rw [List.filter_cons_of_pos ht, (i1 hp.2).1, (i1 hp.2).2, hp.2]
        rfl
      · rw [if_neg ht] at hp
        rw [List.filter_cons_of_neg ht, i2 (hp.trans ha)]

/-- C51 (package): the tokens of an accepted source are an optional `syntax` statement followed by statements, of which
at most one is a `package` statement (exactly one if the descriptor has a package). -/
theorem C51_package {name src : Bytes} {fd} (h : parse name src = some (.ok fd)) :
    ∃ (pre : List Token) (ss : List (List Token)), (pre = [] ∨ ∃ s, SyntaxG pre s) ∧ tokensOf src = pre ++ ss.flatten ∧
      (∀ t ∈ ss, IsStatement t) ∧ (ss.filter isPackage).length = if fd.package.isSome then 1 else 0 := by
  obtain ⟨f, ts, hp⟩ := parsed_of_ok h
  rw [tokensOf_ok hp]
  have hpk : fd.package.isSome = f.package.isSome := by
    have : fd.package = (fileDesc name f).package := by rw [← hp.made.desc]
    rw [this]
    simp only [fileDesc]
    cases f.package <;> rfl
  rw [hpk]
  have hg := hp.gram
  generalize Parse.bare ts = us at hg
  cases hg with
  | noSyntax hm =>
    obtain ⟨ss, h1, h2, _, h3⟩ := statements_package hm
    exact ⟨[], ss, .inl rfl, h1, h2, h3 rfl⟩
  | withSyntax hs hm =>
    obtain ⟨ss, h1, h2, _, h3⟩ := statements_package hm
    exact ⟨_, ss, .inr ⟨_, hs⟩, by rw [h1], h2, h3 rfl⟩

end

namespace Demo
set_option synthInstance.maxHeartbeats 400000
set_option synthInstance.maxSize 1000

/-- A source with literals of every sort, concatenated strings, escapes, comments, a bytes default and aggregates. -/
def fileL : Bytes := b!"/* c */ import \"a/\" 'b.proto'; // x
option (s) = \"q\\x41'\\u00e9\" '\\n'; option n = 0x1F; option o = 017; option m = -18446744073709551615e0;
option (a) = { x: 1 y { z: \"a\\001\" } # end
 w: [0x10, .5] };
message M { optional bytes b = 1 [default = \"\\000\" \"'\\377\"]; optional string s = 2 [default = 'a' \"b\"];
 optional group Grp = 3 { } reserved \"ab\" '_c', \"x_1\"; }"

example : ofFile fileL (fun fd => (fd.dependency, fd.options)) = some ([b!"a/b.proto"], some [
    { name := [⟨b!"s", true⟩], stringValue := some (b!"qA'" ++ [0xc3, 0xa9, 10]) },
    { name := [⟨b!"n", false⟩], positiveIntValue := some 31 },
    { name := [⟨b!"o", false⟩], positiveIntValue := some 15 },
    { name := [⟨b!"m", false⟩], doubleValue := some (.lit true b!"18446744073709551615e0") },
    { name := [⟨b!"a", true⟩], aggregateValue := some b!"x : 1 y { z : \"a\\x01\" } w : [ 16 , .5 ]" }]) := by decide +kernel
example : ofFile fileL (fun fd => fd.messageType.map fun d => (d.reservedName, d.field.map fun x => (x.name, x.type, x.defaultValue))) =
    some [([b!"ab_c", b!"x_1"], [(some b!"b", some .bytes, some b!"\\000\\'\\377"), (some b!"s", some .string, some b!"ab"),
      (some b!"grp", some .group, none)])] := by decide +kernel

/-- Literals at the boundary of 64 bits. -/
example : (accepts b!"option a = 18446744073709551615;" && rejects b!"option a = 18446744073709551616;" &&
    accepts b!"option a = 0xffffffffffffffff;" && rejects b!"option a = 0x10000000000000000;" &&
    accepts b!"option a = 01777777777777777777777;" && rejects b!"option a = 02000000000000000000000;") = true := by decide +kernel

/-- Badly written strings, imports and names are rejected. -/
example : (rejects b!"option a = \"x;" && rejects b!"option a = \"\\q\";" && rejects b!"option a = \"\\ud800\";" &&
    rejects b!"import \"a//b\";" && rejects b!"import \"../b\";" && rejects b!"import \"a\\\\b\";" && rejects b!"import \"\";" &&
    rejects b!"message M { optional group g = 1 {} }" && rejects b!"message M { reserved \"1a\"; }" &&
    rejects b!"package a; package b;" && rejects b!"option a = { x: 1 ;" && rejects b!"/* x") = true := by decide +kernel
end Demo
end Verif
