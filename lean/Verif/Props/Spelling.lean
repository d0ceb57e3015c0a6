import Verif.Proofs.Spell4
import Verif.Props.Siblings
/-!
The text at a source location says what the descriptor says: C79.
-/
namespace Verif
open Verif.Spec Verif.Ast Verif.Gen

section
variable [FloatFmt] [LocSort]

/-- What is known about the significant tokens of an accepted source. -/
theorem toks_of_ok {name src : Bytes} {fd} (h : parse name src = some (.ok fd)) : Spell.Toks src := by
  have hmem : ∀ a ∈ annotated src, (some a.tok, a.span) ∈ rawToks 0 src := by
    intro a ha
    have h1 : (a.tok, a.span) ∈ (annotated src).map fun a => (a.tok, a.span) := List.mem_map.2 ⟨a, ha, rfl⟩
    rw [annotated, Pos.annotate_sig] at h1
    obtain ⟨⟨y, sp⟩, hy, he⟩ := List.mem_filterMap.1 (List.mem_filter.1 h1).1
    cases y with
    | none => cases he
    | some t => cases he; exact hy
  refine ⟨annotated_str src, fun a ha => ((C50_spans src).1 _ (hmem a ha)).1, fun a ha => ?_⟩
  obtain ⟨t, h1, h2, -⟩ := C50_texts h _ (hmem a ha)
  cases h1
  exact h2

/-- C79: in an accepted file, the span of every location with a path to a name, a number, a label, a type, a JSON name, a
default (of a string, boolean or integer), a range or one of its bounds, a reserved name, `stream`, an option, an import, the
package or the syntax holds exactly the tokens that spell the value that the descriptor has at that path, and the span of a
message, enum, service, oneof, method, field or enum value has its keyword and its name, or its name and its number, in it. -/
theorem C79_spelled {name src : Bytes} {fd} (h : parse name src = some (.ok fd)) :
    ∃ locs, fd.sourceCodeInfo = some locs ∧ ∀ loc ∈ locs, ∃ s e, s ≤ src.length ∧ e ≤ src.length ∧ (loc.path ≠ [] → s < e) ∧
      loc.span = spanNumbers src s e ∧ fileSays fd loc.path (wordsIn src ⟨s, e⟩) := by
  obtain ⟨f, ts, hp⟩ := parsed_of_ok h
  refine ⟨LocSort.sort ((fileMarks f).map (Mark.loc src)), by rw [hp.desc], fun loc hloc => ?_⟩
  obtain ⟨m, hmk, rfl⟩ := List.mem_map.1 ((LocSort.perm _).mem_iff.1 hloc)
  have ht := hp.tree
  have hm := hp.made
  have H := toks_of_ok h
  have hg := (Pos.parseFile_places hp.run).2
  have hd := described h ht
  have hb : m.span.start ≤ src.length ∧ m.span.stop ≤ src.length ∧ (m.path ≠ [] → m.span.start < m.span.stop) := by
    rcases List.mem_cons.1 hmk with rfl | hmk
    · rcases hp.span with ⟨_, h⟩ | ⟨h1, h2⟩
      · simp only [h]; exact ⟨Nat.le_refl _, Nat.zero_le _, fun h => (h rfl).elim⟩
      · exact ⟨Nat.le_of_lt (Nat.lt_of_lt_of_le h1 h2), h2, fun _ => h1⟩
    · have := hp.marks m hmk
      exact ⟨Nat.le_trans (Nat.le_of_lt this.2.1) this.2.2, this.2.2, fun _ => this.2.1⟩
  refine ⟨m.span.start, m.span.stop, hb.1, hb.2.1, hb.2.2, rfl, ?_⟩
  have hr := (marks_rows hp.made hp.spans m).1 hmk
  show fileSays fd (toRow m).path (wordsIn src (toRow m).span)
  generalize toRow m = r at hr
  cases hr with
  | file hr => exact Spell.file_ok H (Spell.fileG_from hg) hm hd r hr
  | @message p s d r hat hr =>
    exact Spell.msgAt_says hat (Spell.message_ok H (Spell.msgAt_from hg hat) (hd.messageNames _ _ _ hat)
      (fun b hb => described_body h ht hat hb) r hr)
  | @field p pl x d r hat hr =>
    have hf := Spell.fieldAt_from hg hat
    refine Spell.fieldAt_says hat (Spell.field_ok H (Spell.field_words H hf.2) (described_field h ht hat rfl)
      (((C41_labels h).2 f ht).2 _ _ _ _ hat).2.2.2.2 ?_ r hr)
    rintro t rfl
    exact Spell.place_words H hf.1
  | @enum p e d r hat hr =>
    refine Spell.enumAt_says hat ?_
    rw [described_enum h ht hat]
    exact Spell.enum_ok H (Spell.enum_words H (Spell.enumAt_from hg hat)) r hr
  | @service p s d r hat hr =>
    refine Spell.serviceAt_says hat ?_
    rw [described_service h ht hat]
    exact Spell.service_ok H (Spell.service_words H (Spell.serviceAt_from hg hat)) r hr

end

namespace Demo
/-- A declaration of each kind on one line. -/
def spelledSrc : Bytes :=
  b!"message M { repeated .M a = 0x1F [json_name = \"x\" 'y']; reserved 40 to max; } enum E { N = -2; }"

/-- The locations of the parts, each with the words in its span. -/
example : (ofFile spelledSrc fun fd => ((fd.sourceCodeInfo.getD []).filter fun l => l.path.length % 2 == 1).map fun l =>
      (l.path, match l.span with
        | [0, s, e] => wordsIn spelledSrc ⟨s.toNat, e.toNat⟩
        | _ => [])) =
    some [([4, 0, 1], [b!"M"]), ([4, 0, 2, 0, 1], [b!"a"]), ([4, 0, 2, 0, 3], [b!"0x1F"]), ([4, 0, 2, 0, 4], [b!"repeated"]),
      ([4, 0, 2, 0, 6], [b!".", b!"M"]),
      ([4, 0, 2, 0, 8], [b!"[", b!"json_name", b!"=", b!"\"x\"", b!"'y'", b!"]"]),
      ([4, 0, 2, 0, 10], [b!"json_name", b!"=", b!"\"x\"", b!"'y'"]), ([4, 0, 2, 0, 10], [b!"\"x\"", b!"'y'"]),
      ([4, 0, 9], [b!"reserved", b!"40", b!"to", b!"max", b!";"]), ([4, 0, 9, 0, 1], [b!"40"]), ([4, 0, 9, 0, 2], [b!"max"]),
      ([5, 0, 1], [b!"E"]), ([5, 0, 2, 0, 1], [b!"N"]), ([5, 0, 2, 0, 2], [b!"-", b!"2"])] := by
  decide +kernel

/-- What the descriptor says there. -/
example : (ofFile spelledSrc fun fd => fd.messageType.flatMap fun m => m.field.map fun x => (x.name, x.number, x.label)) =
    some [(some b!"a", some 31, some .repeated)] := by
  decide +kernel

example : (ofFile spelledSrc fun fd => fd.messageType.flatMap fun m => m.field.map fun x => (x.typeName, x.jsonName)) =
    some [(some b!".M", some b!"xy")] := by
  decide +kernel

example : (ofFile spelledSrc fun fd => fd.messageType.map fun m => (m.name, m.reservedRange)) =
    some [(some b!"M", [⟨some 40, some 536870912⟩])] := by
  decide +kernel

example : (ofFile spelledSrc fun fd => fd.enumType.flatMap fun e => e.value.map fun v => (e.name, v.name, v.number)) =
    some [(some b!"E", some b!"N", some (-2))] := by
  decide +kernel
/-- Options of a message and of a field, and a default. -/
def spelledOptions : Bytes :=
  b!"message M { option (.a.b).c = -1.5; optional bool x = 1 [default = true, q = \"s\"]; }"

example : (ofFile spelledOptions fun fd => ((fd.sourceCodeInfo.getD []).filter fun l =>
      l.path.contains 999 || l.path.contains 7 && l.path.length == 5).map fun l =>
      (l.path, match l.span with
        | [0, s, e] => wordsIn spelledOptions ⟨s.toNat, e.toNat⟩
        | _ => [])) =
    some [([4, 0, 2, 0, 7], [b!"true"]), ([4, 0, 2, 0, 8, 999, 0], [b!"q", b!"=", b!"\"s\""]),
      ([4, 0, 7, 999, 0], [b!"option", b!"(", b!".", b!"a", b!".", b!"b", b!")", b!".", b!"c", b!"=", b!"-", b!"1.5", b!";"])] := by
  decide +kernel
end Demo
end Verif
