import Verif.Proofs.Faults5
/-! Every grammar method reports only what is fair. -/
namespace Verif
open Verif.Spec Verif.Lex Verif.Parse Verif.Exec Verif.Blame
variable [FloatFmt]

/-- The lemma for the method called. -/
syntax "wkl" : tactic
macro_rules | `(tactic| wkl) => `(tactic| assumption)

/-- One step through a method. -/
macro "wks" : tactic => `(tactic| first
  | with_reducible exact weak_unexpected expects_oneOf
  | wkl
  | with_reducible exact weak_peek
  | with_reducible exact weak_peekSkip
  | with_reducible exact weak_bump
  | with_reducible exact weak_leading
  | with_reducible exact weak_trailing
  | with_reducible exact weak_setTextMode
  | with_reducible exact weak_assertNoPeek
  | with_reducible exact weak_panicked
  | with_reducible exact weak_failed
  | with_reducible exact weak_outOfFuel
  | with_reducible exact weak_pure
  | exact weak_unexpected (expects_text (by decide) (by decide))
  | with_reducible refine weak_bind _ ?_ fun _ => ?_
  | with_reducible refine weak_loopM (fun _ => ?_) _ _
  | split)
macro "wkr" : tactic => `(tactic| repeat' wks)

theorem tells_expectEq {src t v} (hv : v <:+ sigToks 0 src) : Tells src (fun sp v' => v = some (t, sp) :: v') (expectEq t) v := by
  intro x hx
  cases x with
  | none => exact tells_unexpected hv expects_oneOf
  | some y =>
    obtain ⟨tok, sp⟩ := y
    show Tells src _ (if tok = t then Prog.bump else unexpected (.oneOf [.token t])) v
    split
    · rename_i h
      subst h
      intro z v' h
      subst h
      cases hx
      rfl
    · exact tells_unexpected hv expects_oneOf

theorem tells_parseIdent {src v} (hv : v <:+ sigToks 0 src) :
    Tells src (fun i v' => v = some (.ident i.value, i.span) :: v') parseIdent v := by
  intro x hx
  cases x with
  | none => exact tells_unexpected hv (expects_text (by decide) (by decide))
  | some y =>
    obtain ⟨tok, sp⟩ := y
    cases tok with
    | ident w =>
      intro z v' h
      subst h
      cases hx
      rfl
    | _ => exact tells_unexpected hv (expects_text (by decide) (by decide))

/-- A string was read: its tokens, and that it is not continued. -/
def ReadStr (v : List (Option STok)) (val : Bytes) (sp : Span) (v' : List (Option STok)) : Prop :=
  ∃ l, v = l ++ v' ∧ Strings l val sp ∧ ∀ w s, v'.head? ≠ some (some (.string w, s))

theorem tells_parseString {src n v} (hv : v <:+ sigToks 0 src) :
    Tells src (fun s v' => ReadStr v s.value s.span v') (parseString n) v := by
  intro x hx
  cases x with
  | none => exact tells_unexpected hv (expects_text (by decide) (by decide))
  | some y =>
    obtain ⟨tok, sp⟩ := y
    cases tok with
    | string w =>
      intro z v' h
      subst h
      cases hx
      refine tells_loopM (I := fun a u => ∃ l, some (.string w, sp) :: v' = l ++ u ∧ Strings l a.value a.span) ?_ n _ _ ⟨_, rfl, .one⟩
      rintro a u ⟨l, h1, h2⟩ x hx
      have done : (∀ w s, u.head? ≠ some (some (.string w, s))) → ReadStr (some (.string w, sp) :: v') a.value a.span u :=
        fun h => ⟨l, h1, h2, h⟩
      cases x with
      | none => exact done fun w s h => by rw [hx] at h; cases h
      | some y =>
        obtain ⟨tok, sp'⟩ := y
        cases tok with
        | string w' =>
          intro z u' h
          subst h
          cases hx
          exact ⟨l ++ [some (.string w', sp')], by rw [h1]; simp, .more h2⟩
        | _ => exact done fun w s h => by rw [hx] at h; cases h
    | _ => exact tells_unexpected hv (expects_text (by decide) (by decide))

theorem stringAt {src v l v' val sp} (hv : v <:+ sigToks 0 src) (h1 : v = l ++ v') (h2 : Strings l val sp)
    (h3 : ∀ w s, v'.head? ≠ some (some (.string w, s))) : StringAt src ((sigToks 0 src).take ((sigToks 0 src).length - v.length)) v' val sp := by
  obtain ⟨pre, hpre⟩ := hv
  refine ⟨⟨l, ?_, h2⟩, h3⟩
  rw [← hpre, List.length_append, Nat.add_sub_cancel, List.take_left', h1, List.append_assoc]
  rfl

theorem tells_parseUtf8String {src n v} (hv : v <:+ sigToks 0 src) :
    Tells src (fun x v' => ReadStr v x.1 x.2 v') (parseUtf8String n) v := by
  refine tells_bind _ (tells_parseString hv) fun s v' ⟨l, h1, h2, h3⟩ => ?_
  split
  · exact ⟨l, h1, h2, h3⟩
  · rename_i hu
    exact ⟨⟨.utf8 (stringAt hv h1 h2 h3) (by simpa using hu), nofun, nofun⟩, l, h1, h2, h3⟩

theorem weak_expectEq {src t} : Weak src (expectEq t) := by
  unfold expectEq
  wkr
macro_rules | `(tactic| wkl) => `(tactic| with_reducible exact weak_expectEq)

theorem weak_parseIdent {src} : Weak src (parseIdent) := by
  unfold parseIdent
  wkr
macro_rules | `(tactic| wkl) => `(tactic| with_reducible exact weak_parseIdent)

theorem weak_parseInt {src} : Weak src (parseInt) := by
  unfold parseInt
  wkr
macro_rules | `(tactic| wkl) => `(tactic| with_reducible exact weak_parseInt)

theorem weak_stringStep {src a} : Weak src (stringStep a) := by
  unfold stringStep
  wkr
macro_rules | `(tactic| wkl) => `(tactic| with_reducible exact weak_stringStep)

theorem weak_parseString {src n} : Weak src (parseString n) := by
  unfold parseString
  wkr
macro_rules | `(tactic| wkl) => `(tactic| with_reducible exact weak_parseString)

theorem weak_parseUtf8String {src n} : Weak src (parseUtf8String n) := fun v hv =>
  (tells_parseUtf8String (n := n) hv).mono fun _ v' ⟨l, h, _⟩ => (show v' <:+ v from ⟨l, h.symm⟩).trans hv
macro_rules | `(tactic| wkl) => `(tactic| with_reducible exact weak_parseUtf8String)

theorem weak_fullIdentStep {src a b} : Weak src (fullIdentStep a b) := by
  unfold fullIdentStep
  wkr
macro_rules | `(tactic| wkl) => `(tactic| with_reducible exact weak_fullIdentStep)

theorem weak_parseFullIdent {src n a} : Weak src (parseFullIdent n a) := by
  unfold parseFullIdent
  wkr
macro_rules | `(tactic| wkl) => `(tactic| with_reducible exact weak_parseFullIdent)

theorem weak_parseTypeName {src n a} : Weak src (parseTypeName n a) := by
  unfold parseTypeName
  wkr
macro_rules | `(tactic| wkl) => `(tactic| with_reducible exact weak_parseTypeName)

theorem weak_textFormatStep {src a} : Weak src (textFormatStep a) := by
  unfold textFormatStep
  wkr
macro_rules | `(tactic| wkl) => `(tactic| with_reducible exact weak_textFormatStep)

theorem weak_parseTextFormat {src n} : Weak src (parseTextFormat n) := by
  unfold parseTextFormat
  wkr
macro_rules | `(tactic| wkl) => `(tactic| with_reducible exact weak_parseTextFormat)

theorem weak_parseOptionNamePart {src n} : Weak src (parseOptionNamePart n) := by
  unfold parseOptionNamePart
  wkr
macro_rules | `(tactic| wkl) => `(tactic| with_reducible exact weak_parseOptionNamePart)

theorem weak_optionNameStep {src n a} : Weak src (optionNameStep n a) := by
  unfold optionNameStep
  wkr
macro_rules | `(tactic| wkl) => `(tactic| with_reducible exact weak_optionNameStep)

theorem weak_parseOptionValue {src n} : Weak src (parseOptionValue n) := by
  unfold parseOptionValue
  wkr
macro_rules | `(tactic| wkl) => `(tactic| with_reducible exact weak_parseOptionValue)

theorem weak_parseOptionBody {src n} : Weak src (parseOptionBody n) := by
  unfold parseOptionBody
  wkr
macro_rules | `(tactic| wkl) => `(tactic| with_reducible exact weak_parseOptionBody)

theorem weak_parseOption {src n} : Weak src (parseOption n) := by
  unfold parseOption
  wkr
macro_rules | `(tactic| wkl) => `(tactic| with_reducible exact weak_parseOption)

theorem weak_optionsListStep {src n a} : Weak src (optionsListStep n a) := by
  unfold optionsListStep
  wkr
macro_rules | `(tactic| wkl) => `(tactic| with_reducible exact weak_optionsListStep)

theorem weak_parseOptionsList {src n} : Weak src (parseOptionsList n) := by
  unfold parseOptionsList
  wkr
macro_rules | `(tactic| wkl) => `(tactic| with_reducible exact weak_parseOptionsList)

theorem weak_parseOptOptions {src n a} : Weak src (parseOptOptions n a) := by
  unfold parseOptOptions
  wkr
macro_rules | `(tactic| wkl) => `(tactic| with_reducible exact weak_parseOptOptions)

theorem weak_parseReservedRange {src} : Weak src (parseReservedRange) := by
  unfold parseReservedRange
  wkr
macro_rules | `(tactic| wkl) => `(tactic| with_reducible exact weak_parseReservedRange)

theorem weak_reservedRangesStep {src a b} : Weak src (reservedRangesStep a b) := by
  unfold reservedRangesStep
  wkr
macro_rules | `(tactic| wkl) => `(tactic| with_reducible exact weak_reservedRangesStep)

theorem weak_parseReservedRanges {src n a} : Weak src (parseReservedRanges n a) := by
  unfold parseReservedRanges
  wkr
macro_rules | `(tactic| wkl) => `(tactic| with_reducible exact weak_parseReservedRanges)

theorem weak_parseIdentString {src n} : Weak src (parseIdentString n) := by
  intro v hv
  refine tells_bind _ (tells_parseUtf8String hv) fun x v' ⟨l, h1, h2, h3⟩ => ?_
  have hv' : v' <:+ sigToks 0 src := (show v' <:+ v from ⟨l, h1.symm⟩).trans hv
  obtain ⟨val, sp⟩ := x
  dsimp only
  split
  · exact hv'
  · rename_i hi
    refine ⟨⟨.identifier (stringAt hv h1 h2 h3) ?_, nofun, nofun⟩, hv'⟩
    rintro ⟨b, r, rfl, hb, hr⟩
    exact hi (by simpa [isValidIdent, hb] using hr)
macro_rules | `(tactic| wkl) => `(tactic| with_reducible exact weak_parseIdentString)

theorem weak_reservedNamesStep {src n a} : Weak src (reservedNamesStep n a) := by
  unfold reservedNamesStep
  wkr
macro_rules | `(tactic| wkl) => `(tactic| with_reducible exact weak_reservedNamesStep)

theorem weak_parseReservedNames {src n} : Weak src (parseReservedNames n) := by
  unfold parseReservedNames
  wkr
macro_rules | `(tactic| wkl) => `(tactic| with_reducible exact weak_parseReservedNames)

theorem weak_parseReserved {src n} : Weak src (parseReserved n) := by
  unfold parseReserved
  wkr
macro_rules | `(tactic| wkl) => `(tactic| with_reducible exact weak_parseReserved)

theorem weak_parseExtensions {src n} : Weak src (parseExtensions n) := by
  unfold parseExtensions
  wkr
macro_rules | `(tactic| wkl) => `(tactic| with_reducible exact weak_parseExtensions)

theorem weak_parseFieldType {src n a} : Weak src (parseFieldType n a) := by
  unfold parseFieldType
  wkr
macro_rules | `(tactic| wkl) => `(tactic| with_reducible exact weak_parseFieldType)

theorem weak_parseMap {src n a b c} : Weak src (parseMap n a b c) := by
  unfold parseMap
  wkr
macro_rules | `(tactic| wkl) => `(tactic| with_reducible exact weak_parseMap)

theorem weak_parseGroup {src} {body : Prog (Ast.MessageBody × Span)} (hb : Weak src body) {n a b c} : Weak src (parseGroup body n a b c) := by
  intro v hv
  refine tells_bind _ (tells_expectEq hv) fun s1 v1 h1 => ?_
  have hv1 : v1 <:+ sigToks 0 src := (show v1 <:+ v from h1 ▸ List.suffix_cons ..).trans hv
  refine tells_bind _ (tells_parseIdent hv1) fun i v2 h2 => ?_
  have hv2 : v2 <:+ sigToks 0 src := (show v2 <:+ v1 from h2 ▸ List.suffix_cons ..).trans hv1
  refine tells_bind (Q := fun _ v' => v' <:+ sigToks 0 src) _ ?_ ?_
  · split
    · exact hv2
    · rename_i hi
      refine ⟨⟨?_, nofun, nofun⟩, hv2⟩
      obtain ⟨pre, hpre⟩ := hv
      refine .groupName (before := pre) (after := v2) (w := i.value) (s1 := s1) ?_ ?_
      · rw [← hpre, h1, h2]
      · rintro ⟨b, r, he, hb, hr⟩
        exact hi (by rw [he]; simpa [isValidGroupName, hb] using hr)
  · intro _
    show Weak src _
    wkr
macro_rules | `(tactic| wkl) => `(tactic| with_reducible refine weak_parseGroup ?_)

theorem weak_parseNormalField {src n a b c} : Weak src (parseNormalField n a b c) := by
  unfold parseNormalField
  wkr
macro_rules | `(tactic| wkl) => `(tactic| with_reducible exact weak_parseNormalField)

theorem weak_parseLabel {src} : Weak src (parseLabel) := by
  unfold parseLabel
  wkr
macro_rules | `(tactic| wkl) => `(tactic| with_reducible exact weak_parseLabel)

theorem weak_parseField {src} {body : Prog (Ast.MessageBody × Span)} (hb : Weak src body) {n} : Weak src (parseField body n) := by
  unfold parseField
  wkr
macro_rules | `(tactic| wkl) => `(tactic| with_reducible refine weak_parseField ?_)

theorem weak_parseEnumValue {src n} : Weak src (parseEnumValue n) := by
  unfold parseEnumValue
  wkr
macro_rules | `(tactic| wkl) => `(tactic| with_reducible exact weak_parseEnumValue)

theorem weak_enumStep {src n a} : Weak src (enumStep n a) := by
  unfold enumStep
  wkr
macro_rules | `(tactic| wkl) => `(tactic| with_reducible exact weak_enumStep)

theorem weak_parseEnum {src n} : Weak src (parseEnum n) := by
  unfold parseEnum
  wkr
macro_rules | `(tactic| wkl) => `(tactic| with_reducible exact weak_parseEnum)

theorem weak_oneofStep {src} {body : Prog (Ast.MessageBody × Span)} (hb : Weak src body) {n a} : Weak src (oneofStep body n a) := by
  unfold oneofStep
  wkr
macro_rules | `(tactic| wkl) => `(tactic| with_reducible refine weak_oneofStep ?_)

theorem weak_parseOneof {src} {body : Prog (Ast.MessageBody × Span)} (hb : Weak src body) {n} : Weak src (parseOneof body n) := by
  unfold parseOneof
  wkr
macro_rules | `(tactic| wkl) => `(tactic| with_reducible refine weak_parseOneof ?_)

theorem weak_extendStep {src} {body : Prog (Ast.MessageBody × Span)} (hb : Weak src body) {n a} : Weak src (extendStep body n a) := by
  unfold extendStep
  wkr
macro_rules | `(tactic| wkl) => `(tactic| with_reducible refine weak_extendStep ?_)

theorem weak_parseExtend {src} {body : Prog (Ast.MessageBody × Span)} (hb : Weak src body) {n} : Weak src (parseExtend body n) := by
  unfold parseExtend
  wkr
macro_rules | `(tactic| wkl) => `(tactic| with_reducible refine weak_parseExtend ?_)

theorem weak_parseMessage {src} {body : Prog (Ast.MessageBody × Span)} (hb : Weak src body) : Weak src (parseMessage body) := by
  unfold parseMessage
  wkr
macro_rules | `(tactic| wkl) => `(tactic| with_reducible refine weak_parseMessage ?_)

theorem weak_bodyStep {src} {body : Prog (Ast.MessageBody × Span)} (hb : Weak src body) {n a} : Weak src (bodyStep body n a) := by
  unfold bodyStep
  wkr
macro_rules | `(tactic| wkl) => `(tactic| with_reducible refine weak_bodyStep ?_)

theorem weak_parseMessageBody {src n} : ∀ {d}, Weak src (parseMessageBody n d)
  | 0 => fun _ _ => trivial
  | _ + 1 => weak_loopM (fun _ => weak_bodyStep weak_parseMessageBody) _ _
macro_rules | `(tactic| wkl) => `(tactic| with_reducible exact weak_parseMessageBody)

theorem weak_parseStreaming {src} : Weak src (parseStreaming) := by
  unfold parseStreaming
  wkr
macro_rules | `(tactic| wkl) => `(tactic| with_reducible exact weak_parseStreaming)

theorem weak_methodOptionStep {src n a} : Weak src (methodOptionStep n a) := by
  unfold methodOptionStep
  wkr
macro_rules | `(tactic| wkl) => `(tactic| with_reducible exact weak_methodOptionStep)

theorem weak_parseRpc {src n} : Weak src (parseRpc n) := by
  unfold parseRpc
  wkr
macro_rules | `(tactic| wkl) => `(tactic| with_reducible exact weak_parseRpc)

theorem weak_serviceStep {src n a} : Weak src (serviceStep n a) := by
  unfold serviceStep
  wkr
macro_rules | `(tactic| wkl) => `(tactic| with_reducible exact weak_serviceStep)

theorem weak_parseService {src n} : Weak src (parseService n) := by
  unfold parseService
  wkr
macro_rules | `(tactic| wkl) => `(tactic| with_reducible exact weak_parseService)

end Verif
