import Verif.Proofs.Events
/-! Inside statements the parser only gives up with a message about a token or the end of the file, or at a piece of the source that is no token. -/
namespace Verif.Exec
open Parse Prog

def Quiet {α : Type} (p : Prog α) : Prop := ∀ w w', exec p w = .stop none w' → w'.head? = some none

theorem quiet_bind {α β : Type} {p : Prog α} {f : α → Prog β} (h : Quiet p) (hf : ∀ a, Quiet (f a)) : Quiet (p >>= f) := by
  intro w w' he
  rw [exec_bind] at he
  cases hp : exec p w with
  | done a v => rw [hp] at he; exact hf a v w' he
  | blamed ex t v => rw [hp] at he; cases he
  | stop r v => rw [hp] at he; cases he; exact h w _ hp
  | oof => rw [hp] at he; cases he

theorem quiet_pure {α : Type} {a : α} : Quiet (pure a : Prog α) := nofun
theorem quiet_bump : Quiet bump := fun w => by
  match w with
  | [] => nofun
  | some _ :: _ => nofun
  | none :: _ => nofun
theorem quiet_leading : Quiet leading := nofun
theorem quiet_trailing {l} : Quiet (trailing l) := nofun
theorem quiet_setTextMode {l} : Quiet (setTextMode l) := nofun
theorem quiet_assertNoPeek : Quiet assertNoPeek := nofun
theorem quiet_panicked {α : Type} : Quiet (.panicked : Prog α) := nofun
theorem quiet_outOfFuel {α : Type} : Quiet (.outOfFuel : Prog α) := nofun
theorem quiet_peek : Quiet peek := fun w => by
  match w with
  | [] => nofun
  | some _ :: _ => nofun
  | none :: _ => intro w' h; cases h; rfl
theorem quiet_peekSkip : Quiet peekSkip := fun w => by
  match w with
  | [] => nofun
  | some _ :: _ => nofun
  | none :: _ => intro w' h; cases h; rfl
theorem quiet_unexpected {α : Type} {ex} : Quiet (unexpected ex : Prog α) := fun w => by
  match w with
  | [] => nofun
  | some _ :: _ => nofun
  | none :: _ => intro w' h; cases h; rfl
theorem quiet_addError {e} (h1 : blame? e = none) (h2 : eof? e = none) : Quiet (addError e) := by
  intro w w' h
  unfold addError exec at h
  rw [h1, h2] at h
  cases h

theorem quiet_loopM {σ β : Type} {step : σ → Prog (Step σ β)} (h : ∀ s, Quiet (step s)) : ∀ n s, Quiet (loopM step n s)
  | 0, _ => quiet_outOfFuel
  | n + 1, s => quiet_bind (h s) fun x => by
    cases x with
    | next s' => exact quiet_loopM h n s'
    | done b => exact quiet_pure

/-- The methods that are known not to give up silently. -/
syntax "q1" : tactic
macro_rules | `(tactic| q1) => `(tactic| exact quiet_pure)

macro "qt" : tactic => `(tactic| repeat' (first
  | assumption
  | with_reducible exact quiet_pure | with_reducible exact quiet_bump | with_reducible exact quiet_leading | with_reducible exact quiet_trailing | with_reducible exact quiet_setTextMode
  | with_reducible exact quiet_assertNoPeek | with_reducible exact quiet_panicked | with_reducible exact quiet_peek | with_reducible exact quiet_peekSkip | with_reducible exact quiet_unexpected
  | exact quiet_addError rfl rfl
  | with_reducible q1
  | with_reducible refine quiet_loopM (fun _ => ?_) _ _
  | with_reducible refine quiet_bind ?_ fun _ => ?_
  | (dsimp only; fail_if_success (done); split)
  | split))

section
variable [FloatFmt]

theorem quiet_expectEq {t} : Quiet (expectEq t) := by unfold expectEq; qt
macro_rules | `(tactic| q1) => `(tactic| with_reducible exact quiet_expectEq)
theorem quiet_parseIdent : Quiet (parseIdent) := by unfold parseIdent; qt
macro_rules | `(tactic| q1) => `(tactic| with_reducible exact quiet_parseIdent)
theorem quiet_parseInt : Quiet (parseInt) := by unfold parseInt; qt
macro_rules | `(tactic| q1) => `(tactic| with_reducible exact quiet_parseInt)
theorem quiet_parseString {F} : Quiet (parseString F) := by unfold parseString stringStep; qt
macro_rules | `(tactic| q1) => `(tactic| with_reducible exact quiet_parseString)
theorem quiet_parseUtf8String {F} : Quiet (parseUtf8String F) := by unfold parseUtf8String; qt
macro_rules | `(tactic| q1) => `(tactic| with_reducible exact quiet_parseUtf8String)
theorem quiet_parseFullIdent {F t} : Quiet (parseFullIdent F t) := by unfold parseFullIdent fullIdentStep; qt
macro_rules | `(tactic| q1) => `(tactic| with_reducible exact quiet_parseFullIdent)
theorem quiet_parseTypeName {F t} : Quiet (parseTypeName F t) := by unfold parseTypeName; qt
macro_rules | `(tactic| q1) => `(tactic| with_reducible exact quiet_parseTypeName)
theorem quiet_parseTextFormat {F} : Quiet (parseTextFormat F) := by unfold parseTextFormat textFormatStep; qt
macro_rules | `(tactic| q1) => `(tactic| with_reducible exact quiet_parseTextFormat)
theorem quiet_parseOptionNamePart {F} : Quiet (parseOptionNamePart F) := by unfold parseOptionNamePart; qt
macro_rules | `(tactic| q1) => `(tactic| with_reducible exact quiet_parseOptionNamePart)
theorem quiet_parseOptionValue {F} : Quiet (parseOptionValue F) := by unfold parseOptionValue; qt
macro_rules | `(tactic| q1) => `(tactic| with_reducible exact quiet_parseOptionValue)
theorem quiet_parseOptionBody {F} : Quiet (parseOptionBody F) := by unfold parseOptionBody optionNameStep; qt
macro_rules | `(tactic| q1) => `(tactic| with_reducible exact quiet_parseOptionBody)
theorem quiet_parseOption {F} : Quiet (parseOption F) := by unfold parseOption; qt
macro_rules | `(tactic| q1) => `(tactic| with_reducible exact quiet_parseOption)
theorem quiet_parseOptionsList {F} : Quiet (parseOptionsList F) := by unfold parseOptionsList optionsListStep; qt
macro_rules | `(tactic| q1) => `(tactic| with_reducible exact quiet_parseOptionsList)
theorem quiet_parseOptOptions {F t} : Quiet (parseOptOptions F t) := by unfold parseOptOptions; qt
macro_rules | `(tactic| q1) => `(tactic| with_reducible exact quiet_parseOptOptions)
theorem quiet_parseReservedRange : Quiet (parseReservedRange) := by unfold parseReservedRange; qt
macro_rules | `(tactic| q1) => `(tactic| with_reducible exact quiet_parseReservedRange)
theorem quiet_parseReservedRanges {F t} : Quiet (parseReservedRanges F t) := by unfold parseReservedRanges reservedRangesStep; qt
macro_rules | `(tactic| q1) => `(tactic| with_reducible exact quiet_parseReservedRanges)
theorem quiet_parseIdentString {F} : Quiet (parseIdentString F) := by unfold parseIdentString; qt
macro_rules | `(tactic| q1) => `(tactic| with_reducible exact quiet_parseIdentString)
theorem quiet_parseReservedNames {F} : Quiet (parseReservedNames F) := by unfold parseReservedNames reservedNamesStep; qt
macro_rules | `(tactic| q1) => `(tactic| with_reducible exact quiet_parseReservedNames)
theorem quiet_parseReserved {F} : Quiet (parseReserved F) := by unfold parseReserved; qt
macro_rules | `(tactic| q1) => `(tactic| with_reducible exact quiet_parseReserved)
theorem quiet_parseExtensions {F} : Quiet (parseExtensions F) := by unfold parseExtensions; qt
macro_rules | `(tactic| q1) => `(tactic| with_reducible exact quiet_parseExtensions)
theorem quiet_parseFieldType {F t} : Quiet (parseFieldType F t) := by unfold parseFieldType; qt
macro_rules | `(tactic| q1) => `(tactic| with_reducible exact quiet_parseFieldType)
theorem quiet_parseMap {F a s l} : Quiet (parseMap F a s l) := by unfold parseMap; qt
macro_rules | `(tactic| q1) => `(tactic| with_reducible exact quiet_parseMap)
theorem quiet_parseGroup {body F a s l} (hb : Quiet body) : Quiet (parseGroup body F a s l) := by unfold parseGroup; qt
macro_rules | `(tactic| q1) => `(tactic| with_reducible exact quiet_parseGroup (by assumption))
theorem quiet_parseNormalField {F a s l} : Quiet (parseNormalField F a s l) := by unfold parseNormalField; qt
macro_rules | `(tactic| q1) => `(tactic| with_reducible exact quiet_parseNormalField)
theorem quiet_parseLabel : Quiet (parseLabel) := by unfold parseLabel; qt
macro_rules | `(tactic| q1) => `(tactic| with_reducible exact quiet_parseLabel)
theorem quiet_parseField {body F} (hb : Quiet body) : Quiet (parseField body F) := by unfold parseField; qt
macro_rules | `(tactic| q1) => `(tactic| with_reducible exact quiet_parseField (by assumption))
theorem quiet_parseEnumValue {F} : Quiet (parseEnumValue F) := by unfold parseEnumValue; qt
macro_rules | `(tactic| q1) => `(tactic| with_reducible exact quiet_parseEnumValue)
theorem quiet_parseEnum {F} : Quiet (parseEnum F) := by unfold parseEnum enumStep; qt
macro_rules | `(tactic| q1) => `(tactic| with_reducible exact quiet_parseEnum)
theorem quiet_parseOneof {body F} (hb : Quiet body) : Quiet (parseOneof body F) := by unfold parseOneof oneofStep; qt
macro_rules | `(tactic| q1) => `(tactic| with_reducible exact quiet_parseOneof (by assumption))
theorem quiet_parseExtend {body F} (hb : Quiet body) : Quiet (parseExtend body F) := by unfold parseExtend extendStep; qt
macro_rules | `(tactic| q1) => `(tactic| with_reducible exact quiet_parseExtend (by assumption))
theorem quiet_parseMessage {body} (hb : Quiet body) : Quiet (parseMessage body) := by unfold parseMessage; qt
macro_rules | `(tactic| q1) => `(tactic| with_reducible exact quiet_parseMessage (by assumption))
theorem quiet_bodyStep {body F a} (hb : Quiet body) : Quiet (bodyStep body F a) := by unfold bodyStep; qt
macro_rules | `(tactic| q1) => `(tactic| with_reducible exact quiet_bodyStep (by assumption))
theorem quiet_parseMessageBody {F} : ∀ d, Quiet (parseMessageBody F d)
  | 0 => quiet_outOfFuel
  | d + 1 => by
    have hb := quiet_parseMessageBody (F := F) d
    unfold parseMessageBody
    qt
macro_rules | `(tactic| q1) => `(tactic| with_reducible exact quiet_parseMessageBody _)
theorem quiet_body {F} : Quiet (parseMessageBody F F) := quiet_parseMessageBody _
theorem quiet_parseStreaming : Quiet (parseStreaming) := by unfold parseStreaming; qt
macro_rules | `(tactic| q1) => `(tactic| with_reducible exact quiet_parseStreaming)
theorem quiet_parseRpc {F} : Quiet (parseRpc F) := by unfold parseRpc methodOptionStep; qt
macro_rules | `(tactic| q1) => `(tactic| with_reducible exact quiet_parseRpc)
theorem quiet_parseService {F} : Quiet (parseService F) := by unfold parseService serviceStep; qt
macro_rules | `(tactic| q1) => `(tactic| with_reducible exact quiet_parseService)
theorem quiet_parsePackage {F} : Quiet (parsePackage F) := by unfold parsePackage; qt
macro_rules | `(tactic| q1) => `(tactic| with_reducible exact quiet_parsePackage)
theorem quiet_parseImport {F} : Quiet (parseImport F) := by unfold parseImport; qt
macro_rules | `(tactic| q1) => `(tactic| with_reducible exact quiet_parseImport)
theorem quiet_parseStatement {F} : Quiet (parseStatement F) := by
  have hb : Quiet (parseMessageBody F F) := quiet_parseMessageBody _
  unfold parseStatement
  qt
theorem quiet_fileProg {F} : ∀ n, Quiet (fileProg F n)
  | 0 => quiet_outOfFuel
  | n + 1 => quiet_bind quiet_parseStatement fun o => by
    cases o with
    | some _ => exact quiet_fileProg n
    | none => exact quiet_pure
end
end Verif.Exec
