import Verif.Proofs.Blame
/-! Every grammar method reports only the token it has just looked at as unexpected. -/
namespace Verif.Blame
open Parse

/-- The lemma for the method called. -/
syntax "ual" : tactic
macro_rules | `(tactic| ual) => `(tactic| assumption)

theorem ua_unexpected {α : Type} {ex : Expect} : ua none (unexpected ex : Prog α) := by
  intro x
  cases x with
  | none => exact ⟨⟨nofun, nofun⟩, trivial⟩
  | some y => exact ⟨⟨fun ex t s hs => (by cases hs; exact ⟨rfl, rfl⟩), nofun⟩, trivial⟩

theorem ua_addError {e : ParseErrorKind} (h : ∀ ex t s, e ≠ .unexpectedToken ex t s) (h' : ∀ s, e ≠ .invalidToken s) :
    ua none (Prog.addError e) := ⟨⟨fun ex t s hs => absurd hs (h ex t s), h'⟩, trivial⟩

theorem ua_peek : ua none Prog.peek := fun _ => trivial
theorem ua_peekSkip : ua none Prog.peekSkip := fun _ => trivial
theorem ua_bump : ua none Prog.bump := fun _ => trivial
theorem ua_leading : ua none Prog.leading := fun _ => trivial
theorem ua_trailing {l} : ua none (Prog.trailing l) := fun _ => trivial
theorem ua_setTextMode {b} : ua none (Prog.setTextMode b) := trivial
theorem ua_assertNoPeek : ua none Prog.assertNoPeek := trivial
theorem ua_pure {α : Type} {a : α} : ua none (pure a : Prog α) := trivial

/-- One step through a method. -/
macro "uas" : tactic => `(tactic| first
  | with_reducible exact ua_unexpected
  | ual
  | trivial
  | with_reducible exact ua_peek
  | with_reducible exact ua_peekSkip
  | with_reducible exact ua_bump
  | with_reducible exact ua_leading
  | with_reducible exact ua_trailing
  | with_reducible exact ua_setTextMode
  | with_reducible exact ua_assertNoPeek
  | with_reducible exact ua_addError (fun _ _ _ h => by cases h) (fun _ h => by cases h)
  | with_reducible exact ua_pure
  | with_reducible refine ua_bind _ ?_ fun _ => ?_
  | with_reducible refine ua_loopM (fun _ => ?_) _ _
  | split)
macro "uar" : tactic => `(tactic| repeat' uas)

theorem ua_expectEq {t} : ua none (expectEq t) := by
  unfold expectEq
  uar
macro_rules | `(tactic| ual) => `(tactic| with_reducible exact ua_expectEq)

theorem ua_parseIdent : ua none (parseIdent) := by
  unfold parseIdent
  uar
macro_rules | `(tactic| ual) => `(tactic| with_reducible exact ua_parseIdent)

theorem ua_parseInt : ua none (parseInt) := by
  unfold parseInt
  uar
macro_rules | `(tactic| ual) => `(tactic| with_reducible exact ua_parseInt)

theorem ua_stringStep {a} : ua none (stringStep a) := by
  unfold stringStep
  uar
macro_rules | `(tactic| ual) => `(tactic| with_reducible exact ua_stringStep)

theorem ua_parseString {n} : ua none (parseString n) := by
  unfold parseString
  uar
macro_rules | `(tactic| ual) => `(tactic| with_reducible exact ua_parseString)

theorem ua_parseUtf8String {n} : ua none (parseUtf8String n) := by
  unfold parseUtf8String
  uar
macro_rules | `(tactic| ual) => `(tactic| with_reducible exact ua_parseUtf8String)

theorem ua_fullIdentStep {a b} : ua none (fullIdentStep a b) := by
  unfold fullIdentStep
  uar
macro_rules | `(tactic| ual) => `(tactic| with_reducible exact ua_fullIdentStep)

theorem ua_parseFullIdent {n a} : ua none (parseFullIdent n a) := by
  unfold parseFullIdent
  uar
macro_rules | `(tactic| ual) => `(tactic| with_reducible exact ua_parseFullIdent)

theorem ua_parseTypeName {n a} : ua none (parseTypeName n a) := by
  unfold parseTypeName
  uar
macro_rules | `(tactic| ual) => `(tactic| with_reducible exact ua_parseTypeName)

theorem ua_textFormatStep [FloatFmt] {a} : ua none (textFormatStep a) := by
  unfold textFormatStep
  uar
macro_rules | `(tactic| ual) => `(tactic| with_reducible exact ua_textFormatStep)

theorem ua_parseTextFormat [FloatFmt] {n} : ua none (parseTextFormat n) := by
  unfold parseTextFormat
  uar
macro_rules | `(tactic| ual) => `(tactic| with_reducible exact ua_parseTextFormat)

theorem ua_parseOptionNamePart {n} : ua none (parseOptionNamePart n) := by
  unfold parseOptionNamePart
  uar
macro_rules | `(tactic| ual) => `(tactic| with_reducible exact ua_parseOptionNamePart)

theorem ua_optionNameStep {n a} : ua none (optionNameStep n a) := by
  unfold optionNameStep
  uar
macro_rules | `(tactic| ual) => `(tactic| with_reducible exact ua_optionNameStep)

theorem ua_parseOptionValue [FloatFmt] {n} : ua none (parseOptionValue n) := by
  unfold parseOptionValue
  uar
macro_rules | `(tactic| ual) => `(tactic| with_reducible exact ua_parseOptionValue)

theorem ua_parseOptionBody [FloatFmt] {n} : ua none (parseOptionBody n) := by
  unfold parseOptionBody
  uar
macro_rules | `(tactic| ual) => `(tactic| with_reducible exact ua_parseOptionBody)

theorem ua_parseOption [FloatFmt] {n} : ua none (parseOption n) := by
  unfold parseOption
  uar
macro_rules | `(tactic| ual) => `(tactic| with_reducible exact ua_parseOption)

theorem ua_optionsListStep [FloatFmt] {n a} : ua none (optionsListStep n a) := by
  unfold optionsListStep
  uar
macro_rules | `(tactic| ual) => `(tactic| with_reducible exact ua_optionsListStep)

theorem ua_parseOptionsList [FloatFmt] {n} : ua none (parseOptionsList n) := by
  unfold parseOptionsList
  uar
macro_rules | `(tactic| ual) => `(tactic| with_reducible exact ua_parseOptionsList)

theorem ua_parseOptOptions [FloatFmt] {n a} : ua none (parseOptOptions n a) := by
  unfold parseOptOptions
  uar
macro_rules | `(tactic| ual) => `(tactic| with_reducible exact ua_parseOptOptions)

theorem ua_parseReservedRange : ua none (parseReservedRange) := by
  unfold parseReservedRange
  uar
macro_rules | `(tactic| ual) => `(tactic| with_reducible exact ua_parseReservedRange)

theorem ua_reservedRangesStep {a b} : ua none (reservedRangesStep a b) := by
  unfold reservedRangesStep
  uar
macro_rules | `(tactic| ual) => `(tactic| with_reducible exact ua_reservedRangesStep)

theorem ua_parseReservedRanges {n a} : ua none (parseReservedRanges n a) := by
  unfold parseReservedRanges
  uar
macro_rules | `(tactic| ual) => `(tactic| with_reducible exact ua_parseReservedRanges)

theorem ua_parseIdentString {n} : ua none (parseIdentString n) := by
  unfold parseIdentString
  uar
macro_rules | `(tactic| ual) => `(tactic| with_reducible exact ua_parseIdentString)

theorem ua_reservedNamesStep {n a} : ua none (reservedNamesStep n a) := by
  unfold reservedNamesStep
  uar
macro_rules | `(tactic| ual) => `(tactic| with_reducible exact ua_reservedNamesStep)

theorem ua_parseReservedNames {n} : ua none (parseReservedNames n) := by
  unfold parseReservedNames
  uar
macro_rules | `(tactic| ual) => `(tactic| with_reducible exact ua_parseReservedNames)

theorem ua_parseReserved {n} : ua none (parseReserved n) := by
  unfold parseReserved
  uar
macro_rules | `(tactic| ual) => `(tactic| with_reducible exact ua_parseReserved)

theorem ua_parseExtensions [FloatFmt] {n} : ua none (parseExtensions n) := by
  unfold parseExtensions
  uar
macro_rules | `(tactic| ual) => `(tactic| with_reducible exact ua_parseExtensions)

theorem ua_parseFieldType {n a} : ua none (parseFieldType n a) := by
  unfold parseFieldType
  uar
macro_rules | `(tactic| ual) => `(tactic| with_reducible exact ua_parseFieldType)

theorem ua_parseMap [FloatFmt] {n a b c} : ua none (parseMap n a b c) := by
  unfold parseMap
  uar
macro_rules | `(tactic| ual) => `(tactic| with_reducible exact ua_parseMap)

theorem ua_parseGroup [FloatFmt] {body : Prog (Ast.MessageBody × Span)} (hb : ua none body) {n a b c} : ua none (parseGroup body n a b c) := by
  unfold parseGroup
  uar
macro_rules | `(tactic| ual) => `(tactic| with_reducible refine ua_parseGroup ?_)

theorem ua_parseNormalField [FloatFmt] {n a b c} : ua none (parseNormalField n a b c) := by
  unfold parseNormalField
  uar
macro_rules | `(tactic| ual) => `(tactic| with_reducible exact ua_parseNormalField)

theorem ua_parseLabel : ua none (parseLabel) := by
  unfold parseLabel
  uar
macro_rules | `(tactic| ual) => `(tactic| with_reducible exact ua_parseLabel)

theorem ua_parseField [FloatFmt] {body : Prog (Ast.MessageBody × Span)} (hb : ua none body) {n} : ua none (parseField body n) := by
  unfold parseField
  uar
macro_rules | `(tactic| ual) => `(tactic| with_reducible refine ua_parseField ?_)

theorem ua_parseEnumValue [FloatFmt] {n} : ua none (parseEnumValue n) := by
  unfold parseEnumValue
  uar
macro_rules | `(tactic| ual) => `(tactic| with_reducible exact ua_parseEnumValue)

theorem ua_enumStep [FloatFmt] {n a} : ua none (enumStep n a) := by
  unfold enumStep
  uar
macro_rules | `(tactic| ual) => `(tactic| with_reducible exact ua_enumStep)

theorem ua_parseEnum [FloatFmt] {n} : ua none (parseEnum n) := by
  unfold parseEnum
  uar
macro_rules | `(tactic| ual) => `(tactic| with_reducible exact ua_parseEnum)

theorem ua_oneofStep [FloatFmt] {body : Prog (Ast.MessageBody × Span)} (hb : ua none body) {n a} : ua none (oneofStep body n a) := by
  unfold oneofStep
  uar
macro_rules | `(tactic| ual) => `(tactic| with_reducible refine ua_oneofStep ?_)

theorem ua_parseOneof [FloatFmt] {body : Prog (Ast.MessageBody × Span)} (hb : ua none body) {n} : ua none (parseOneof body n) := by
  unfold parseOneof
  uar
macro_rules | `(tactic| ual) => `(tactic| with_reducible refine ua_parseOneof ?_)

theorem ua_extendStep [FloatFmt] {body : Prog (Ast.MessageBody × Span)} (hb : ua none body) {n a} : ua none (extendStep body n a) := by
  unfold extendStep
  uar
macro_rules | `(tactic| ual) => `(tactic| with_reducible refine ua_extendStep ?_)

theorem ua_parseExtend [FloatFmt] {body : Prog (Ast.MessageBody × Span)} (hb : ua none body) {n} : ua none (parseExtend body n) := by
  unfold parseExtend
  uar
macro_rules | `(tactic| ual) => `(tactic| with_reducible refine ua_parseExtend ?_)

theorem ua_parseMessage {body : Prog (Ast.MessageBody × Span)} (hb : ua none body) : ua none (parseMessage body) := by
  unfold parseMessage
  uar
macro_rules | `(tactic| ual) => `(tactic| with_reducible refine ua_parseMessage ?_)

theorem ua_bodyStep [FloatFmt] {body : Prog (Ast.MessageBody × Span)} (hb : ua none body) {n a} : ua none (bodyStep body n a) := by
  unfold bodyStep
  uar
macro_rules | `(tactic| ual) => `(tactic| with_reducible refine ua_bodyStep ?_)

theorem ua_parseMessageBody [FloatFmt] {n} : ∀ {d}, ua none (parseMessageBody n d)
  | 0 => trivial
  | _ + 1 => ua_loopM (fun _ => ua_bodyStep ua_parseMessageBody) _ _
macro_rules | `(tactic| ual) => `(tactic| with_reducible exact ua_parseMessageBody)

theorem ua_parseStreaming : ua none (parseStreaming) := by
  unfold parseStreaming
  uar
macro_rules | `(tactic| ual) => `(tactic| with_reducible exact ua_parseStreaming)

theorem ua_methodOptionStep [FloatFmt] {n a} : ua none (methodOptionStep n a) := by
  unfold methodOptionStep
  uar
macro_rules | `(tactic| ual) => `(tactic| with_reducible exact ua_methodOptionStep)

theorem ua_parseRpc [FloatFmt] {n} : ua none (parseRpc n) := by
  unfold parseRpc
  uar
macro_rules | `(tactic| ual) => `(tactic| with_reducible exact ua_parseRpc)

theorem ua_serviceStep [FloatFmt] {n a} : ua none (serviceStep n a) := by
  unfold serviceStep
  uar
macro_rules | `(tactic| ual) => `(tactic| with_reducible exact ua_serviceStep)

theorem ua_parseService [FloatFmt] {n} : ua none (parseService n) := by
  unfold parseService
  uar
macro_rules | `(tactic| ual) => `(tactic| with_reducible exact ua_parseService)

theorem ua_parsePackage {n} : ua none (parsePackage n) := by
  unfold parsePackage
  uar
macro_rules | `(tactic| ual) => `(tactic| with_reducible exact ua_parsePackage)

theorem ua_parseImport {n} : ua none (parseImport n) := by
  unfold parseImport
  uar
macro_rules | `(tactic| ual) => `(tactic| with_reducible exact ua_parseImport)

theorem ua_parseSyntax {n} : ua none (parseSyntax n) := by
  unfold parseSyntax
  uar
macro_rules | `(tactic| ual) => `(tactic| with_reducible exact ua_parseSyntax)

theorem ua_parseStatement [FloatFmt] {n} : ua none (parseStatement n) := by
  unfold parseStatement
  uar
macro_rules | `(tactic| ual) => `(tactic| with_reducible exact ua_parseStatement)

theorem ua_parseHeader {n l} : ua none (parseHeader n l) := by
  unfold parseHeader
  uar
macro_rules | `(tactic| ual) => `(tactic| with_reducible exact ua_parseHeader)

end Verif.Blame
