import Verif.Proofs.Blame3
/-! What the grammar methods report, in general. -/
namespace Verif.Blame
open Parse

/-- Every error that the method reports is as described by `Q`, which knows what has just been looked at (`some none`: the end of
the file). -/
def rp (Q : Option (Option STok) → ParseErrorKind → Prop) {α : Type} : Option (Option STok) → Prog α → Prop
  | _, .ret _ => True
  | _, .peekThen k => ∀ x, rp Q none (k x)
  | _, .peekSkipThen k => ∀ x, rp Q (some x) (k x)
  | _, .bumpThen k => ∀ x, rp Q none (k x)
  | c, .addErrorThen e k => Q c e ∧ rp Q none k
  | _, .leadingThen k => ∀ x, rp Q none (k x)
  | _, .trailingThen _ k => ∀ x, rp Q none (k x)
  | _, .setTextModeThen _ k => rp Q none k
  | _, .assertNoPeekThen k => rp Q none k
  | _, .failed => True
  | _, .panicked => True
  | _, .outOfFuel => True

/-- The errors that statements report. -/
structure Sane (Q : Option (Option STok) → ParseErrorKind → Prop) : Prop where
  weak : ∀ {c e}, Q none e → Q c e
  tok : ∀ {ex t sp}, Q (some (some (t, sp))) (.unexpectedToken ex t sp)
  eof : ∀ {ex}, Q (some none) (.unexpectedEof ex)
  utf8 : ∀ {sp}, Q none (.invalidUtf8String sp)
  ident : ∀ {sp}, Q none (.invalidIdentifier sp)
  group : ∀ {sp}, Q none (.invalidGroupName sp)
  import' : ∀ {sp}, Q none (.invalidImport sp)

theorem rp_mono {Q} (hQ : Sane Q) {α : Type} (p : Prog α) {c} (h : rp Q none p) : rp Q c p := by
  cases p <;> first | exact h | trivial | exact ⟨hQ.weak h.1, h.2⟩

theorem rp_bind {Q} (hQ : Sane Q) {α β : Type} (p : Prog α) {f : α → Prog β} : ∀ {c}, rp Q c p → (∀ a, rp Q none (f a)) → rp Q c (p >>= f) := by
  show ∀ {c}, rp Q c p → (∀ a, rp Q none (f a)) → rp Q c (p.bind f)
  induction p with
  | ret a => exact fun _ hf => rp_mono hQ _ (hf a)
  | peekThen k ih => exact fun h hf x => ih x (h x) hf
  | peekSkipThen k ih => exact fun h hf x => ih x (h x) hf
  | bumpThen k ih => exact fun h hf x => ih x (h x) hf
  | addErrorThen e k ih => exact fun h hf => ⟨h.1, ih h.2 hf⟩
  | leadingThen k ih => exact fun h hf x => ih x (h x) hf
  | trailingThen l k ih => exact fun h hf x => ih x (h x) hf
  | setTextModeThen b k ih => exact fun h hf => ih h hf
  | assertNoPeekThen k ih => exact fun h hf => ih h hf
  | failed => exact fun _ _ => trivial
  | panicked => exact fun _ _ => trivial
  | outOfFuel => exact fun _ _ => trivial

theorem rp_loopM {Q} (hQ : Sane Q) {σ β : Type} {step : σ → Prog (Step σ β)} (h : ∀ s, rp Q none (step s)) : ∀ n s, rp Q none (loopM step n s)
  | 0, _ => trivial
  | n + 1, s => by
    refine rp_bind hQ _ (h s) fun a => ?_
    cases a with
    | next s' => exact rp_loopM hQ h n s'
    | done b => trivial

theorem peekSkipLoop_ended : ∀ n s s', P.peekSkipLoop n s = (.ok none, s') → s'.rest = []
  | 0, _, _, h => by cases h
  | n + 1, s, s', h => by
    have h : P.bind P.peekComments _ s = _ := h
    unfold P.bind at h
    cases hp : P.peekComments s with | mk r s1 =>
    rw [hp] at h
    cases r with
    | err => cases h
    | panic => cases h
    | oof => cases h
    | ok a =>
      cases a with
      | none =>
        cases h
        unfold P.peekComments at hp
        split at hp
        · cases hp
        · cases hp
        · dsimp only at hp
          have hf := Lex.next_facts s.tf s.pos s.rest s.errs
          split at hp
          · rename_i hr
            cases hp
            exact (hf.eof_rest hr).1
          · cases hp
          · cases hp
      | some y =>
        dsimp only at h
        split at h
        · have h : P.bind P.bump _ s1 = _ := h
          unfold P.bind at h
          cases hb : P.bump s1 with | mk r2 s2 =>
          rw [hb] at h
          cases r2 with
          | ok a => exact peekSkipLoop_ended n _ _ h
          | err => cases h
          | panic => cases h
          | oof => cases h
        · cases h

/-- A property of the state that survives what is reported. -/
structure StableQ (Q : Option (Option STok) → ParseErrorKind → Prop) (I : PState → Prop) : Prop extends Stable0 I where
  add : ∀ s c e, I s → Q c e → (∀ x, c = some (some x) → x.1.isTrivia = false ∧ s.peek = some (.ok x)) → (c = some none → s.rest = []) →
    I { s with errs := s.errs ++ [e] }

theorem rp_keep {Q I} (hI : StableQ Q I) {α : Type} : ∀ (p : Prog α) (c s), rp Q c p → I s →
    (∀ x, c = some (some x) → x.1.isTrivia = false ∧ s.peek = some (.ok x)) → (c = some none → s.rest = []) → I (p.run s).2 := by
  intro p
  induction p with
  | ret a => exact fun c s _ h _ _ => h
  | peekThen k ih => exact fun c s hu h _ _ => bind_keep hI.peek h fun a s' _ h' => ih a none s' (hu a) h' nofun nofun
  | peekSkipThen k ih =>
    intro c s hu h _ _
    refine bind_keep hI.peekSkip h fun a s' hr h' => ih a _ s' (hu a) h' (fun x hx => ?_) fun hx => ?_
    · cases a with
      | none => cases hx
      | some y => cases hx; exact peekSkipLoop_cached _ _ _ _ hr
    · cases hx
      exact peekSkipLoop_ended _ _ _ hr
  | bumpThen k ih => exact fun c s hu h _ _ => bind_keep hI.bump h fun a s' _ h' => ih a none s' (hu a) h' nofun nofun
  | addErrorThen e k ih => exact fun c s hu h hc hc' => ih none _ hu.2 (hI.add s c e h hu.1 hc hc') nofun nofun
  | leadingThen k ih => exact fun c s hu h _ _ => bind_keep hI.leading h fun a s' _ h' => ih a none s' (hu a) h' nofun nofun
  | trailingThen l k ih => exact fun c s hu h _ _ => bind_keep (hI.trailing l) h fun a s' _ h' => ih a none s' (hu a) h' nofun nofun
  | setTextModeThen b k ih => exact fun c s hu h _ _ => ih none _ hu (hI.tf _ _ h) nofun nofun
  | assertNoPeekThen k ih =>
    intro c s hu h _ _
    show I (if s.peek.isNone then k.run s else (.panic, s)).2
    split
    · exact ih none s hu h nofun nofun
    · exact h
  | failed => exact fun c s _ h _ _ => h
  | panicked => exact fun c s _ h _ _ => h
  | outOfFuel => exact fun c s _ h _ _ => h

/-- The lemma for the method called. -/
syntax "rpl" : tactic
macro_rules | `(tactic| rpl) => `(tactic| assumption)

theorem rp_unexpected {Q} (hQ : Sane Q) {α : Type} {ex : Expect} : rp Q none (unexpected ex : Prog α) := by
  intro x
  cases x with
  | none => exact ⟨hQ.eof, trivial⟩
  | some y => exact ⟨hQ.tok, trivial⟩

theorem rp_addError {Q e} (h : Q none e) : rp Q none (Prog.addError e) := ⟨h, trivial⟩
theorem rp_peek {Q} : rp Q none Prog.peek := fun _ => trivial
theorem rp_peekSkip {Q} : rp Q none Prog.peekSkip := fun _ => trivial
theorem rp_bump {Q} : rp Q none Prog.bump := fun _ => trivial
theorem rp_leading {Q} : rp Q none Prog.leading := fun _ => trivial
theorem rp_trailing {Q l} : rp Q none (Prog.trailing l) := fun _ => trivial
theorem rp_setTextMode {Q b} : rp Q none (Prog.setTextMode b) := trivial
theorem rp_assertNoPeek {Q} : rp Q none Prog.assertNoPeek := trivial
theorem rp_pure {Q} {α : Type} {a : α} : rp Q none (pure a : Prog α) := trivial

/-- One step through a method. -/
macro "rps" : tactic => `(tactic| first
  | with_reducible exact rp_unexpected ‹_›
  | rpl
  | trivial
  | with_reducible exact rp_peek
  | with_reducible exact rp_peekSkip
  | with_reducible exact rp_bump
  | with_reducible exact rp_leading
  | with_reducible exact rp_trailing
  | with_reducible exact rp_setTextMode
  | with_reducible exact rp_assertNoPeek
  | with_reducible exact rp_addError (Sane.utf8 ‹_›)
  | with_reducible exact rp_addError (Sane.ident ‹_›)
  | with_reducible exact rp_addError (Sane.group ‹_›)
  | with_reducible exact rp_addError (Sane.import' ‹_›)
  | with_reducible exact rp_pure
  | with_reducible refine rp_bind ‹_› _ ?_ fun _ => ?_
  | with_reducible refine rp_loopM ‹_› (fun _ => ?_) _ _
  | split)
macro "rpr" : tactic => `(tactic| repeat' rps)

theorem rp_expectEq {Q} (hQ : Sane Q) {t} : rp Q none (expectEq t) := by
  unfold expectEq
  rpr
macro_rules | `(tactic| rpl) => `(tactic| with_reducible exact rp_expectEq ‹_›)

theorem rp_parseIdent {Q} (hQ : Sane Q) : rp Q none (parseIdent) := by
  unfold parseIdent
  rpr
macro_rules | `(tactic| rpl) => `(tactic| with_reducible exact rp_parseIdent ‹_›)

theorem rp_parseInt {Q} (hQ : Sane Q) : rp Q none (parseInt) := by
  unfold parseInt
  rpr
macro_rules | `(tactic| rpl) => `(tactic| with_reducible exact rp_parseInt ‹_›)

theorem rp_stringStep {Q} (hQ : Sane Q) {a} : rp Q none (stringStep a) := by
  unfold stringStep
  rpr
macro_rules | `(tactic| rpl) => `(tactic| with_reducible exact rp_stringStep ‹_›)

theorem rp_parseString {Q} (hQ : Sane Q) {n} : rp Q none (parseString n) := by
  unfold parseString
  rpr
macro_rules | `(tactic| rpl) => `(tactic| with_reducible exact rp_parseString ‹_›)

theorem rp_parseUtf8String {Q} (hQ : Sane Q) {n} : rp Q none (parseUtf8String n) := by
  unfold parseUtf8String
  rpr
macro_rules | `(tactic| rpl) => `(tactic| with_reducible exact rp_parseUtf8String ‹_›)

theorem rp_fullIdentStep {Q} (hQ : Sane Q) {a b} : rp Q none (fullIdentStep a b) := by
  unfold fullIdentStep
  rpr
macro_rules | `(tactic| rpl) => `(tactic| with_reducible exact rp_fullIdentStep ‹_›)

theorem rp_parseFullIdent {Q} (hQ : Sane Q) {n a} : rp Q none (parseFullIdent n a) := by
  unfold parseFullIdent
  rpr
macro_rules | `(tactic| rpl) => `(tactic| with_reducible exact rp_parseFullIdent ‹_›)

theorem rp_parseTypeName {Q} (hQ : Sane Q) {n a} : rp Q none (parseTypeName n a) := by
  unfold parseTypeName
  rpr
macro_rules | `(tactic| rpl) => `(tactic| with_reducible exact rp_parseTypeName ‹_›)

theorem rp_textFormatStep {Q} (hQ : Sane Q) [FloatFmt] {a} : rp Q none (textFormatStep a) := by
  unfold textFormatStep
  rpr
macro_rules | `(tactic| rpl) => `(tactic| with_reducible exact rp_textFormatStep ‹_›)

theorem rp_parseTextFormat {Q} (hQ : Sane Q) [FloatFmt] {n} : rp Q none (parseTextFormat n) := by
  unfold parseTextFormat
  rpr
macro_rules | `(tactic| rpl) => `(tactic| with_reducible exact rp_parseTextFormat ‹_›)

theorem rp_parseOptionNamePart {Q} (hQ : Sane Q) {n} : rp Q none (parseOptionNamePart n) := by
  unfold parseOptionNamePart
  rpr
macro_rules | `(tactic| rpl) => `(tactic| with_reducible exact rp_parseOptionNamePart ‹_›)

theorem rp_optionNameStep {Q} (hQ : Sane Q) {n a} : rp Q none (optionNameStep n a) := by
  unfold optionNameStep
  rpr
macro_rules | `(tactic| rpl) => `(tactic| with_reducible exact rp_optionNameStep ‹_›)

theorem rp_parseOptionValue {Q} (hQ : Sane Q) [FloatFmt] {n} : rp Q none (parseOptionValue n) := by
  unfold parseOptionValue
  rpr
macro_rules | `(tactic| rpl) => `(tactic| with_reducible exact rp_parseOptionValue ‹_›)

theorem rp_parseOptionBody {Q} (hQ : Sane Q) [FloatFmt] {n} : rp Q none (parseOptionBody n) := by
  unfold parseOptionBody
  rpr
macro_rules | `(tactic| rpl) => `(tactic| with_reducible exact rp_parseOptionBody ‹_›)

theorem rp_parseOption {Q} (hQ : Sane Q) [FloatFmt] {n} : rp Q none (parseOption n) := by
  unfold parseOption
  rpr
macro_rules | `(tactic| rpl) => `(tactic| with_reducible exact rp_parseOption ‹_›)

theorem rp_optionsListStep {Q} (hQ : Sane Q) [FloatFmt] {n a} : rp Q none (optionsListStep n a) := by
  unfold optionsListStep
  rpr
macro_rules | `(tactic| rpl) => `(tactic| with_reducible exact rp_optionsListStep ‹_›)

theorem rp_parseOptionsList {Q} (hQ : Sane Q) [FloatFmt] {n} : rp Q none (parseOptionsList n) := by
  unfold parseOptionsList
  rpr
macro_rules | `(tactic| rpl) => `(tactic| with_reducible exact rp_parseOptionsList ‹_›)

theorem rp_parseOptOptions {Q} (hQ : Sane Q) [FloatFmt] {n a} : rp Q none (parseOptOptions n a) := by
  unfold parseOptOptions
  rpr
macro_rules | `(tactic| rpl) => `(tactic| with_reducible exact rp_parseOptOptions ‹_›)

theorem rp_parseReservedRange {Q} (hQ : Sane Q) : rp Q none (parseReservedRange) := by
  unfold parseReservedRange
  rpr
macro_rules | `(tactic| rpl) => `(tactic| with_reducible exact rp_parseReservedRange ‹_›)

theorem rp_reservedRangesStep {Q} (hQ : Sane Q) {a b} : rp Q none (reservedRangesStep a b) := by
  unfold reservedRangesStep
  rpr
macro_rules | `(tactic| rpl) => `(tactic| with_reducible exact rp_reservedRangesStep ‹_›)

theorem rp_parseReservedRanges {Q} (hQ : Sane Q) {n a} : rp Q none (parseReservedRanges n a) := by
  unfold parseReservedRanges
  rpr
macro_rules | `(tactic| rpl) => `(tactic| with_reducible exact rp_parseReservedRanges ‹_›)

theorem rp_parseIdentString {Q} (hQ : Sane Q) {n} : rp Q none (parseIdentString n) := by
  unfold parseIdentString
  rpr
macro_rules | `(tactic| rpl) => `(tactic| with_reducible exact rp_parseIdentString ‹_›)

theorem rp_reservedNamesStep {Q} (hQ : Sane Q) {n a} : rp Q none (reservedNamesStep n a) := by
  unfold reservedNamesStep
  rpr
macro_rules | `(tactic| rpl) => `(tactic| with_reducible exact rp_reservedNamesStep ‹_›)

theorem rp_parseReservedNames {Q} (hQ : Sane Q) {n} : rp Q none (parseReservedNames n) := by
  unfold parseReservedNames
  rpr
macro_rules | `(tactic| rpl) => `(tactic| with_reducible exact rp_parseReservedNames ‹_›)

theorem rp_parseReserved {Q} (hQ : Sane Q) {n} : rp Q none (parseReserved n) := by
  unfold parseReserved
  rpr
macro_rules | `(tactic| rpl) => `(tactic| with_reducible exact rp_parseReserved ‹_›)

theorem rp_parseExtensions {Q} (hQ : Sane Q) [FloatFmt] {n} : rp Q none (parseExtensions n) := by
  unfold parseExtensions
  rpr
macro_rules | `(tactic| rpl) => `(tactic| with_reducible exact rp_parseExtensions ‹_›)

theorem rp_parseFieldType {Q} (hQ : Sane Q) {n a} : rp Q none (parseFieldType n a) := by
  unfold parseFieldType
  rpr
macro_rules | `(tactic| rpl) => `(tactic| with_reducible exact rp_parseFieldType ‹_›)

theorem rp_parseMap {Q} (hQ : Sane Q) [FloatFmt] {n a b c} : rp Q none (parseMap n a b c) := by
  unfold parseMap
  rpr
macro_rules | `(tactic| rpl) => `(tactic| with_reducible exact rp_parseMap ‹_›)

theorem rp_parseGroup {Q} (hQ : Sane Q) [FloatFmt] {body : Prog (Ast.MessageBody × Span)} (hb : rp Q none body) {n a b c} : rp Q none (parseGroup body n a b c) := by
  unfold parseGroup
  rpr
macro_rules | `(tactic| rpl) => `(tactic| with_reducible refine rp_parseGroup ‹_› ?_)

theorem rp_parseNormalField {Q} (hQ : Sane Q) [FloatFmt] {n a b c} : rp Q none (parseNormalField n a b c) := by
  unfold parseNormalField
  rpr
macro_rules | `(tactic| rpl) => `(tactic| with_reducible exact rp_parseNormalField ‹_›)

theorem rp_parseLabel {Q} (hQ : Sane Q) : rp Q none (parseLabel) := by
  unfold parseLabel
  rpr
macro_rules | `(tactic| rpl) => `(tactic| with_reducible exact rp_parseLabel ‹_›)

theorem rp_parseField {Q} (hQ : Sane Q) [FloatFmt] {body : Prog (Ast.MessageBody × Span)} (hb : rp Q none body) {n} : rp Q none (parseField body n) := by
  unfold parseField
  rpr
macro_rules | `(tactic| rpl) => `(tactic| with_reducible refine rp_parseField ‹_› ?_)

theorem rp_parseEnumValue {Q} (hQ : Sane Q) [FloatFmt] {n} : rp Q none (parseEnumValue n) := by
  unfold parseEnumValue
  rpr
macro_rules | `(tactic| rpl) => `(tactic| with_reducible exact rp_parseEnumValue ‹_›)

theorem rp_enumStep {Q} (hQ : Sane Q) [FloatFmt] {n a} : rp Q none (enumStep n a) := by
  unfold enumStep
  rpr
macro_rules | `(tactic| rpl) => `(tactic| with_reducible exact rp_enumStep ‹_›)

theorem rp_parseEnum {Q} (hQ : Sane Q) [FloatFmt] {n} : rp Q none (parseEnum n) := by
  unfold parseEnum
  rpr
macro_rules | `(tactic| rpl) => `(tactic| with_reducible exact rp_parseEnum ‹_›)

theorem rp_oneofStep {Q} (hQ : Sane Q) [FloatFmt] {body : Prog (Ast.MessageBody × Span)} (hb : rp Q none body) {n a} : rp Q none (oneofStep body n a) := by
  unfold oneofStep
  rpr
macro_rules | `(tactic| rpl) => `(tactic| with_reducible refine rp_oneofStep ‹_› ?_)

theorem rp_parseOneof {Q} (hQ : Sane Q) [FloatFmt] {body : Prog (Ast.MessageBody × Span)} (hb : rp Q none body) {n} : rp Q none (parseOneof body n) := by
  unfold parseOneof
  rpr
macro_rules | `(tactic| rpl) => `(tactic| with_reducible refine rp_parseOneof ‹_› ?_)

theorem rp_extendStep {Q} (hQ : Sane Q) [FloatFmt] {body : Prog (Ast.MessageBody × Span)} (hb : rp Q none body) {n a} : rp Q none (extendStep body n a) := by
  unfold extendStep
  rpr
macro_rules | `(tactic| rpl) => `(tactic| with_reducible refine rp_extendStep ‹_› ?_)

theorem rp_parseExtend {Q} (hQ : Sane Q) [FloatFmt] {body : Prog (Ast.MessageBody × Span)} (hb : rp Q none body) {n} : rp Q none (parseExtend body n) := by
  unfold parseExtend
  rpr
macro_rules | `(tactic| rpl) => `(tactic| with_reducible refine rp_parseExtend ‹_› ?_)

theorem rp_parseMessage {Q} (hQ : Sane Q) {body : Prog (Ast.MessageBody × Span)} (hb : rp Q none body) : rp Q none (parseMessage body) := by
  unfold parseMessage
  rpr
macro_rules | `(tactic| rpl) => `(tactic| with_reducible refine rp_parseMessage ‹_› ?_)

theorem rp_bodyStep {Q} (hQ : Sane Q) [FloatFmt] {body : Prog (Ast.MessageBody × Span)} (hb : rp Q none body) {n a} : rp Q none (bodyStep body n a) := by
  unfold bodyStep
  rpr
macro_rules | `(tactic| rpl) => `(tactic| with_reducible refine rp_bodyStep ‹_› ?_)

theorem rp_parseMessageBody {Q} (hQ : Sane Q) [FloatFmt] {n} : ∀ {d}, rp Q none (parseMessageBody n d)
  | 0 => trivial
  | _ + 1 => rp_loopM hQ (fun _ => rp_bodyStep hQ (rp_parseMessageBody hQ)) _ _
macro_rules | `(tactic| rpl) => `(tactic| with_reducible exact rp_parseMessageBody ‹_›)

theorem rp_parseStreaming {Q} (hQ : Sane Q) : rp Q none (parseStreaming) := by
  unfold parseStreaming
  rpr
macro_rules | `(tactic| rpl) => `(tactic| with_reducible exact rp_parseStreaming ‹_›)

theorem rp_methodOptionStep {Q} (hQ : Sane Q) [FloatFmt] {n a} : rp Q none (methodOptionStep n a) := by
  unfold methodOptionStep
  rpr
macro_rules | `(tactic| rpl) => `(tactic| with_reducible exact rp_methodOptionStep ‹_›)

theorem rp_parseRpc {Q} (hQ : Sane Q) [FloatFmt] {n} : rp Q none (parseRpc n) := by
  unfold parseRpc
  rpr
macro_rules | `(tactic| rpl) => `(tactic| with_reducible exact rp_parseRpc ‹_›)

theorem rp_serviceStep {Q} (hQ : Sane Q) [FloatFmt] {n a} : rp Q none (serviceStep n a) := by
  unfold serviceStep
  rpr
macro_rules | `(tactic| rpl) => `(tactic| with_reducible exact rp_serviceStep ‹_›)

theorem rp_parseService {Q} (hQ : Sane Q) [FloatFmt] {n} : rp Q none (parseService n) := by
  unfold parseService
  rpr
macro_rules | `(tactic| rpl) => `(tactic| with_reducible exact rp_parseService ‹_›)

theorem rp_parsePackage {Q} (hQ : Sane Q) {n} : rp Q none (parsePackage n) := by
  unfold parsePackage
  rpr
macro_rules | `(tactic| rpl) => `(tactic| with_reducible exact rp_parsePackage ‹_›)

theorem rp_parseImport {Q} (hQ : Sane Q) {n} : rp Q none (parseImport n) := by
  unfold parseImport
  rpr
macro_rules | `(tactic| rpl) => `(tactic| with_reducible exact rp_parseImport ‹_›)

theorem rp_parseStatement {Q} (hQ : Sane Q) [FloatFmt] {n} : rp Q none (parseStatement n) := by
  unfold parseStatement
  rpr
macro_rules | `(tactic| rpl) => `(tactic| with_reducible exact rp_parseStatement ‹_›)

theorem rp_parseSyntax {Q} (hQ : Sane Q) (hs : ∀ v sp, Q none (.unknownSyntax v sp)) {n} : rp Q none (parseSyntax n) := by
  have ha : ∀ v sp, rp Q none (Prog.addError (.unknownSyntax v sp)) := fun v sp => rp_addError (hs v sp)
  unfold parseSyntax
  repeat' (first | with_reducible exact ha _ _ | rps)
macro_rules | `(tactic| rpl) => `(tactic| with_reducible exact rp_parseSyntax ‹_› ‹_›)

theorem rp_parseHeader {Q} (hQ : Sane Q) (hs : ∀ v sp, Q none (.unknownSyntax v sp)) {n l} : rp Q none (parseHeader n l) := by
  unfold parseHeader
  rpr

theorem keepsQ_fileLoop [FloatFmt] {Q I} (hQ : Sane Q) (hd : ∀ a b, Q none (.duplicatePackage a b)) (hI : StableQ Q I) (fuel : Nat) :
    ∀ n acc, Keeps I (P.fileLoop fuel n acc)
  | 0, _ => fun _ h => h
  | n + 1, acc => by
    intro s hs
    have h := rp_keep hI _ none s (rp_parseStatement hQ (n := fuel)) hs nofun nofun
    unfold P.fileLoop
    rcases hp : (parseStatement fuel).run s with ⟨r, s'⟩
    rw [hp] at h
    rcases r with (_ | st) | _ | _ | _
    · exact h
    · dsimp only
      split
      · exact keepsQ_fileLoop hQ hd hI fuel n _ _ h
      · rename_i e he
        obtain ⟨a, b, rfl⟩ := add_kind he
        exact keepsQ_fileLoop hQ hd hI fuel n _ _ (hI.add _ none _ h (hd _ _) nofun nofun)
    · dsimp only
      split
      · exact h
      · have h2 := hI.skipUntil (s'.rest.length + 3) s' h
        rcases hb : P.skipUntil (s'.rest.length + 3) s' with ⟨r2, s2⟩
        rw [hb] at h2
        cases r2 with
        | ok _ => exact keepsQ_fileLoop hQ hd hI fuel n _ s2 h2
        | _ => exact h2
    · exact h
    · exact h

theorem keepsQ_parseFile [FloatFmt] {Q I} (hQ : Sane Q) (hd : ∀ a b, Q none (.duplicatePackage a b)) (hs : ∀ v sp, Q none (.unknownSyntax v sp))
    (hI : StableQ Q I) (fuel len : Nat) : Keeps I (P.parseFile fuel len) :=
  Keeps.bind (fun s h => rp_keep hI _ none s (rp_parseHeader hQ hs) h nofun nofun) fun _ =>
    (keepsQ_fileLoop hQ hd hI _ _ _).bind fun _ => Keeps.pure _

end Verif.Blame
