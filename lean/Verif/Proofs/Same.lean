import Verif.Proofs.Fuel
import Verif.Spec.Expect
/-!
The parser decides what to do by the tokens alone: positions and comments only end up in its results.
-/
namespace Verif.Exec
open Parse Prog

/-- Stand-ins for positions and comments. -/
abbrev sp0 : Span := ⟨0, 0⟩
abbrev ld0 : List Bytes × Option Bytes := ([], none)
abbrev cm0 : Ast.Comments := ⟨[], none, none⟩

/-- What an "unexpected token" error says. -/
def blame? : ParseErrorKind → Option (Expect × Token)
  | .unexpectedToken ex t _ => some (ex, t)
  | _ => none

/-- What an "unexpected end of file" error says. -/
def eof? : ParseErrorKind → Option Expect
  | .unexpectedEof ex => some ex
  | _ => none

/-- The second program does the same as the first one does with stand-ins; its counters may run out earlier. -/
inductive Same {α : Type} (R : α → α → Prop) : Prog α → Prog α → Prop
  | bot (p) : Same R p .outOfFuel
  | ret {a0 a} (h : R a0 a) : Same R (.ret a0) (.ret a)
  | peek {k0 k} (h : ∀ t sp, Same R (k0 (some (t, sp0))) (k (some (t, sp)))) (hn : Same R (k0 none) (k none)) :
      Same R (.peekThen k0) (.peekThen k)
  | peekSkip {k0 k} (h : ∀ t sp, Same R (k0 (some (t, sp0))) (k (some (t, sp)))) (hn : Same R (k0 none) (k none)) :
      Same R (.peekSkipThen k0) (.peekSkipThen k)
  | bump {k0 k} (h : ∀ sp, Same R (k0 sp0) (k sp)) : Same R (.bumpThen k0) (.bumpThen k)
  | unexpected (ex) (hx : Spec.lexEnd ex = false) : Same R (unexpected ex) (unexpected ex)
  | addError {e0 e k0 k} (h : blame? e0 = blame? e) (he0 : eof? e0 = none) (he : eof? e = none) (hk : Same R k0 k) : Same R (.addErrorThen e0 k0) (.addErrorThen e k)
  | leading {k0 k} (h : ∀ l, Same R (k0 ld0) (k l)) : Same R (.leadingThen k0) (.leadingThen k)
  | trailing {l0 l k0 k} (h : ∀ c, Same R (k0 cm0) (k c)) : Same R (.trailingThen l0 k0) (.trailingThen l k)
  | setTextMode (b) {k0 k} (h : Same R k0 k) : Same R (.setTextModeThen b k0) (.setTextModeThen b k)
  | assertNoPeek {k0 k} (h : Same R k0 k) : Same R (.assertNoPeekThen k0) (.assertNoPeekThen k)
  | failed : Same R .failed .failed
  | panicked (p) : Same R p .panicked

theorem unexpected_bind {α β : Type} {ex : Expect} {f : α → Prog β} : (unexpected ex : Prog α).bind f = unexpected ex :=
  congrArg Prog.peekSkipThen (funext fun x => by cases x <;> rfl)

/-- No demand on the results. -/
abbrev Any {α : Type} : α → α → Prop := fun _ _ => True

theorem Same.bind {α β : Type} {R : α → α → Prop} {S : β → β → Prop} {p0 p : Prog α} {f0 f : α → Prog β} (h : Same R p0 p)
    (hf : ∀ a0 a, R a0 a → Same S (f0 a0) (f a)) : Same S (p0 >>= f0) (p >>= f) := by
  show Same S (p0.bind f0) (p.bind f)
  induction h with
  | bot p => exact .bot _
  | ret h => exact hf _ _ h
  | peek h hn ih ihn => exact .peek ih ihn
  | peekSkip h hn ih ihn => exact .peekSkip ih ihn
  | bump h ih => exact .bump ih
  | unexpected ex hx => rw [unexpected_bind, unexpected_bind]; exact .unexpected ex hx
  | addError h he0 he hk ih => exact .addError h he0 he ih
  | leading h ih => exact .leading ih
  | trailing h ih => exact .trailing ih
  | setTextMode b h ih => exact .setTextMode b ih
  | assertNoPeek h ih => exact .assertNoPeek ih
  | failed => exact .failed
  | panicked p => exact .panicked _

theorem Same.mono {α : Type} {R S : α → α → Prop} {p0 p : Prog α} (h : Same R p0 p) (hRS : ∀ a0 a, R a0 a → S a0 a) :
    Same S p0 p := by
  induction h with
  | bot p => exact .bot _
  | ret h => exact .ret (hRS _ _ h)
  | peek h hn ih ihn => exact .peek ih ihn
  | peekSkip h hn ih ihn => exact .peekSkip ih ihn
  | bump h ih => exact .bump ih
  | unexpected ex hx => exact .unexpected ex hx
  | addError h he0 he hk ih => exact .addError h he0 he ih
  | leading h ih => exact .leading ih
  | trailing h ih => exact .trailing ih
  | setTextMode b h ih => exact .setTextMode b ih
  | assertNoPeek h ih => exact .assertNoPeek ih
  | failed => exact .failed
  | panicked p => exact .panicked _

theorem Same.any {α : Type} {R : α → α → Prop} {p0 p : Prog α} (h : Same R p0 p) : Same Any p0 p := h.mono fun _ _ _ => trivial

theorem Same.ite {α : Type} {R : α → α → Prop} {c : Prop} [Decidable c] {p0 p q0 q : Prog α} (h : c → Same R p0 p)
    (h' : ¬ c → Same R q0 q) : Same R (if c then p0 else q0) (if c then p else q) := by
  split
  · exact h ‹_›
  · exact h' ‹_›

/-- Loop rounds with related results. -/
def StepRel {σ β : Type} (R : σ → σ → Prop) (S : β → β → Prop) : Step σ β → Step σ β → Prop
  | .next a, .next b => R a b
  | .done a, .done b => S a b
  | _, _ => False

theorem same_loopM {σ β : Type} {R : σ → σ → Prop} {S : β → β → Prop} {step0 step : σ → Prog (Step σ β)}
    (h : ∀ a0 a, R a0 a → Same (StepRel R S) (step0 a0) (step a)) :
    ∀ {n0 n : Nat}, n ≤ n0 → ∀ {a0 a}, R a0 a → Same S (loopM step0 n0 a0) (loopM step n a)
  | _, 0, _, _, _, _ => .bot _
  | 0, n + 1, hn, _, _, _ => absurd hn (by omega)
  | n0 + 1, n + 1, hn, a0, a, ha => by
    refine (h a0 a ha).bind fun x0 x hx => ?_
    cases x0 <;> cases x
    · exact same_loopM h (by omega) hx
    · exact hx.elim
    · exact hx.elim
    · exact .ret hx

/-- The lemma for the method called. -/
syntax "sml" : tactic
macro_rules | `(tactic| sml) => `(tactic| assumption)

theorem same_unexpected {α : Type} {R : α → α → Prop} {ex : Expect} (hx : Spec.lexEnd ex = false) :
    Same R (unexpected ex : Prog α) (unexpected ex) := .unexpected ex hx

theorem same_peek : Same (fun a0 a => a0 = a.map fun x => (x.1, sp0)) Prog.peek Prog.peek := .peek (fun _ _ => .ret rfl) (.ret rfl)
theorem same_peekSkip : Same (fun a0 a => a0 = a.map fun x => (x.1, sp0)) Prog.peekSkip Prog.peekSkip :=
  .peekSkip (fun _ _ => .ret rfl) (.ret rfl)
theorem same_bump : Same Any Prog.bump Prog.bump := .bump fun _ => .ret trivial
theorem same_leading : Same Any Prog.leading Prog.leading := .leading fun _ => .ret trivial
theorem same_trailing {l0 l} : Same Any (Prog.trailing l0) (Prog.trailing l) := .trailing fun _ => .ret trivial
theorem same_setTextMode {b} : Same Any (Prog.setTextMode b) (Prog.setTextMode b) := .setTextMode b (.ret trivial)
theorem same_assertNoPeek : Same Any Prog.assertNoPeek Prog.assertNoPeek := .assertNoPeek (.ret trivial)
theorem same_addError {e0 e} (h : blame? e0 = blame? e) (he0 : eof? e0 = none) (he : eof? e = none) :
    Same Any (Prog.addError e0) (Prog.addError e) := .addError h he0 he (.ret trivial)
theorem same_pure {α : Type} {R : α → α → Prop} {a0 a : α} (h : R a0 a) : Same R (pure a0 : Prog α) (pure a) := .ret h

theorem same_look {β : Type} {S : β → β → Prop} {p : Prog (Option (Token × Span))} {f0 f : Option (Token × Span) → Prog β}
    (hp : Same (fun a0 a => a0 = a.map fun x => (x.1, sp0)) p p)
    (h : ∀ t sp, Same S (f0 (some (t, sp0))) (f (some (t, sp)))) (hn : Same S (f0 none) (f none)) : Same S (p >>= f0) (p >>= f) := by
  refine hp.bind fun a0 a ha => ?_
  subst ha
  cases a with
  | none => exact hn
  | some x => exact h x.1 x.2

/-- One step through a method. -/
macro "sms" : tactic => `(tactic| first
  | ((with_reducible refine same_unexpected ?_); rfl)
  | sml
  | with_reducible exact Same.panicked _
  | with_reducible refine same_look same_peekSkip (fun _ _ => ?_) ?_
  | with_reducible refine same_look same_peek (fun _ _ => ?_) ?_
  | with_reducible refine Same.bind same_bump fun _ _ _ => ?_
  | with_reducible refine Same.bind same_leading fun _ _ _ => ?_
  | with_reducible refine Same.bind same_trailing fun _ _ _ => ?_
  | with_reducible refine Same.bind same_setTextMode fun _ _ _ => ?_
  | with_reducible refine Same.bind same_assertNoPeek fun _ _ _ => ?_
  | with_reducible refine Same.bind (same_addError rfl rfl rfl) fun _ _ _ => ?_
  | with_reducible exact same_bump
  | with_reducible exact same_addError rfl rfl rfl
  | ((with_reducible refine same_pure ?_); first | trivial | rfl | assumption)
  | with_reducible refine Same.ite (fun _ => ?_) (fun _ => ?_)
  | with_reducible refine Same.bind (R := Any) ?_ fun _ _ _ => ?_
  | dsimp only)
macro "smr" : tactic => `(tactic| repeat' sms)

theorem same_expectEq {t} : Same Any (expectEq t) (expectEq t) := by
  unfold expectEq
  smr
macro_rules | `(tactic| sml) => `(tactic| with_reducible first | exact same_expectEq | exact Same.any (same_expectEq))

theorem same_parseIdent : Same (fun a0 a => a0.value = a.value) parseIdent parseIdent := by
  unfold parseIdent
  smr
  rename_i t sp
  cases t <;> smr
macro_rules | `(tactic| sml) => `(tactic| with_reducible first | exact same_parseIdent | exact Same.any (same_parseIdent))

theorem same_parseInt : Same (Any) (parseInt) (parseInt) := by
  unfold parseInt
  refine Same.bind (R := fun a0 a => a0.isSome = a.isSome) ?_ fun a0 a ha => ?_
  · smr
  · smr
    rename_i t _
    cases t <;> smr
    cases a0 <;> cases a <;> first | cases ha; done | smr
macro_rules | `(tactic| sml) => `(tactic| with_reducible first | exact same_parseInt | exact Same.any (same_parseInt))

theorem same_stringStep {a0 a : Ast.Str} (h : a0.value = a.value) : Same (StepRel (fun a0 a => a0.value = a.value) (fun a0 a => a0.value = a.value)) (stringStep a0) (stringStep a) := by
  unfold stringStep
  smr
  · rename_i t _
    cases t <;> smr
    all_goals first | exact same_pure (R := StepRel _ _) h | exact same_pure (R := StepRel _ _) (congrArg (· ++ _) h)
macro_rules | `(tactic| sml) => `(tactic| with_reducible first | exact same_stringStep (by assumption) | exact Same.any (same_stringStep (by assumption)))

theorem same_parseString {n0 n} (hn : n ≤ n0) : Same (fun a0 a => a0.value = a.value) (parseString n0) (parseString n) := by
  unfold parseString
  smr
  rename_i t _
  cases t <;> smr
  exact same_loopM (fun _ _ h => same_stringStep h) hn rfl
macro_rules | `(tactic| sml) => `(tactic| with_reducible first | exact same_parseString (by assumption) | exact Same.any (same_parseString (by assumption)))

theorem same_parseUtf8String {n0 n} (hn : n ≤ n0) : Same (fun a0 a => a0.1 = a.1) (parseUtf8String n0) (parseUtf8String n) := by
  unfold parseUtf8String
  refine Same.bind (same_parseString hn) fun a0 a ha => ?_
  rw [ha]
  refine Same.ite (fun _ => same_pure rfl) fun _ => ?_
  exact Same.bind (same_addError rfl rfl rfl) fun _ _ _ => same_pure rfl
macro_rules | `(tactic| sml) => `(tactic| with_reducible first | exact same_parseUtf8String (by assumption) | exact Same.any (same_parseUtf8String (by assumption)))

theorem same_fullIdentStep {terms} {a0 a : List Ast.Ident} (h : a0 ≠ []) : Same (StepRel (fun a0 _ => a0 ≠ []) (fun (a0 : Ast.FullIdent) _ => a0.parts ≠ [])) (fullIdentStep terms a0) (fullIdentStep terms a) := by
  unfold fullIdentStep
  smr
  exact same_pure (R := StepRel _ _) (List.append_ne_nil_of_right_ne_nil _ (List.cons_ne_nil _ _))
macro_rules | `(tactic| sml) => `(tactic| with_reducible first | exact same_fullIdentStep (by assumption) | exact Same.any (same_fullIdentStep (by assumption)))

theorem same_parseFullIdent {n0 n} (hn : n ≤ n0) {terms} : Same (fun (a0 : Ast.FullIdent) _ => a0.parts ≠ []) (parseFullIdent n0 terms) (parseFullIdent n terms) := by
  unfold parseFullIdent
  refine Same.bind same_parseIdent fun a0 a ha => ?_
  exact same_loopM (fun _ _ h => same_fullIdentStep h) hn (by simp)
macro_rules | `(tactic| sml) => `(tactic| with_reducible first | exact same_parseFullIdent (by assumption) | exact Same.any (same_parseFullIdent (by assumption)))

theorem same_parseTypeName {n0 n} (hn : n ≤ n0) {terms} : Same (fun (a0 : Ast.TypeName) _ => a0.name.parts ≠ []) (parseTypeName n0 terms) (parseTypeName n terms) := by
  unfold parseTypeName
  refine Same.bind (R := Any) ?_ fun _ _ _ => ?_
  · smr
  · exact Same.bind (same_parseFullIdent hn) fun a0 a h => same_pure h
macro_rules | `(tactic| sml) => `(tactic| with_reducible first | exact same_parseTypeName (by assumption) | exact Same.any (same_parseTypeName (by assumption)))

theorem same_textFormatStep [FloatFmt] {a0 a : Bytes × Nat} (h : a0.2 = a.2) : Same (StepRel (fun a0 a => a0.2 = a.2) Any) (textFormatStep a0) (textFormatStep a) := by
  unfold textFormatStep
  smr
  rw [h]
  smr
macro_rules | `(tactic| sml) => `(tactic| with_reducible first | exact same_textFormatStep (by assumption) | exact Same.any (same_textFormatStep (by assumption)))

theorem same_parseTextFormat [FloatFmt] {n0 n} (hn : n ≤ n0) : Same (Any) (parseTextFormat n0) (parseTextFormat n) := by
  unfold parseTextFormat
  refine Same.bind same_assertNoPeek fun _ _ _ => ?_
  refine Same.bind same_setTextMode fun _ _ _ => ?_
  refine Same.bind (R := Any) (same_loopM (fun _ _ h => same_textFormatStep h) hn rfl) fun _ _ _ => ?_
  smr
macro_rules | `(tactic| sml) => `(tactic| with_reducible first | exact same_parseTextFormat (by assumption) | exact Same.any (same_parseTextFormat (by assumption)))

theorem same_parseOptionNamePart {n0 n} (hn : n ≤ n0) : Same (Any) (parseOptionNamePart n0) (parseOptionNamePart n) := by
  unfold parseOptionNamePart
  smr
  all_goals (cases ‹Token› <;> smr)
macro_rules | `(tactic| sml) => `(tactic| with_reducible first | exact same_parseOptionNamePart (by assumption) | exact Same.any (same_parseOptionNamePart (by assumption)))

theorem same_optionNameStep {n0 n} (hn : n ≤ n0) {a0 a} : Same (StepRel Any Any) (optionNameStep n0 a0) (optionNameStep n a) := by
  unfold optionNameStep
  smr
macro_rules | `(tactic| sml) => `(tactic| with_reducible first | exact same_optionNameStep (by assumption) | exact Same.any (same_optionNameStep (by assumption)))

theorem same_parseOptionValue [FloatFmt] {n0 n} (hn : n ≤ n0) : Same (Any) (parseOptionValue n0) (parseOptionValue n) := by
  unfold parseOptionValue
  smr
  rename_i t _
  cases t <;> smr
  rename_i t _
  cases t <;> smr
macro_rules | `(tactic| sml) => `(tactic| with_reducible first | exact same_parseOptionValue (by assumption) | exact Same.any (same_parseOptionValue (by assumption)))

theorem same_parseOptionBody [FloatFmt] {n0 n} (hn : n ≤ n0) : Same (Any) (parseOptionBody n0) (parseOptionBody n) := by
  unfold parseOptionBody
  smr
  exact same_loopM (R := Any) (fun _ _ _ => same_optionNameStep hn) hn trivial
macro_rules | `(tactic| sml) => `(tactic| with_reducible first | exact same_parseOptionBody (by assumption) | exact Same.any (same_parseOptionBody (by assumption)))

theorem same_parseOption [FloatFmt] {n0 n} (hn : n ≤ n0) : Same (Any) (parseOption n0) (parseOption n) := by
  unfold parseOption
  smr
macro_rules | `(tactic| sml) => `(tactic| with_reducible first | exact same_parseOption (by assumption) | exact Same.any (same_parseOption (by assumption)))

theorem same_optionsListStep [FloatFmt] {n0 n} (hn : n ≤ n0) {a0 a} : Same (StepRel Any Any) (optionsListStep n0 a0) (optionsListStep n a) := by
  unfold optionsListStep
  smr
macro_rules | `(tactic| sml) => `(tactic| with_reducible first | exact same_optionsListStep (by assumption) | exact Same.any (same_optionsListStep (by assumption)))

theorem same_parseOptionsList [FloatFmt] {n0 n} (hn : n ≤ n0) : Same (Any) (parseOptionsList n0) (parseOptionsList n) := by
  unfold parseOptionsList
  smr
  exact same_loopM (R := Any) (fun _ _ _ => same_optionsListStep hn) hn trivial
macro_rules | `(tactic| sml) => `(tactic| with_reducible first | exact same_parseOptionsList (by assumption) | exact Same.any (same_parseOptionsList (by assumption)))

theorem same_parseOptOptions [FloatFmt] {n0 n} (hn : n ≤ n0) {t} : Same (Any) (parseOptOptions n0 t) (parseOptOptions n t) := by
  unfold parseOptOptions
  smr
macro_rules | `(tactic| sml) => `(tactic| with_reducible first | exact same_parseOptOptions (by assumption) | exact Same.any (same_parseOptOptions (by assumption)))

theorem same_parseReservedRange : Same (Any) (parseReservedRange) (parseReservedRange) := by
  unfold parseReservedRange
  smr
  all_goals (cases ‹Token› <;> smr)
macro_rules | `(tactic| sml) => `(tactic| with_reducible first | exact same_parseReservedRange | exact Same.any (same_parseReservedRange))

theorem same_reservedRangesStep {terms a0 a} : Same (StepRel Any Any) (reservedRangesStep terms a0) (reservedRangesStep terms a) := by
  unfold reservedRangesStep
  smr
macro_rules | `(tactic| sml) => `(tactic| with_reducible first | exact same_reservedRangesStep | exact Same.any (same_reservedRangesStep))

theorem same_parseReservedRanges {n0 n} (hn : n ≤ n0) {terms} : Same (Any) (parseReservedRanges n0 terms) (parseReservedRanges n terms) := by
  unfold parseReservedRanges
  smr
  exact same_loopM (R := Any) (fun _ _ _ => same_reservedRangesStep) hn trivial
macro_rules | `(tactic| sml) => `(tactic| with_reducible first | exact same_parseReservedRanges (by assumption) | exact Same.any (same_parseReservedRanges (by assumption)))

theorem same_parseIdentString {n0 n} (hn : n ≤ n0) : Same (Any) (parseIdentString n0) (parseIdentString n) := by
  unfold parseIdentString
  refine Same.bind (same_parseUtf8String hn) fun a0 a ha => ?_
  dsimp only
  rw [ha]
  smr
macro_rules | `(tactic| sml) => `(tactic| with_reducible first | exact same_parseIdentString (by assumption) | exact Same.any (same_parseIdentString (by assumption)))

theorem same_reservedNamesStep {n0 n} (hn : n ≤ n0) {a0 a} : Same (StepRel Any Any) (reservedNamesStep n0 a0) (reservedNamesStep n a) := by
  unfold reservedNamesStep
  smr
macro_rules | `(tactic| sml) => `(tactic| with_reducible first | exact same_reservedNamesStep (by assumption) | exact Same.any (same_reservedNamesStep (by assumption)))

theorem same_parseReservedNames {n0 n} (hn : n ≤ n0) : Same (Any) (parseReservedNames n0) (parseReservedNames n) := by
  unfold parseReservedNames
  smr
  exact same_loopM (R := Any) (fun _ _ _ => same_reservedNamesStep hn) hn trivial
macro_rules | `(tactic| sml) => `(tactic| with_reducible first | exact same_parseReservedNames (by assumption) | exact Same.any (same_parseReservedNames (by assumption)))

theorem same_parseReserved {n0 n} (hn : n ≤ n0) : Same (Any) (parseReserved n0) (parseReserved n) := by
  unfold parseReserved
  smr
  all_goals (cases ‹Token› <;> smr)
macro_rules | `(tactic| sml) => `(tactic| with_reducible first | exact same_parseReserved (by assumption) | exact Same.any (same_parseReserved (by assumption)))

theorem same_parseExtensions [FloatFmt] {n0 n} (hn : n ≤ n0) : Same (Any) (parseExtensions n0) (parseExtensions n) := by
  unfold parseExtensions
  smr
macro_rules | `(tactic| sml) => `(tactic| with_reducible first | exact same_parseExtensions (by assumption) | exact Same.any (same_parseExtensions (by assumption)))

theorem same_parseFieldType {n0 n} (hn : n ≤ n0) {terms} : Same (Any) (parseFieldType n0 terms) (parseFieldType n terms) := by
  unfold parseFieldType
  smr
  rename_i t _
  cases scalarTy t with
  | some ty => smr
  | none =>
    refine Same.ite (fun _ => ?_) fun _ => same_unexpected rfl
    refine Same.bind (same_parseTypeName hn) fun a0 a ha => ?_
    obtain ⟨d0, ⟨parts⟩⟩ := a0
    cases h : a.span with
    | none => exact .panicked _
    | some sp =>
      have : (Ast.TypeName.span ⟨d0, ⟨parts⟩⟩).isSome = true := by
        cases parts with
        | nil => exact absurd rfl ha
        | cons x xs =>
          have hl : ((x :: xs).getLast?).isSome = true := by simp
          cases hl' : (x :: xs).getLast? with
          | none => rw [hl'] at hl; cases hl
          | some y => cases d0 <;> simp [Ast.TypeName.span, Ast.FullIdent.span, hl']
      cases h0 : Ast.TypeName.span ⟨d0, ⟨parts⟩⟩ with
      | none => rw [h0] at this; cases this
      | some sp0 => smr
macro_rules | `(tactic| sml) => `(tactic| with_reducible first | exact same_parseFieldType (by assumption) | exact Same.any (same_parseFieldType (by assumption)))

theorem same_parseMap [FloatFmt] {n0 n} (hn : n ≤ n0) {a0 a b0 b c0 c} : Same (Any) (parseMap n0 a0 b0 c0) (parseMap n a b c) := by
  unfold parseMap
  smr
macro_rules | `(tactic| sml) => `(tactic| with_reducible first | exact same_parseMap (by assumption) | exact Same.any (same_parseMap (by assumption)))

theorem same_parseGroup [FloatFmt] {body0 body : Prog (Ast.MessageBody × Span)} (hb : Same Any body0 body) {n0 n} (hn : n ≤ n0) {a0 a b0 b c0 c} : Same (Any) (parseGroup body0 n0 a0 b0 c0) (parseGroup body n a b c) := by
  unfold parseGroup
  refine Same.bind same_expectEq fun _ _ _ => ?_
  refine Same.bind same_parseIdent fun a0 a ha => ?_
  rw [ha]
  smr
macro_rules | `(tactic| sml) => `(tactic| with_reducible first | exact same_parseGroup (by assumption) (by assumption) | exact Same.any (same_parseGroup (by assumption) (by assumption)))

theorem same_parseNormalField [FloatFmt] {n0 n} (hn : n ≤ n0) {a0 a b0 b c0 c} : Same (Any) (parseNormalField n0 a0 b0 c0) (parseNormalField n a b c) := by
  unfold parseNormalField
  smr
macro_rules | `(tactic| sml) => `(tactic| with_reducible first | exact same_parseNormalField (by assumption) | exact Same.any (same_parseNormalField (by assumption)))

theorem same_parseLabel : Same (Any) (parseLabel) (parseLabel) := by
  unfold parseLabel
  smr
macro_rules | `(tactic| sml) => `(tactic| with_reducible first | exact same_parseLabel | exact Same.any (same_parseLabel))

theorem same_parseField [FloatFmt] {body0 body : Prog (Ast.MessageBody × Span)} (hb : Same Any body0 body) {n0 n} (hn : n ≤ n0) : Same (Any) (parseField body0 n0) (parseField body n) := by
  unfold parseField
  smr
macro_rules | `(tactic| sml) => `(tactic| with_reducible first | exact same_parseField (by assumption) (by assumption) | exact Same.any (same_parseField (by assumption) (by assumption)))

theorem same_parseEnumValue [FloatFmt] {n0 n} (hn : n ≤ n0) : Same (Any) (parseEnumValue n0) (parseEnumValue n) := by
  unfold parseEnumValue
  smr
macro_rules | `(tactic| sml) => `(tactic| with_reducible first | exact same_parseEnumValue (by assumption) | exact Same.any (same_parseEnumValue (by assumption)))

theorem same_enumStep [FloatFmt] {n0 n} (hn : n ≤ n0) {a0 a} : Same (StepRel Any Any) (enumStep n0 a0) (enumStep n a) := by
  unfold enumStep
  smr
  all_goals (cases ‹Token› <;> smr)
macro_rules | `(tactic| sml) => `(tactic| with_reducible first | exact same_enumStep (by assumption) | exact Same.any (same_enumStep (by assumption)))

theorem same_parseEnum [FloatFmt] {n0 n} (hn : n ≤ n0) : Same (Any) (parseEnum n0) (parseEnum n) := by
  unfold parseEnum
  smr
  exact same_loopM (R := Any) (fun _ _ _ => same_enumStep hn) hn trivial
macro_rules | `(tactic| sml) => `(tactic| with_reducible first | exact same_parseEnum (by assumption) | exact Same.any (same_parseEnum (by assumption)))

theorem same_oneofStep [FloatFmt] {body0 body : Prog (Ast.MessageBody × Span)} (hb : Same Any body0 body) {n0 n} (hn : n ≤ n0) {a0 a} : Same (StepRel Any Any) (oneofStep body0 n0 a0) (oneofStep body n a) := by
  unfold oneofStep
  smr
  all_goals (cases ‹Token› <;> smr)
macro_rules | `(tactic| sml) => `(tactic| with_reducible first | exact same_oneofStep (by assumption) (by assumption) | exact Same.any (same_oneofStep (by assumption) (by assumption)))

theorem same_parseOneof [FloatFmt] {body0 body : Prog (Ast.MessageBody × Span)} (hb : Same Any body0 body) {n0 n} (hn : n ≤ n0) : Same (Any) (parseOneof body0 n0) (parseOneof body n) := by
  unfold parseOneof
  smr
  exact same_loopM (R := Any) (fun _ _ _ => same_oneofStep hb hn) hn trivial
macro_rules | `(tactic| sml) => `(tactic| with_reducible first | exact same_parseOneof (by assumption) (by assumption) | exact Same.any (same_parseOneof (by assumption) (by assumption)))

theorem same_extendStep [FloatFmt] {body0 body : Prog (Ast.MessageBody × Span)} (hb : Same Any body0 body) {n0 n} (hn : n ≤ n0) {a0 a} : Same (StepRel Any Any) (extendStep body0 n0 a0) (extendStep body n a) := by
  unfold extendStep
  smr
  all_goals (cases ‹Token› <;> smr)
macro_rules | `(tactic| sml) => `(tactic| with_reducible first | exact same_extendStep (by assumption) (by assumption) | exact Same.any (same_extendStep (by assumption) (by assumption)))

theorem same_parseExtend [FloatFmt] {body0 body : Prog (Ast.MessageBody × Span)} (hb : Same Any body0 body) {n0 n} (hn : n ≤ n0) : Same (Any) (parseExtend body0 n0) (parseExtend body n) := by
  unfold parseExtend
  smr
  exact same_loopM (R := Any) (fun _ _ _ => same_extendStep hb hn) hn trivial
macro_rules | `(tactic| sml) => `(tactic| with_reducible first | exact same_parseExtend (by assumption) (by assumption) | exact Same.any (same_parseExtend (by assumption) (by assumption)))

theorem same_parseMessage {body0 body : Prog (Ast.MessageBody × Span)} (hb : Same Any body0 body) : Same (Any) (parseMessage body0) (parseMessage body) := by
  unfold parseMessage
  smr
macro_rules | `(tactic| sml) => `(tactic| with_reducible first | exact same_parseMessage (by assumption) | exact Same.any (same_parseMessage (by assumption)))

theorem same_bodyStep [FloatFmt] {body0 body : Prog (Ast.MessageBody × Span)} (hb : Same Any body0 body) {n0 n} (hn : n ≤ n0) {a0 a} : Same (StepRel Any Any) (bodyStep body0 n0 a0) (bodyStep body n a) := by
  unfold bodyStep
  smr
  all_goals (cases ‹Token› <;> smr)
macro_rules | `(tactic| sml) => `(tactic| with_reducible first | exact same_bodyStep (by assumption) (by assumption) | exact Same.any (same_bodyStep (by assumption) (by assumption)))

theorem same_parseMessageBody [FloatFmt] {n0 n} (hn : n ≤ n0) : ∀ {d0 d}, d ≤ d0 → Same Any (parseMessageBody n0 d0) (parseMessageBody n d)
  | _, 0, _ => .bot _
  | 0, _ + 1, h => absurd h (by omega)
  | _ + 1, _ + 1, h => same_loopM (R := Any) (fun _ _ _ => same_bodyStep (same_parseMessageBody hn (by omega)) hn) hn trivial

theorem same_parseStreaming : Same (Any) (parseStreaming) (parseStreaming) := by
  unfold parseStreaming
  smr
macro_rules | `(tactic| sml) => `(tactic| with_reducible first | exact same_parseStreaming | exact Same.any (same_parseStreaming))

theorem same_methodOptionStep [FloatFmt] {n0 n} (hn : n ≤ n0) {a0 a} : Same (StepRel Any Any) (methodOptionStep n0 a0) (methodOptionStep n a) := by
  unfold methodOptionStep
  smr
macro_rules | `(tactic| sml) => `(tactic| with_reducible first | exact same_methodOptionStep (by assumption) | exact Same.any (same_methodOptionStep (by assumption)))

theorem same_parseRpc [FloatFmt] {n0 n} (hn : n ≤ n0) : Same (Any) (parseRpc n0) (parseRpc n) := by
  unfold parseRpc
  smr
  exact same_loopM (R := Any) (fun _ _ _ => same_methodOptionStep hn) hn trivial
macro_rules | `(tactic| sml) => `(tactic| with_reducible first | exact same_parseRpc (by assumption) | exact Same.any (same_parseRpc (by assumption)))

theorem same_serviceStep [FloatFmt] {n0 n} (hn : n ≤ n0) {a0 a} : Same (StepRel Any Any) (serviceStep n0 a0) (serviceStep n a) := by
  unfold serviceStep
  smr
macro_rules | `(tactic| sml) => `(tactic| with_reducible first | exact same_serviceStep (by assumption) | exact Same.any (same_serviceStep (by assumption)))

theorem same_parseService [FloatFmt] {n0 n} (hn : n ≤ n0) : Same (Any) (parseService n0) (parseService n) := by
  unfold parseService
  smr
  exact same_loopM (R := Any) (fun _ _ _ => same_serviceStep hn) hn trivial
macro_rules | `(tactic| sml) => `(tactic| with_reducible first | exact same_parseService (by assumption) | exact Same.any (same_parseService (by assumption)))

theorem same_parsePackage {n0 n} (hn : n ≤ n0) : Same (Any) (parsePackage n0) (parsePackage n) := by
  unfold parsePackage
  smr
macro_rules | `(tactic| sml) => `(tactic| with_reducible first | exact same_parsePackage (by assumption) | exact Same.any (same_parsePackage (by assumption)))

theorem same_parseImport {n0 n} (hn : n ≤ n0) : Same (Any) (parseImport n0) (parseImport n) := by
  unfold parseImport
  refine Same.bind same_leading fun _ _ _ => ?_
  refine Same.bind same_expectEq fun _ _ _ => ?_
  refine Same.bind (R := Any) ?_ fun _ _ _ => ?_
  · smr
    rename_i t _ _ _
    cases t <;> smr
  refine Same.bind (same_parseUtf8String hn) fun a0 a ha => ?_
  dsimp only
  rw [ha]
  smr
macro_rules | `(tactic| sml) => `(tactic| with_reducible first | exact same_parseImport (by assumption) | exact Same.any (same_parseImport (by assumption)))

theorem same_parseSyntax {n0 n} (hn : n ≤ n0) : Same (Any) (parseSyntax n0) (parseSyntax n) := by
  unfold parseSyntax
  refine Same.bind same_leading fun _ _ _ => ?_
  refine Same.bind same_expectEq fun _ _ _ => ?_
  refine Same.bind same_expectEq fun _ _ _ => ?_
  refine same_look same_peek (fun t _ => ?_) (same_unexpected rfl)
  cases t <;> try exact same_unexpected rfl
  refine Same.bind (same_parseString hn) fun a0 a ha => ?_
  rw [ha]
  smr
  exact .failed
macro_rules | `(tactic| sml) => `(tactic| with_reducible first | exact same_parseSyntax (by assumption) | exact Same.any (same_parseSyntax (by assumption)))

theorem same_parseStatement [FloatFmt] {n0 n} (hn : n ≤ n0) : Same (fun a0 a => a0.isSome = a.isSome) (parseStatement n0) (parseStatement n) := by
  unfold parseStatement
  have hb : Same Any (parseMessageBody n0 n0) (parseMessageBody n n) := same_parseMessageBody hn hn
  smr
macro_rules | `(tactic| sml) => `(tactic| with_reducible first | exact same_parseStatement (by assumption) | exact Same.any (same_parseStatement (by assumption)))

theorem same_parseHeader {n0 n} (hn : n ≤ n0) {l0 l} : Same Any (parseHeader n0 l0) (parseHeader n l) := by
  unfold parseHeader
  smr

end Verif.Exec
