import Verif.Model.Parser
/-!
Loop counters do not matter: a run that does not exhaust its counters is the run with any larger counters.
-/
namespace Verif.Fuel
open Verif.Parse Lean.Order

/-- The first program is the second one, except that some counters run out earlier. -/
inductive Le {α : Type} : Prog α → Prog α → Prop
  | bot (q) : Le .outOfFuel q
  | ret (a) : Le (.ret a) (.ret a)
  | peek {k k'} (h : ∀ x, Le (k x) (k' x)) : Le (.peekThen k) (.peekThen k')
  | peekSkip {k k'} (h : ∀ x, Le (k x) (k' x)) : Le (.peekSkipThen k) (.peekSkipThen k')
  | bump {k k'} (h : ∀ x, Le (k x) (k' x)) : Le (.bumpThen k) (.bumpThen k')
  | addError (e) {k k'} (h : Le k k') : Le (.addErrorThen e k) (.addErrorThen e k')
  | leading {k k'} (h : ∀ x, Le (k x) (k' x)) : Le (.leadingThen k) (.leadingThen k')
  | trailing (l) {k k'} (h : ∀ x, Le (k x) (k' x)) : Le (.trailingThen l k) (.trailingThen l k')
  | setTextMode (b) {k k'} (h : Le k k') : Le (.setTextModeThen b k) (.setTextModeThen b k')
  | assertNoPeek {k k'} (h : Le k k') : Le (.assertNoPeekThen k) (.assertNoPeekThen k')
  | failed : Le .failed .failed
  | panicked : Le .panicked .panicked

theorem Le.refl {α : Type} : ∀ p : Prog α, Le p p := by
  intro p
  induction p with
  | ret a => exact .ret a
  | peekThen k ih => exact .peek ih
  | peekSkipThen k ih => exact .peekSkip ih
  | bumpThen k ih => exact .bump ih
  | addErrorThen e k ih => exact .addError e ih
  | leadingThen k ih => exact .leading ih
  | trailingThen l k ih => exact .trailing l ih
  | setTextModeThen b k ih => exact .setTextMode b ih
  | assertNoPeekThen k ih => exact .assertNoPeek ih
  | failed => exact .failed
  | panicked => exact .panicked
  | outOfFuel => exact .bot _

theorem Le.trans {α : Type} {p q r : Prog α} (h : Le p q) : Le q r → Le p r := by
  intro h'
  induction h generalizing r with
  | bot => exact .bot _
  | ret a => exact h'
  | peek h ih => cases h' with | peek h' => exact .peek fun x => ih x (h' x)
  | peekSkip h ih => cases h' with | peekSkip h' => exact .peekSkip fun x => ih x (h' x)
  | bump h ih => cases h' with | bump h' => exact .bump fun x => ih x (h' x)
  | addError e h ih => cases h' with | addError _ h' => exact .addError e (ih h')
  | leading h ih => cases h' with | leading h' => exact .leading fun x => ih x (h' x)
  | trailing l h ih => cases h' with | trailing _ h' => exact .trailing l fun x => ih x (h' x)
  | setTextMode b h ih => cases h' with | setTextMode _ h' => exact .setTextMode b (ih h')
  | assertNoPeek h ih => cases h' with | assertNoPeek h' => exact .assertNoPeek (ih h')
  | failed => exact h'
  | panicked => exact h'

theorem Le.antisymm {α : Type} {p q : Prog α} (h : Le p q) : Le q p → p = q := by
  intro h'
  induction h with
  | bot q => cases h'; rfl
  | ret a => rfl
  | peek h ih => cases h' with | peek h' => exact congrArg _ (funext fun x => ih x (h' x))
  | peekSkip h ih => cases h' with | peekSkip h' => exact congrArg _ (funext fun x => ih x (h' x))
  | bump h ih => cases h' with | bump h' => exact congrArg _ (funext fun x => ih x (h' x))
  | addError e h ih => cases h' with | addError _ h' => exact congrArg _ (ih h')
  | leading h ih => cases h' with | leading h' => exact congrArg _ (funext fun x => ih x (h' x))
  | trailing l h ih => cases h' with | trailing _ h' => exact congrArg _ (funext fun x => ih x (h' x))
  | setTextMode b h ih => cases h' with | setTextMode _ h' => exact congrArg _ (ih h')
  | assertNoPeek h ih => cases h' with | assertNoPeek h' => exact congrArg _ (ih h')
  | failed => rfl
  | panicked => rfl

theorem Le.bind {α β : Type} {p q : Prog α} {f g : α → Prog β} (h : Le p q) (hf : ∀ a, Le (f a) (g a)) :
    Le (p.bind f) (q.bind g) := by
  induction h with
  | bot q => exact .bot _
  | ret a => exact hf a
  | peek h ih => exact .peek ih
  | peekSkip h ih => exact .peekSkip ih
  | bump h ih => exact .bump ih
  | addError e h ih => exact .addError e ih
  | leading h ih => exact .leading ih
  | trailing l h ih => exact .trailing l ih
  | setTextMode b h ih => exact .setTextMode b ih
  | assertNoPeek h ih => exact .assertNoPeek ih
  | failed => exact .failed
  | panicked => exact .panicked

instance {α : Type} : PartialOrder (Prog α) where
  rel := Le
  rel_refl := Le.refl _
  rel_trans := Le.trans
  rel_antisymm := Le.antisymm

instance : MonoBind Prog where
  bind_mono_left h := Le.bind h fun _ => Le.refl _
  bind_mono_right h := Le.bind (Le.refl _) h

instance : PartialOrder Nat where
  rel := (· ≤ ·)
  rel_refl := Nat.le_refl _
  rel_trans := Nat.le_trans
  rel_antisymm := Nat.le_antisymm

theorem loopM_le {σ β : Type} {step step' : σ → Prog (Step σ β)} (h : ∀ s, Le (step s) (step' s)) :
    ∀ {n n' : Nat}, n ≤ n' → ∀ s, Le (loopM step n s) (loopM step' n' s)
  | 0, _, _, _ => .bot _
  | n + 1, 0, hn, _ => absurd hn (by omega)
  | n + 1, n' + 1, hn, s => by
    refine Le.bind (h s) fun a => ?_
    cases a with
    | next s' => exact loopM_le h (by omega) s'
    | done b => exact Le.refl _

@[partial_fixpoint_monotone]
theorem mono_loopM {γ σ β : Type} [PartialOrder γ] {step : γ → σ → Prog (Step σ β)} {n : γ → Nat} {s : σ}
    (h : ∀ t, monotone fun x => step x t) (hn : monotone n) : monotone fun x => loopM (step x) (n x) s :=
  fun x y hxy => loopM_le (fun t => h t x y hxy) (hn x y hxy) s

@[partial_fixpoint_monotone]
theorem mono_id {γ : Type} [PartialOrder γ] : monotone fun x : γ => x := fun _ _ h => h

/-- A two-point order, to compare two given things. -/
inductive Two where
  | lo
  | hi

/-- The thing at a point. -/
def Two.pick {α : Type} (t : Two) (a b : α) : α := match t with
  | .lo => a
  | .hi => b

/-- The order on the two points. -/
def Two.le : Two → Two → Prop
  | .hi, .lo => False
  | _, _ => True

instance : PartialOrder Two where
  rel := Two.le
  rel_refl {x} := by cases x <;> trivial
  rel_trans {x y z} := by cases x <;> cases y <;> cases z <;> simp [Two.le]
  rel_antisymm {x y} := by cases x <;> cases y <;> simp [Two.le]

theorem Two.mono {α : Type} [PartialOrder α] {a b : α} (h : a ⊑ b) : monotone fun t : Two => t.pick a b := by
  intro x y hxy
  cases x <;> cases y
  · exact PartialOrder.rel_refl
  · exact h
  · exact hxy.elim
  · exact PartialOrder.rel_refl

/-! ### The methods -/
variable {γ : Type} [PartialOrder γ] {n : γ → Nat} (hn : monotone n)
include hn

@[partial_fixpoint_monotone]
theorem mono_parseString : monotone fun x => parseString (n x) := by
  unfold parseString
  repeat' monotonicity
  assumption

@[partial_fixpoint_monotone]
theorem mono_parseUtf8String : monotone fun x => parseUtf8String (n x) := by
  unfold parseUtf8String
  repeat' monotonicity
  all_goals assumption

@[partial_fixpoint_monotone]
theorem mono_parseFullIdent (terms) : monotone fun x => parseFullIdent (n x) terms := by
  unfold parseFullIdent
  repeat' monotonicity
  all_goals assumption

@[partial_fixpoint_monotone]
theorem mono_parseTypeName (terms) : monotone fun x => parseTypeName (n x) terms := by
  unfold parseTypeName
  repeat' monotonicity
  all_goals assumption

@[partial_fixpoint_monotone]
theorem mono_parseTextFormat [FloatFmt] : monotone fun x => parseTextFormat (n x) := by
  unfold parseTextFormat
  repeat' monotonicity
  all_goals assumption

@[partial_fixpoint_monotone]
theorem mono_parseOptionNamePart : monotone fun x => parseOptionNamePart (n x) := by
  unfold parseOptionNamePart
  repeat' monotonicity
  all_goals assumption

@[partial_fixpoint_monotone]
theorem mono_optionNameStep (a) : monotone fun x => optionNameStep (n x) a := by
  unfold optionNameStep
  repeat' monotonicity
  all_goals assumption

@[partial_fixpoint_monotone]
theorem mono_parseOptionValue [FloatFmt] : monotone fun x => parseOptionValue (n x) := by
  unfold parseOptionValue
  repeat' monotonicity
  all_goals assumption

@[partial_fixpoint_monotone]
theorem mono_parseOptionBody [FloatFmt] : monotone fun x => parseOptionBody (n x) := by
  unfold parseOptionBody
  repeat' monotonicity
  all_goals assumption

@[partial_fixpoint_monotone]
theorem mono_parseOption [FloatFmt] : monotone fun x => parseOption (n x) := by
  unfold parseOption
  repeat' monotonicity
  all_goals assumption

@[partial_fixpoint_monotone]
theorem mono_optionsListStep [FloatFmt] (a) : monotone fun x => optionsListStep (n x) a := by
  unfold optionsListStep
  repeat' monotonicity
  all_goals assumption

@[partial_fixpoint_monotone]
theorem mono_parseOptionsList [FloatFmt] : monotone fun x => parseOptionsList (n x) := by
  unfold parseOptionsList
  repeat' monotonicity
  all_goals assumption

@[partial_fixpoint_monotone]
theorem mono_parseOptOptions [FloatFmt] (a) : monotone fun x => parseOptOptions (n x) a := by
  unfold parseOptOptions
  repeat' monotonicity
  all_goals assumption

@[partial_fixpoint_monotone]
theorem mono_parseReservedRanges (a) : monotone fun x => parseReservedRanges (n x) a := by
  unfold parseReservedRanges
  repeat' monotonicity
  all_goals assumption

@[partial_fixpoint_monotone]
theorem mono_parseIdentString : monotone fun x => parseIdentString (n x) := by
  unfold parseIdentString
  repeat' monotonicity
  all_goals assumption

@[partial_fixpoint_monotone]
theorem mono_reservedNamesStep (a) : monotone fun x => reservedNamesStep (n x) a := by
  unfold reservedNamesStep
  repeat' monotonicity
  all_goals assumption

@[partial_fixpoint_monotone]
theorem mono_parseReservedNames : monotone fun x => parseReservedNames (n x) := by
  unfold parseReservedNames
  repeat' monotonicity
  all_goals assumption

@[partial_fixpoint_monotone]
theorem mono_parseReserved : monotone fun x => parseReserved (n x) := by
  unfold parseReserved
  repeat' monotonicity
  all_goals assumption

@[partial_fixpoint_monotone]
theorem mono_parseExtensions [FloatFmt] : monotone fun x => parseExtensions (n x) := by
  unfold parseExtensions
  repeat' monotonicity
  all_goals assumption

@[partial_fixpoint_monotone]
theorem mono_parseFieldType (a) : monotone fun x => parseFieldType (n x) a := by
  unfold parseFieldType
  repeat' monotonicity
  all_goals assumption

@[partial_fixpoint_monotone]
theorem mono_parseMap [FloatFmt] (a b c) : monotone fun x => parseMap (n x) a b c := by
  unfold parseMap
  repeat' monotonicity
  all_goals assumption

@[partial_fixpoint_monotone]
theorem mono_parseGroup [FloatFmt] {body : γ → Prog (Ast.MessageBody × Span)} (hb : monotone body) (a b c) : monotone fun x => parseGroup (body x) (n x) a b c := by
  unfold parseGroup
  repeat' monotonicity
  all_goals assumption

@[partial_fixpoint_monotone]
theorem mono_parseNormalField [FloatFmt] (a b c) : monotone fun x => parseNormalField (n x) a b c := by
  unfold parseNormalField
  repeat' monotonicity
  all_goals assumption

@[partial_fixpoint_monotone]
theorem mono_parseField [FloatFmt] {body : γ → Prog (Ast.MessageBody × Span)} (hb : monotone body) : monotone fun x => parseField (body x) (n x) := by
  unfold parseField
  repeat' monotonicity
  all_goals assumption

@[partial_fixpoint_monotone]
theorem mono_parseEnumValue [FloatFmt] : monotone fun x => parseEnumValue (n x) := by
  unfold parseEnumValue
  repeat' monotonicity
  all_goals assumption

@[partial_fixpoint_monotone]
theorem mono_enumStep [FloatFmt] (a) : monotone fun x => enumStep (n x) a := by
  unfold enumStep
  repeat' monotonicity
  all_goals assumption

@[partial_fixpoint_monotone]
theorem mono_parseEnum [FloatFmt] : monotone fun x => parseEnum (n x) := by
  unfold parseEnum
  repeat' monotonicity
  all_goals assumption

@[partial_fixpoint_monotone]
theorem mono_oneofStep [FloatFmt] {body : γ → Prog (Ast.MessageBody × Span)} (hb : monotone body) (a) : monotone fun x => oneofStep (body x) (n x) a := by
  unfold oneofStep
  repeat' monotonicity
  all_goals assumption

@[partial_fixpoint_monotone]
theorem mono_parseOneof [FloatFmt] {body : γ → Prog (Ast.MessageBody × Span)} (hb : monotone body) : monotone fun x => parseOneof (body x) (n x) := by
  unfold parseOneof
  repeat' monotonicity
  all_goals assumption

@[partial_fixpoint_monotone]
theorem mono_extendStep [FloatFmt] {body : γ → Prog (Ast.MessageBody × Span)} (hb : monotone body) (a) : monotone fun x => extendStep (body x) (n x) a := by
  unfold extendStep
  repeat' monotonicity
  all_goals assumption

@[partial_fixpoint_monotone]
theorem mono_parseExtend [FloatFmt] {body : γ → Prog (Ast.MessageBody × Span)} (hb : monotone body) : monotone fun x => parseExtend (body x) (n x) := by
  unfold parseExtend
  repeat' monotonicity
  all_goals assumption

omit hn in
@[partial_fixpoint_monotone]
theorem mono_parseMessage {body : γ → Prog (Ast.MessageBody × Span)} (hb : monotone body) : monotone fun x => parseMessage (body x) := by
  unfold parseMessage
  repeat' monotonicity
  all_goals assumption

@[partial_fixpoint_monotone]
theorem mono_bodyStep [FloatFmt] {body : γ → Prog (Ast.MessageBody × Span)} (hb : monotone body) (a) : monotone fun x => bodyStep (body x) (n x) a := by
  unfold bodyStep
  repeat' monotonicity
  all_goals assumption

@[partial_fixpoint_monotone]
theorem mono_parseMessageBody [FloatFmt] {d : γ → Nat} (hd : monotone d) : monotone fun x => parseMessageBody (n x) (d x) := by
  intro x y hxy
  have h1 := hd x y hxy
  have h2 := hn x y hxy
  show Le (parseMessageBody (n x) (d x)) (parseMessageBody (n y) (d y))
  generalize d x = a, d y = b at h1
  clear hd
  induction a generalizing b with
  | zero => exact .bot _
  | succ a ih =>
    cases b with
    | zero => exact absurd h1 (by show ¬ (_ ≤ _); omega)
    | succ b =>
      refine loopM_le (fun s => ?_) h2 _
      have := mono_bodyStep (γ := Two) (n := fun t => t.pick (n x) (n y)) ?_ (body := fun t => t.pick (parseMessageBody (n x) a) (parseMessageBody (n y) b)) ?_ s .lo .hi trivial
      · exact this
      · exact Two.mono h2
      · exact Two.mono (ih _ (Nat.le_of_succ_le_succ h1))

@[partial_fixpoint_monotone]
theorem mono_methodOptionStep [FloatFmt] (a) : monotone fun x => methodOptionStep (n x) a := by
  unfold methodOptionStep
  repeat' monotonicity
  all_goals assumption

@[partial_fixpoint_monotone]
theorem mono_parseRpc [FloatFmt] : monotone fun x => parseRpc (n x) := by
  unfold parseRpc
  repeat' monotonicity
  all_goals assumption

@[partial_fixpoint_monotone]
theorem mono_serviceStep [FloatFmt] (a) : monotone fun x => serviceStep (n x) a := by
  unfold serviceStep
  repeat' monotonicity
  all_goals assumption

@[partial_fixpoint_monotone]
theorem mono_parseService [FloatFmt] : monotone fun x => parseService (n x) := by
  unfold parseService
  repeat' monotonicity
  all_goals assumption

@[partial_fixpoint_monotone]
theorem mono_parsePackage : monotone fun x => parsePackage (n x) := by
  unfold parsePackage
  repeat' monotonicity
  all_goals assumption

@[partial_fixpoint_monotone]
theorem mono_parseImport : monotone fun x => parseImport (n x) := by
  unfold parseImport
  repeat' monotonicity
  all_goals assumption

@[partial_fixpoint_monotone]
theorem mono_parseSyntax : monotone fun x => parseSyntax (n x) := by
  unfold parseSyntax
  repeat' monotonicity
  all_goals assumption

@[partial_fixpoint_monotone]
theorem mono_parseStatement [FloatFmt] : monotone fun x => parseStatement (n x) := by
  unfold parseStatement
  repeat' monotonicity
  all_goals assumption

@[partial_fixpoint_monotone]
theorem mono_parseHeader (a) : monotone fun x => parseHeader (n x) a := by
  unfold parseHeader
  repeat' monotonicity
  all_goals assumption

end Verif.Fuel
