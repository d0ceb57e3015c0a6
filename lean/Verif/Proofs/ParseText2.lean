import Verif.Proofs.ParseText
/-! One lemma per grammar method: the tree it builds and the errors it reports. -/
namespace Verif.Text
open Parse Lex Ast
variable {B : Nat → Prop}

/-- The lemma for the method called. -/
syntax "bzl" : tactic
macro_rules | `(tactic| bzl) => `(tactic| exact bz_unexpected)
macro_rules | `(tactic| bzl) => `(tactic| with_reducible refine bz_bind bz_expectEq fun _ _ => ?_)

/-- Putting a tree together. -/
syntax "bzf" : tactic
macro_rules | `(tactic| bzf) => `(tactic| first
  | trivial
  | assumption
  | exact all_nil
  | exact opt_none
  | (refine Sp.join ?_ ?_ <;> assumption)
  | (refine all_snoc ?_ ?_ <;> bzf)
  | (refine all_one ?_ <;> bzf)
  | (refine opt_some ?_ <;> bzf)
  | (apply And.intro <;> bzf))

macro "bzs" : tactic => `(tactic| first
  | with_reducible exact bz_unexpected
  | (with_reducible refine bz_peek (fun _ _ _ => ?_) ?_ <;> dsimp only)
  | (with_reducible refine bz_peekSkip (fun _ _ _ => ?_) ?_ <;> dsimp only)
  | (with_reducible refine bz_bump fun _ _ => ?_)
  | (with_reducible refine bz_leading fun _ _ => ?_)
  | (with_reducible refine bz_trailing (by assumption) fun _ _ => ?_)
  | bzl
  | split
  | (refine bz_pure ?_; bzf))
macro "bzr" : tactic => `(tactic| repeat' bzs)

theorem bz_parseIdent : bz B parseIdent (fun i => Sp B i.span) := by
  unfold parseIdent
  bzr
macro_rules | `(tactic| bzl) => `(tactic| with_reducible refine bz_bind bz_parseIdent fun _ _ => ?_)

theorem bz_parseInt : bz B parseInt (fun i => Sp B i.span) := by
  unfold parseInt
  refine bz_bind (Q := optSpB B) (by bzr) fun st hst => ?_
  bzr
  exact bz_pure (Sp.join (hst _ rfl) (by assumption))
macro_rules | `(tactic| bzl) => `(tactic| with_reducible refine bz_bind bz_parseInt fun _ _ => ?_)

theorem bz_parseString {fuel} : bz B (parseString fuel) (fun i => Sp B i.span) := by
  unfold parseString
  bzr
  refine bz_loopM (I := fun i => Sp B i.span) ?_ _ _ (by assumption)
  intro s hs
  unfold stringStep
  bzr
macro_rules | `(tactic| bzl) => `(tactic| with_reducible refine bz_bind bz_parseString fun _ _ => ?_)

theorem bz_parseUtf8String {fuel} : bz B (parseUtf8String fuel) (fun i => Sp B i.2) := by
  unfold parseUtf8String
  bzr
  refine bz_addError (e := _) (fun s hs => ?_) ?_
  · exact all_one (by assumption) s hs
  bzr
macro_rules | `(tactic| bzl) => `(tactic| with_reducible refine bz_bind bz_parseUtf8String fun _ _ => ?_)

theorem bz_parseFullIdent {fuel terms} : bz B (parseFullIdent fuel terms) (FullIdentB B) := by
  unfold parseFullIdent
  refine bz_bind bz_parseIdent fun i hi => ?_
  refine bz_loopM (I := fun l => ∀ i ∈ l, Sp B i.span) ?_ _ _ (all_one hi)
  intro s hs
  unfold fullIdentStep
  bzr
macro_rules | `(tactic| bzl) => `(tactic| with_reducible refine bz_bind bz_parseFullIdent fun _ _ => ?_)

theorem bz_parseTypeName {fuel terms} : bz B (parseTypeName fuel terms) (TypeNameB B) := by
  unfold parseTypeName
  refine bz_bind (Q := optSpB B) (by bzr) fun st hst => ?_
  bzr
macro_rules | `(tactic| bzl) => `(tactic| with_reducible refine bz_bind bz_parseTypeName fun _ _ => ?_)

theorem bz_parseTextFormat [FloatFmt] {fuel} : bz B (parseTextFormat fuel) (fun _ => True) := by
  unfold parseTextFormat
  refine bz_bind (Q := fun _ => True) trivial fun _ _ => ?_
  refine bz_bind (Q := fun _ => True) trivial fun _ _ => ?_
  refine bz_bind (Q := fun _ => True) ?_ fun _ _ => ?_
  · refine bz_loopM (I := fun _ => True) ?_ _ _ trivial
    intro s _
    unfold textFormatStep
    bzr
  · exact bz_bind (Q := fun _ => True) trivial fun _ _ => trivial
macro_rules | `(tactic| bzl) => `(tactic| with_reducible refine bz_bind bz_parseTextFormat fun _ _ => ?_)

theorem bz_parseOptionNamePart {fuel} : bz B (parseOptionNamePart fuel) (OptionNamePartB B) := by
  unfold parseOptionNamePart
  bzr
macro_rules | `(tactic| bzl) => `(tactic| with_reducible refine bz_bind bz_parseOptionNamePart fun _ _ => ?_)

theorem bz_parseOptionValue [FloatFmt] {fuel} : bz B (parseOptionValue fuel) (OptionValueB B) := by
  unfold parseOptionValue
  bzr
macro_rules | `(tactic| bzl) => `(tactic| with_reducible refine bz_bind bz_parseOptionValue fun _ _ => ?_)

theorem bz_parseOptionBody [FloatFmt] {fuel} : bz B (parseOptionBody fuel) (OptionBodyB B) := by
  unfold parseOptionBody
  refine bz_bind bz_parseOptionNamePart fun p hp => ?_
  refine bz_bind (Q := fun l => ∀ x ∈ l, OptionNamePartB B x) ?_ fun l hl => ?_
  · refine bz_loopM (I := fun l => ∀ x ∈ l, OptionNamePartB B x) ?_ _ _ (all_one hp)
    intro s hs
    unfold optionNameStep
    bzr
  · bzr
macro_rules | `(tactic| bzl) => `(tactic| with_reducible refine bz_bind bz_parseOptionBody fun _ _ => ?_)

theorem bz_parseOption [FloatFmt] {fuel} : bz B (parseOption fuel) (OptB B) := by
  unfold parseOption
  bzr
macro_rules | `(tactic| bzl) => `(tactic| with_reducible refine bz_bind bz_parseOption fun _ _ => ?_)

theorem bz_parseOptionsList [FloatFmt] {fuel} : bz B (parseOptionsList fuel) (OptionListB B) := by
  unfold parseOptionsList
  refine bz_bind bz_expectEq fun st hst => ?_
  refine bz_bind bz_parseOptionBody fun b hb => ?_
  refine bz_bind (Q := fun l => (∀ x ∈ l.1, OptionBodyB B x) ∧ Sp B l.2) ?_ fun l hl => ?_
  · refine bz_loopM (I := fun l => ∀ x ∈ l, OptionBodyB B x) ?_ _ _ (all_one hb)
    intro s hs
    unfold optionsListStep
    bzr
  · exact bz_pure ⟨hl.1, hst.join hl.2⟩
macro_rules | `(tactic| bzl) => `(tactic| with_reducible refine bz_bind bz_parseOptionsList fun _ _ => ?_)

theorem bz_parseOptOptions [FloatFmt] {fuel t} : bz B (parseOptOptions fuel t) (optListB B) := by
  unfold parseOptOptions
  bzr
macro_rules | `(tactic| bzl) => `(tactic| with_reducible refine bz_bind bz_parseOptOptions fun _ _ => ?_)

theorem bz_parseReservedRange : bz B parseReservedRange (RangeB B) := by
  unfold parseReservedRange
  bzr
macro_rules | `(tactic| bzl) => `(tactic| with_reducible refine bz_bind bz_parseReservedRange fun _ _ => ?_)

theorem bz_parseReservedRanges {fuel terms} : bz B (parseReservedRanges fuel terms) (fun l => ∀ r ∈ l, RangeB B r) := by
  unfold parseReservedRanges
  refine bz_bind bz_parseReservedRange fun i hi => ?_
  refine bz_loopM (I := fun l => ∀ i ∈ l, RangeB B i) ?_ _ _ (all_one hi)
  intro s hs
  unfold reservedRangesStep
  bzr
macro_rules | `(tactic| bzl) => `(tactic| with_reducible refine bz_bind bz_parseReservedRanges fun _ _ => ?_)

theorem bz_parseIdentString {fuel} : bz B (parseIdentString fuel) (fun i => Sp B i.span) := by
  unfold parseIdentString
  bzr
  refine bz_addError (e := _) (fun s hs => ?_) ?_
  · exact all_one (by assumption) s hs
  bzr
macro_rules | `(tactic| bzl) => `(tactic| with_reducible refine bz_bind bz_parseIdentString fun _ _ => ?_)

theorem bz_parseReservedNames {fuel} :
    bz B (parseReservedNames fuel) (fun l => (∀ r ∈ l.1, Sp B r.span) ∧ Sp B l.2) := by
  unfold parseReservedNames
  refine bz_bind bz_parseIdentString fun i hi => ?_
  refine bz_loopM (I := fun l => ∀ i ∈ l, Sp B i.span) ?_ _ _ (all_one hi)
  intro s hs
  unfold reservedNamesStep
  bzr

theorem bz_parseReserved {fuel} : bz B (parseReserved fuel) (ReservedB B) := by
  unfold parseReserved
  bzr
  refine bz_bind bz_parseReservedNames fun l hl => ?_
  have h1 := hl.1
  have h2 := hl.2
  bzr
macro_rules | `(tactic| bzl) => `(tactic| with_reducible refine bz_bind bz_parseReserved fun _ _ => ?_)

theorem bz_parseExtensions [FloatFmt] {fuel} : bz B (parseExtensions fuel) (ExtensionsB B) := by
  unfold parseExtensions
  bzr
macro_rules | `(tactic| bzl) => `(tactic| with_reducible refine bz_bind bz_parseExtensions fun _ _ => ?_)

theorem scalarTy_b {tok ty} (h : scalarTy tok = some ty) : TyB B ty := by
  have key : ∀ (c : Prop) [Decidable c] (x y : Option Ty), (∀ t, x = some t → TyB B t) → (∀ t, y = some t → TyB B t) →
      ∀ t, (if c then x else y) = some t → TyB B t := by
    intro c _ x y hx hy t ht
    split at ht
    · exact hx t ht
    · exact hy t ht
  refine (?_ : ∀ ty, scalarTy tok = some ty → TyB B ty) ty h
  clear h
  unfold scalarTy
  repeat' first
    | (refine key _ _ _ ?_ ?_)
    | (intro t ht; cases ht <;> trivial)

theorem bz_parseFieldType {fuel terms} : bz B (parseFieldType fuel terms) (fun x => TyB B x.1 ∧ Sp B x.2) := by
  unfold parseFieldType
  refine bz_peek (fun tok span hsp => ?_) bz_unexpected
  dsimp only
  split
  · rename_i ty hty
    exact bz_bump fun _ _ => bz_pure ⟨scalarTy_b hty, hsp⟩
  · split
    · refine bz_bind bz_parseTypeName fun t ht => ?_
      split
      · rename_i sp' h'
        exact bz_pure ⟨ht, typeName_spB ht h'⟩
      · trivial
    · exact bz_unexpected

theorem bz_parseMap [FloatFmt] {fuel lead start label} (hl : LeadV lead) (hs : Sp B start) (hb : labelB B label) :
    bz B (parseMap fuel lead start label) (FieldB B) := by
  unfold parseMap
  refine bz_bind bz_expectEq fun _ _ => ?_
  refine bz_bind bz_expectEq fun _ _ => ?_
  refine bz_bind bz_parseFieldType fun x hx => ?_
  have hx1 := hx.1
  have hx2 := hx.2
  refine bz_bind bz_expectEq fun _ _ => ?_
  refine bz_bind bz_parseFieldType fun y hy => ?_
  have hy1 := hy.1
  have hy2 := hy.2
  bzr

theorem bz_parseNormalField [FloatFmt] {fuel lead start label} (hl : LeadV lead) (hs : Sp B start) (hb : labelB B label) :
    bz B (parseNormalField fuel lead start label) (FieldB B) := by
  unfold parseNormalField
  refine bz_bind bz_parseFieldType fun x hx => ?_
  have hx1 := hx.1
  have hx2 := hx.2
  bzr

/-- The nested bodies. -/
def BodyOk (B : Nat → Prop) (body : Prog (MessageBody × Span)) : Prop :=
  bz B body (fun x => MessageBodyB B x.1 ∧ Sp B x.2)

theorem bz_parseGroup [FloatFmt] {body fuel lead start label} (hbody : BodyOk B body) (hl : LeadV lead) (hs : Sp B start)
    (hb : labelB B label) : bz B (parseGroup body fuel lead start label) (FieldB B) := by
  unfold parseGroup
  refine bz_bind bz_expectEq fun _ _ => ?_
  refine bz_bind bz_parseIdent fun i hi => ?_
  refine bz_bind (Q := fun _ => True) ?_ fun _ _ => ?_
  · split
    · trivial
    · exact ⟨all_one hi, trivial⟩
  refine bz_bind bz_expectEq fun _ _ => ?_
  refine bz_bind bz_parseInt fun _ _ => ?_
  refine bz_bind bz_parseOptOptions fun _ _ => ?_
  refine bz_bind bz_expectEq fun _ _ => ?_
  refine bz_trailing hl fun _ _ => ?_
  refine bz_bind hbody fun x hx => ?_
  have hx1 := hx.1
  have hx2 := hx.2
  refine bz_pure ?_
  rw [FieldB, FieldKindB]
  bzf

theorem bz_parseLabel : bz B parseLabel (fun x => labelB B x.1 ∧ Sp B x.2) := by
  unfold parseLabel
  bzr

theorem bz_parseField [FloatFmt] {body fuel} (hbody : BodyOk B body) : bz B (parseField body fuel) (FieldB B) := by
  unfold parseField
  refine bz_leading fun _ hl => ?_
  refine bz_bind bz_parseLabel fun x hx => ?_
  refine bz_peek (fun _ _ _ => ?_) ?_
  · dsimp only
    split
    · exact bz_parseMap hl hx.2 hx.1
    · split
      · exact bz_parseGroup hbody hl hx.2 hx.1
      · exact bz_parseNormalField hl hx.2 hx.1
  · exact bz_parseNormalField hl hx.2 hx.1
macro_rules | `(tactic| bzl) => `(tactic| with_reducible refine bz_bind (bz_parseField (by assumption)) fun _ _ => ?_)

theorem bz_parseEnumValue [FloatFmt] {fuel} : bz B (parseEnumValue fuel) (EnumValueB B) := by
  unfold parseEnumValue
  bzr
macro_rules | `(tactic| bzl) => `(tactic| with_reducible refine bz_bind bz_parseEnumValue fun _ _ => ?_)

theorem bz_parseEnum [FloatFmt] {fuel} : bz B (parseEnum fuel) (EnumB B) := by
  unfold parseEnum
  refine bz_leading fun _ hl => ?_
  refine bz_bind bz_expectEq fun st hst => ?_
  refine bz_bind bz_parseIdent fun i hi => ?_
  refine bz_bind bz_expectEq fun _ _ => ?_
  refine bz_trailing hl fun _ _ => ?_
  let I : List Ast.Opt × List Ast.EnumValue × List Ast.Reserved → Prop := fun a =>
    (∀ o ∈ a.1, OptB B o) ∧ (∀ o ∈ a.2.1, EnumValueB B o) ∧ (∀ o ∈ a.2.2, ReservedB B o)
  refine bz_bind (Q := fun x => I x.1 ∧ Sp B x.2) ?_ fun x hx => ?_
  · refine bz_loopM (I := I) ?_ _ _ ⟨nofun, nofun, nofun⟩
    rintro ⟨a, b, c⟩ ⟨ha, hb, hc⟩
    unfold enumStep
    bzr
  · obtain ⟨⟨h1, h2, h3⟩, h4⟩ := hx
    exact bz_pure ⟨hi, h1, h2, h3, by assumption, hst.join h4⟩
macro_rules | `(tactic| bzl) => `(tactic| with_reducible refine bz_bind bz_parseEnum fun _ _ => ?_)

theorem bz_parseOneof [FloatFmt] {body fuel} (hbody : BodyOk B body) : bz B (parseOneof body fuel) (OneofB B) := by
  unfold parseOneof
  refine bz_leading fun _ hl => ?_
  refine bz_bind bz_expectEq fun st hst => ?_
  refine bz_bind bz_parseIdent fun i hi => ?_
  refine bz_bind bz_expectEq fun _ _ => ?_
  refine bz_trailing hl fun _ _ => ?_
  let I : List Ast.Opt × List Ast.Field → Prop := fun a => (∀ o ∈ a.1, OptB B o) ∧ (∀ o ∈ a.2, FieldB B o)
  refine bz_bind (Q := fun x => I x.1 ∧ Sp B x.2) ?_ fun x hx => ?_
  · refine bz_loopM (I := I) ?_ _ _ ⟨nofun, nofun⟩
    rintro ⟨a, b⟩ ⟨ha, hb⟩
    unfold oneofStep
    bzr
  · obtain ⟨⟨h1, h2⟩, h4⟩ := hx
    refine bz_pure ?_
    rw [OneofB]
    exact ⟨hi, h1, fieldsB_iff.2 h2, by assumption, hst.join h4⟩
macro_rules | `(tactic| bzl) => `(tactic| with_reducible refine bz_bind (bz_parseOneof (by assumption)) fun _ _ => ?_)

theorem bz_parseExtend [FloatFmt] {body fuel} (hbody : BodyOk B body) : bz B (parseExtend body fuel) (ExtendB B) := by
  unfold parseExtend
  refine bz_leading fun _ hl => ?_
  refine bz_bind bz_expectEq fun st hst => ?_
  refine bz_bind bz_parseTypeName fun i hi => ?_
  refine bz_bind bz_expectEq fun _ _ => ?_
  refine bz_trailing hl fun _ _ => ?_
  let I : List Ast.Field → Prop := fun a => (∀ o ∈ a, FieldB B o)
  refine bz_bind (Q := fun x => I x.1 ∧ Sp B x.2) ?_ fun x hx => ?_
  · refine bz_loopM (I := I) ?_ _ _ nofun
    intro a ha
    unfold extendStep
    bzr
  · obtain ⟨h1, h4⟩ := hx
    refine bz_pure ?_
    rw [ExtendB]
    exact ⟨hi, fieldsB_iff.2 h1, by assumption, hst.join h4⟩
macro_rules | `(tactic| bzl) => `(tactic| with_reducible refine bz_bind (bz_parseExtend (by assumption)) fun _ _ => ?_)

theorem bz_parseMessage {body} (hbody : BodyOk B body) : bz B (parseMessage body) (MessageB B) := by
  unfold parseMessage
  refine bz_leading fun _ hl => ?_
  refine bz_bind bz_expectEq fun st hst => ?_
  refine bz_bind bz_parseIdent fun i hi => ?_
  refine bz_bind bz_expectEq fun _ _ => ?_
  refine bz_trailing hl fun _ _ => ?_
  refine bz_bind hbody fun x hx => ?_
  refine bz_pure ?_
  rw [MessageB]
  exact ⟨hi, hx.1, by assumption, hst.join hx.2⟩
macro_rules | `(tactic| bzl) => `(tactic| with_reducible refine bz_bind (bz_parseMessage (by assumption)) fun _ _ => ?_)

structure BodyB (B : Nat → Prop) (b : MessageBody) : Prop where
  items : ∀ x ∈ b.items, MessageItemB B x
  exts : ∀ x ∈ b.extensions, ExtensionsB B x
  opts : ∀ x ∈ b.options, OptB B x
  res : ∀ x ∈ b.reserved, ReservedB B x

theorem BodyB.all {b} (h : BodyB B b) : MessageBodyB B b := by
  obtain ⟨i, e, o, r⟩ := b
  rw [MessageBodyB]
  exact ⟨itemsB_iff.2 h.items, h.exts, h.opts, h.res⟩

theorem BodyB.item {b x} (h : BodyB B b) (hx : MessageItemB B x) : BodyB B { b with items := b.items ++ [x] } :=
  ⟨all_snoc h.items hx, h.exts, h.opts, h.res⟩

theorem bodyStep_b [FloatFmt] {body fuel} (hbody : BodyOk B body) (acc) (h : BodyB B acc) :
    bz B (bodyStep body fuel acc) (StepB (BodyB B) (fun x => MessageBodyB B x.1 ∧ Sp B x.2)) := by
  unfold bodyStep
  refine bz_peek (fun tok sp hsp => ?_) bz_unexpected
  dsimp only
  repeat' (first | split | exact bz_unexpected)
  · exact bz_bind (bz_parseOneof hbody) fun o ho => bz_pure (h.item (by rw [MessageItemB]; exact ho))
  · exact bz_bind bz_parseEnum fun o ho => bz_pure (h.item (by rw [MessageItemB]; exact ho))
  · exact bz_bind (bz_parseMessage hbody) fun o ho => bz_pure (h.item (by rw [MessageItemB]; exact ho))
  · exact bz_bind (bz_parseExtend hbody) fun o ho => bz_pure (h.item (by rw [MessageItemB]; exact ho))
  · exact bz_bind bz_parseOption fun o ho => bz_pure ⟨h.items, h.exts, all_snoc h.opts ho, h.res⟩
  · exact bz_bind bz_parseReserved fun o ho => bz_pure ⟨h.items, h.exts, h.opts, all_snoc h.res ho⟩
  · exact bz_bind bz_parseExtensions fun o ho => bz_pure ⟨h.items, all_snoc h.exts ho, h.opts, h.res⟩
  · exact bz_bind (bz_parseField hbody) fun o ho => bz_pure (h.item (by rw [MessageItemB]; exact ho))
  · exact bz_bind (bz_parseField hbody) fun o ho => bz_pure (h.item (by rw [MessageItemB]; exact ho))
  · exact bz_bump fun _ _ => bz_pure h
  · exact bz_bump fun _ hs => bz_pure ⟨h.all, hs⟩

theorem bz_parseMessageBody [FloatFmt] {fuel} : ∀ depth, BodyOk B (parseMessageBody fuel depth)
  | 0 => trivial
  | depth + 1 => bz_loopM (I := BodyB B) (fun acc h => bodyStep_b (bz_parseMessageBody depth) acc h) _ _
      ⟨nofun, nofun, nofun, nofun⟩

theorem bz_parseStreaming : bz B parseStreaming (optSpB B) := by
  unfold parseStreaming
  bzr
macro_rules | `(tactic| bzl) => `(tactic| with_reducible refine bz_bind bz_parseStreaming fun _ _ => ?_)

theorem bz_parseRpc [FloatFmt] {fuel} : bz B (parseRpc fuel) (MethodB B) := by
  unfold parseRpc
  refine bz_leading fun _ hl => ?_
  refine bz_bind bz_expectEq fun st hst => ?_
  refine bz_bind bz_parseIdent fun i hi => ?_
  refine bz_bind bz_expectEq fun _ _ => ?_
  refine bz_bind bz_parseStreaming fun _ _ => ?_
  refine bz_bind bz_parseTypeName fun _ _ => ?_
  refine bz_bind bz_expectEq fun _ _ => ?_
  refine bz_bind bz_expectEq fun _ _ => ?_
  refine bz_bind bz_expectEq fun _ _ => ?_
  refine bz_bind bz_parseStreaming fun _ _ => ?_
  refine bz_bind bz_parseTypeName fun _ _ => ?_
  refine bz_bind bz_expectEq fun _ _ => ?_
  refine bz_bind (Q := fun x => (∀ o ∈ x.1, OptB B o) ∧ Sp B x.2) ?_ fun x hx => ?_
  · bzr
    refine bz_loopM (I := fun l => ∀ o ∈ l, OptB B o) ?_ _ _ nofun
    intro a ha
    unfold methodOptionStep
    bzr
  · refine bz_trailing hl fun _ _ => ?_
    have h1 := hx.1
    have h2 := hx.2
    refine bz_pure ?_
    bzf
macro_rules | `(tactic| bzl) => `(tactic| with_reducible refine bz_bind bz_parseRpc fun _ _ => ?_)

theorem bz_parseService [FloatFmt] {fuel} : bz B (parseService fuel) (ServiceB B) := by
  unfold parseService
  refine bz_leading fun _ hl => ?_
  refine bz_bind bz_expectEq fun st hst => ?_
  refine bz_bind bz_parseIdent fun i hi => ?_
  refine bz_bind bz_expectEq fun _ _ => ?_
  refine bz_trailing hl fun _ _ => ?_
  let I : List Ast.Opt × List Ast.Method → Prop := fun a => (∀ o ∈ a.1, OptB B o) ∧ (∀ o ∈ a.2, MethodB B o)
  refine bz_bind (Q := fun x => I x.1 ∧ Sp B x.2) ?_ fun x hx => ?_
  · refine bz_loopM (I := I) ?_ _ _ ⟨nofun, nofun⟩
    rintro ⟨a, b⟩ ⟨ha, hb⟩
    unfold serviceStep
    bzr
  · obtain ⟨⟨h1, h2⟩, h4⟩ := hx
    exact bz_pure ⟨hi, h1, h2, by assumption, hst.join h4⟩
macro_rules | `(tactic| bzl) => `(tactic| with_reducible refine bz_bind bz_parseService fun _ _ => ?_)

theorem bz_parsePackage {fuel} : bz B (parsePackage fuel) (PackageB B) := by
  unfold parsePackage
  bzr
macro_rules | `(tactic| bzl) => `(tactic| with_reducible refine bz_bind bz_parsePackage fun _ _ => ?_)

theorem bz_parseImport {fuel} : bz B (parseImport fuel) (ImportB B) := by
  unfold parseImport
  refine bz_leading fun _ hl => ?_
  refine bz_bind bz_expectEq fun st hst => ?_
  refine bz_bind (Q := fun x => ∀ k : ImportKind × Span, x = some k → Sp B k.2) ?_ fun kd hk => ?_
  · bzr
  refine bz_bind bz_parseUtf8String fun v hv => ?_
  refine bz_bind (Q := fun _ => True) ?_ fun _ _ => ?_
  · split
    · trivial
    · exact ⟨all_one hv, trivial⟩
  bzr
macro_rules | `(tactic| bzl) => `(tactic| with_reducible refine bz_bind bz_parseImport fun _ _ => ?_)

theorem bz_parseSyntax {fuel} : bz B (parseSyntax fuel) (fun x => Sp B x.2.1 ∧ CommB x.2.2) := by
  unfold parseSyntax
  bzr
  refine bz_addError (all_one (by assumption)) trivial

def StatementB (B : Nat → Prop) : Statement → Prop
  | .empty s => Sp B s
  | .package p => PackageB B p
  | .import' i => ImportB B i
  | .option o => OptB B o
  | .message x => MessageB B x
  | .enum e => EnumB B e
  | .service s => ServiceB B s
  | .extend e => ExtendB B e

theorem bz_parseStatement [FloatFmt] {fuel} :
    bz B (parseStatement fuel) (fun x => ∀ st, x = some st → StatementB B st) := by
  have hb := bz_parseMessageBody (B := B) (fuel := fuel) fuel
  unfold parseStatement
  bzr

theorem bz_parseHeader {fuel len} (hlen : Sp B ⟨len, 0⟩) :
    bz B (parseHeader fuel len) (fun x => (∀ s, x.2.1 = some s → Sp B s.1 ∧ CommB s.2) ∧ Sp B x.2.2) := by
  unfold parseHeader
  refine bz_peek (fun tok sp hsp => ?_) ?_
  · dsimp only
    split
    · exact bz_bind bz_parseSyntax fun x hx => bz_pure ⟨opt_some hx, hx.1⟩
    · exact bz_pure ⟨opt_none, hsp⟩
  · exact bz_pure ⟨opt_none, hlen⟩

theorem keeps_skipUntil : ∀ n, Keeps B (P.skipUntil n) (fun _ => True)
  | 0 => fun _ hs => ⟨hs, nofun⟩
  | n + 1 => by
    intro s hs
    refine ⟨?_, fun _ _ => trivial⟩
    unfold P.skipUntil
    have h := (keeps_peek s hs).1
    revert h
    rcases P.peek s with ⟨r, s'⟩
    intro h
    split
    · rename_i heq; cases heq; exact h
    · rename_i heq
      cases heq
      split
      · exact h
      · have h2 := (keeps_bump _ h).1
        split
        all_goals (rename_i heq; rw [heq] at h2)
        · exact (keeps_skipUntil n _ h2).1
        · exact h2
        · exact h2
        · exact h2
    · rename_i heq
      cases heq
      exact (keeps_skipUntil n { s' with peek := none } ⟨h.pv, h.errs, nofun, h.comm⟩).1
    · rename_i heq; cases heq; exact h
    · rename_i heq; cases heq; exact h

structure AccB (B : Nat → Prop) (a : Acc) : Prop where
  span : Sp B a.span
  pkg : ∀ p, a.package = some p → PackageB B p
  imports : ∀ i ∈ a.imports, ImportB B i
  options : ∀ i ∈ a.options, OptB B i
  items : ∀ i ∈ a.items, FileItemB B i

theorem StatementB.span {st} (h : StatementB B st) : Sp B st.span := by
  cases st with
  | empty s => exact h
  | package p => exact h.2.2
  | import' p => exact h.2.2.2
  | option p => exact h.2.2
  | message p => obtain ⟨a, b, c, d⟩ := p; rw [StatementB, MessageB] at h; exact h.2.2.2
  | enum p => exact h.2.2.2.2.2
  | service p => exact h.2.2.2.2
  | extend p => obtain ⟨a, b, c, d⟩ := p; rw [StatementB, ExtendB] at h; exact h.2.2.2

theorem AccB.add {a st} (h : AccB B a) (hs : StatementB B st) :
    AccB B (a.add st).1 ∧ ∀ e, (a.add st).2 = some e → ∀ s ∈ e.spans, Sp B s := by
  have hj := h.span.join hs.span
  cases st with
  | empty s => exact ⟨⟨hj, h.pkg, h.imports, h.options, h.items⟩, nofun⟩
  | package p =>
    unfold Acc.add
    dsimp only
    split
    · rename_i q hq
      refine ⟨⟨hj, h.pkg, h.imports, h.options, h.items⟩, ?_⟩
      intro e he
      injection he with he; subst he
      intro s hs'
      simp only [ParseErrorKind.spans, List.mem_cons, List.not_mem_nil, or_false] at hs'
      rcases hs' with rfl | rfl
      · exact (h.pkg q hq).2.2
      · exact hs.2.2
    · exact ⟨⟨hj, opt_some hs, h.imports, h.options, h.items⟩, nofun⟩
  | import' p => exact ⟨⟨hj, h.pkg, all_snoc h.imports hs, h.options, h.items⟩, nofun⟩
  | option p => exact ⟨⟨hj, h.pkg, h.imports, all_snoc h.options hs, h.items⟩, nofun⟩
  | message p => exact ⟨⟨hj, h.pkg, h.imports, h.options, all_snoc h.items hs⟩, nofun⟩
  | enum p => exact ⟨⟨hj, h.pkg, h.imports, h.options, all_snoc h.items hs⟩, nofun⟩
  | service p => exact ⟨⟨hj, h.pkg, h.imports, h.options, all_snoc h.items hs⟩, nofun⟩
  | extend p => exact ⟨⟨hj, h.pkg, h.imports, h.options, all_snoc h.items hs⟩, nofun⟩

theorem keeps_fileLoop [FloatFmt] {fuel} : ∀ n acc, AccB B acc → Keeps B (P.fileLoop fuel n acc) (AccB B)
  | 0, _, _ => fun _ hs => ⟨hs, nofun⟩
  | n + 1, acc, ha => by
    intro s hs
    unfold P.fileLoop
    have h := (bz_parseStatement (B := B) (fuel := fuel)).run _ s hs
    revert h
    rcases (parseStatement fuel).run s with ⟨r, s'⟩
    intro h
    cases r with
    | panic => exact ⟨h.1, nofun⟩
    | oof => exact ⟨h.1, nofun⟩
    | ok o =>
      cases o with
      | none => exact ⟨h.1, fun a e => by injection e with e; exact e ▸ ha⟩
      | some st =>
        have hst := ha.add (h.2 _ rfl st rfl)
        dsimp only
        split
        · rename_i heq; rw [heq] at hst; exact keeps_fileLoop n _ hst.1 _ h.1
        · rename_i heq; rw [heq] at hst
          exact keeps_fileLoop n _ hst.1 _ ⟨h.1.pv, h.1.errs.append (hst.2 _ rfl), h.1.cached, h.1.comm⟩
    | err =>
      dsimp only
      split
      · exact ⟨h.1, nofun⟩
      · have h2 := (keeps_skipUntil (s'.rest.length + 3) s' h.1).1
        split
        all_goals (rename_i heq; rw [heq] at h2)
        · exact keeps_fileLoop n _ ha _ h2
        · exact ⟨h2, nofun⟩
        · exact ⟨h2, nofun⟩
        · exact ⟨h2, nofun⟩

theorem keeps_parseFile [FloatFmt] {fuel len} (hlen : Sp B ⟨len, 0⟩) : Keeps B (P.parseFile fuel len) (FileB B) := by
  refine Keeps.bind ((bz_parseHeader hlen).run _) fun x hx => ?_
  refine Keeps.bind (keeps_fileLoop fuel _ ⟨hx.2, nofun, nofun, nofun, nofun⟩) fun a ha => ?_
  exact .pure ⟨ha.span, hx.1, ha.pkg, ha.imports, ha.options, ha.items⟩

/-- `parse_file` on text: error spans and every span of the tree are at cut points, and comments are text. -/
theorem parseFile_text [FloatFmt] {src : Bytes} (hv : V src)
    (hB : ∀ n, n ≤ src.length → V (src.drop n) → B n) :
    (∀ f, parseFile src = .ok (.ok f) → FileB B f) ∧ (∀ es, parseFile src = .ok (.error es) → ErrsB B es) := by
  have h0 : TS B (PState.init src) :=
    ⟨⟨hv, fun k hk hd => by rw [PState.init, Nat.zero_add]; exact hB k hk hd⟩, .nil, nofun, nofun, nofun, nofun⟩
  have h := keeps_parseFile (fuel := src.length + 3) (len := src.length)
    ⟨hB _ (Nat.le_refl _) (by rw [List.drop_length]; exact v_nil), hB 0 (Nat.zero_le _) hv⟩ _ h0
  unfold parseFile
  revert h
  rcases P.parseFile (src.length + 3) src.length (PState.init src) with ⟨r, s⟩
  intro h
  cases r with
  | ok a =>
    dsimp only
    split
    · refine ⟨fun f e => ?_, nofun⟩
      injection e with e; injection e with e; exact e ▸ h.2 _ rfl
    · refine ⟨nofun, fun f e => ?_⟩
      injection e with e; injection e with e; exact e ▸ h.1.errs
  | err =>
    refine ⟨nofun, fun f e => ?_⟩
    injection e with e; injection e with e; exact e ▸ h.1.errs
  | panic => exact ⟨nofun, nofun⟩
  | oof => exact ⟨nofun, nofun⟩

end Verif.Text
