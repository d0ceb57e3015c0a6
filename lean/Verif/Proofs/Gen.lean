import Verif.Model.Generate
import Verif.Props.Lines
import Verif.Proofs.AstIn
/-!
Running the generator: what each method of `Context` returns, which errors it adds and which source locations.
-/
namespace Verif.Gen
open Verif.Ast Verif.Spec

/-- A source location before its span is turned into lines and columns. -/
structure Mark where
  path : List Int
  span : Span
  comments : Comments := {}
  deriving DecidableEq, Repr

/-- The encoding of a byte span in a descriptor. -/
def encSpan (src : Bytes) (s : Span) : List Int :=
  if lineOf src s.start = lineOf src s.stop then
    [(lineOf src s.start : Int), (colOf src s.start : Int), (colOf src s.stop : Int)]
  else
    [(lineOf src s.start : Int), (colOf src s.start : Int), (lineOf src s.stop : Int), (colOf src s.stop : Int)]

def Mark.loc (src : Bytes) (m : Mark) : Location :=
  ⟨m.path, encSpan src m.span, m.comments.leading, m.comments.trailing, m.comments.leadingDetached⟩

/-- Marks below a path. -/
def under (p : List Int) (ms : List Mark) : List Mark := ms.map fun m => { m with path := p ++ m.path }

@[simp] theorem under_nil (p) : under p [] = [] := rfl
@[simp] theorem under_cons (p m ms) : under p (m :: ms) = { m with path := p ++ m.path } :: under p ms := rfl
@[simp] theorem under_append (p ms ms') : under p (ms ++ ms') = under p ms ++ under p ms' := by simp [under]
@[simp] theorem under_under (p q ms) : under p (under q ms) = under (p ++ q) ms := by
  simp [under, Function.comp_def]
@[simp] theorem under_zero (ms) : under [] ms = ms := by simp [under]

/-- The line table of the environment resolves spans of the source. -/
def EnvOk (src : Bytes) (env : Env) : Prop :=
  ∀ s : Span, s.start ≤ src.length → s.stop ≤ src.length → Lines.resolveSpan env.lines s = some (encSpan src s)

/-- From path `p` the method returns `a`, adds the errors `es` and the locations `ms`, and leaves path `p'`; the
spans of the errors and locations lie in the source. -/
def Runs (src : Bytes) (env : Env) {α : Type} (g : G α) (p : List Int) (a : α) (es : List ParseErrorKind)
    (ms : List Mark) (p' : List Int) : Prop :=
  (∀ E L, g env ⟨p, E, L⟩ = some (a, ⟨p', E ++ es, L ++ ms.map (Mark.loc src)⟩)) ∧
    (∀ e ∈ es, ∀ s ∈ e.spans, SpIn 0 src.length s) ∧ ∀ x ∈ ms, SpIn 0 src.length x.span

section
variable {src : Bytes} {env : Env} {α β : Type}

theorem Runs.pure (a : α) (p) : Runs src env (pure a) p a [] [] p :=
  ⟨by intro E L; simp [Pure.pure], nofun, nofun⟩

theorem Runs.bind {g : G α} {f : α → G β} {p p1 p2 a b e1 e2 m1 m2}
    (h1 : Runs src env g p a e1 m1 p1) (h2 : Runs src env (f a) p1 b e2 m2 p2) :
    Runs src env (g >>= f) p b (e1 ++ e2) (m1 ++ m2) p2 := by
  obtain ⟨h1, h3, h4⟩ := h1
  obtain ⟨h2, h5, h6⟩ := h2
  refine ⟨?_, fun e he => ?_, fun x hx => ?_⟩
  · intro E L
    simp only [Bind.bind, h1 E L]
    rw [h2 _ _]
    simp [List.append_assoc]
  · rcases List.mem_append.1 he with he | he
    · exact h3 e he
    · exact h5 e he
  · rcases List.mem_append.1 hx with hx | hx
    · exact h4 x hx
    · exact h6 x hx

theorem Runs.conv {g : G α} {p p1 p2 a b e1 e2 m1 m2}
    (h1 : Runs src env g p a e1 m1 p1) (ha : a = b) (he : e1 = e2) (hm : m1 = m2) (hp : p1 = p2) :
    Runs src env g p b e2 m2 p2 := by subst ha he hm hp; exact h1

theorem Runs.unwrap {o : Option α} {a} (h : o = some a) (p) : Runs src env (unwrap o) p a [] [] p := by
  subst h; exact Runs.pure a p

theorem Runs.index {n : Nat} (h : n ≤ 2147483647) (p) : Runs src env (index n) p (n : Int) [] [] p :=
  Runs.unwrap (by simp [indexToI32, h]) p

theorem Runs.syn (p) : Runs src env syn p env.syn [] [] p :=
  ⟨by intro E L; simp [Gen.syn], nofun, nofun⟩

theorem Runs.err (k p) (h : ∀ s ∈ k.spans, SpIn 0 src.length s) : Runs src env (err k) p () [k] [] p :=
  ⟨by intro E L; simp [Gen.err], by simpa using h, nofun⟩

theorem Runs.errIf (c k p) (h : ∀ s ∈ k.spans, SpIn 0 src.length s) :
    Runs src env (errIf c k) p () (if c then [k] else []) [] p := by
  cases c
  · exact Runs.pure _ _
  · exact Runs.err _ _ h

theorem Runs.extend (xs p) : Runs src env (extend xs) p () [] [] (p ++ xs) :=
  ⟨by intro E L; simp [Gen.extend], nofun, nofun⟩

theorem Runs.popPath (xs p : List Int) {n} (h : n = xs.length) : Runs src env (popPath n) (p ++ xs) () [] [] p :=
  ⟨by intro E L; subst h; simp [Gen.popPath], nofun, nofun⟩

theorem Runs.pop (x p) : Runs src env pop (p ++ [x]) () [] [] p :=
  ⟨by intro E L; simp [Gen.pop], nofun, nofun⟩

theorem Runs.addComments (he : EnvOk src env) {s : Span} (h : SpIn 0 src.length s) (cm p) :
    Runs src env (addComments s cm) p () [] [⟨p, s, cm⟩] p := by
  refine ⟨fun E L => ?_, nofun, by simpa using h⟩
  have := h.2.1; have := h.2.2
  simp [Gen.addComments, he s (by omega) (by omega), Mark.loc]

theorem Runs.addSpan (he : EnvOk src env) {s : Span} (h : SpIn 0 src.length s) (p) :
    Runs src env (addSpan s) p () [] [⟨p, s, {}⟩] p := by
  refine ⟨fun E L => ?_, nofun, by simpa using h⟩
  have := h.2.1; have := h.2.2
  simp [Gen.addSpan, he s (by omega) (by omega), Mark.loc]

/-- A one-span error is in the source if its span is. -/
theorem one {L : Nat} {sp : Span} (h : SpIn 0 L sp) : ∀ s ∈ [sp], SpIn 0 L s := by simpa using h

theorem Runs.addSpanFor (he : EnvOk src env) (xs) {s : Span} (h : SpIn 0 src.length s) (p) :
    Runs src env (addSpanFor xs s) p () [] [⟨p ++ xs, s, {}⟩] p :=
  Runs.bind (Runs.extend xs p) (Runs.bind (Runs.addSpan he h _) (Runs.popPath xs p rfl))

theorem Runs.addCommentsFor (he : EnvOk src env) (xs) {s : Span} (h : SpIn 0 src.length s) (cm p) :
    Runs src env (addCommentsFor xs s cm) p () [] [⟨p ++ xs, s, cm⟩] p :=
  Runs.bind (Runs.extend xs p) (Runs.bind (Runs.addComments he h cm _) (Runs.popPath xs p rfl))
end

/-! ### Names and spans that cannot panic -/

theorem fullIdent_display {a b} {f : FullIdent} (h : f.In a b) : f.display = some (f.display.getD []) := by
  obtain ⟨h, -⟩ := h
  unfold FullIdent.display
  split
  · contradiction
  · rfl

/-- The text of a type name. -/
def tname (t : TypeName) : Bytes := (if t.leadingDot.isSome then [46] else []) ++ dotJoin t.name.parts

theorem typeName_display {a b} {t : TypeName} (h : t.In a b) : t.display = some (tname t) := by
  have : ∃ a b, t.name.In a b := by
    unfold TypeName.In at h
    split at h
    · exact ⟨_, _, h⟩
    · obtain ⟨c, _, h⟩ := h; exact ⟨_, _, h⟩
  obtain ⟨a, b, h, -⟩ := this
  unfold TypeName.display FullIdent.display tname
  cases hp : t.name.parts with
  | nil => exact absurd hp h
  | cons p ps => cases t.leadingDot <;> simp

theorem chain_bounds {α : Type} {P : Nat → Nat → α → Prop} {sp : α → Span}
    (hP : ∀ a b x, P a b x → SpIn a b (sp x)) :
    ∀ {l : List α} {a b : Nat}, ChainIn P a l b → ∀ x y, l.head? = some x → l.getLast? = some y →
      SpIn a b ⟨(sp x).start, (sp y).stop⟩
  | [], _, _, _, _, _, h, _ => by cases h
  | [z], a, b, h, x, y, hx, hy => by
    simp at hx hy; subst hx hy
    obtain ⟨c, h1, h2⟩ := h
    have := hP _ _ _ h1
    simp only [ChainIn] at h2
    exact ⟨this.1, this.2.1, Nat.le_trans this.2.2 h2⟩
  | z :: w :: l, a, b, h, x, y, hx, hy => by
    simp at hx; subst hx
    obtain ⟨c, h1, h2⟩ := h
    have h3 := hP _ _ _ h1
    have h4 := chain_bounds hP h2 w y rfl (by simpa using hy)
    simp only [SpIn] at *
    omega

theorem fullIdent_span {a b} {f : FullIdent} (h : f.In a b) : ∃ s, f.span = some s ∧ SpIn a b s := by
  obtain ⟨hne, hc⟩ := h
  unfold FullIdent.span
  cases h1 : f.parts.head? with
  | none => simp at h1; contradiction
  | some x =>
    cases h2 : f.parts.getLast? with
    | none => simp at h2; contradiction
    | some y => exact ⟨_, rfl, chain_bounds (sp := Ident.span) (fun _ _ _ h => h) hc x y h1 h2⟩

theorem typeName_span {a b} {t : TypeName} (h : t.In a b) : ∃ s, t.span = some s ∧ SpIn a b s := by
  unfold TypeName.In at h
  unfold TypeName.span
  cases hd : t.leadingDot with
  | none => rw [hd] at h; exact fullIdent_span h
  | some d =>
    rw [hd] at h
    obtain ⟨c, h1, h2⟩ := h
    obtain ⟨s, h3, h4⟩ := fullIdent_span h2
    exact ⟨_, by simp only [h3, Option.map_some], h1.join h4⟩

theorem namePart_span {a b} {x : OptionNamePart} (h : x.In a b) : SpIn a b x.span := by
  cases x with
  | ident i => exact h
  | extension t s => exact h.2

theorem value_span {a b} {x : OptionValue} (h : x.In a b) : SpIn a b x.span := by
  cases x with
  | ident _ i s => exact h.2
  | _ => exact h

theorem optionBody_span {a b} {o : OptionBody} (h : o.In a b) : ∃ s, o.span = some s ∧ SpIn a b s := by
  obtain ⟨hne, c, h1, h2⟩ := h
  unfold OptionBody.span OptionBody.nameSpan
  cases h3 : o.name.head? with
  | none => simp at h3; contradiction
  | some x =>
    cases h4 : o.name.getLast? with
    | none => simp at h4; contradiction
    | some y =>
      refine ⟨_, rfl, ?_⟩
      have := chain_bounds (sp := OptionNamePart.span) (fun _ _ _ => namePart_span) h1 x y h3 h4
      exact SpIn.join this (value_span h2)

/-- The span of an option, where it is known to exist. -/
def ospan (o : OptionBody) : Span := o.span.getD ⟨0, 0⟩
/-- The span of a type name, where it is known to exist. -/
def tspan (t : TypeName) : Span := t.span.getD ⟨0, 0⟩

theorem optionBody_span' {a b} {o : OptionBody} (h : o.In a b) : o.span = some (ospan o) ∧ SpIn a b (ospan o) := by
  obtain ⟨s, h1, h2⟩ := optionBody_span h
  unfold ospan; rw [h1]; exact ⟨rfl, h2⟩

theorem typeName_span' {a b} {t : TypeName} (h : t.In a b) : t.span = some (tspan t) ∧ SpIn a b (tspan t) := by
  obtain ⟨s, h1, h2⟩ := typeName_span h
  unfold tspan; rw [h1]; exact ⟨rfl, h2⟩

/-! ### Options -/

def namePartDesc : OptionNamePart → NamePart
  | .ident i => ⟨i.value, false⟩
  | .extension t _ => ⟨tname t, true⟩

def optionDesc (o : OptionBody) : UninterpretedOption :=
  match o.value with
  | .ident false i _ => { name := o.name.map namePartDesc, identifierValue := some i.value }
  | .ident true _ _ => {}
  | .int i =>
    if i.negative then { name := o.name.map namePartDesc, negativeIntValue := i.asI64 }
    else { name := o.name.map namePartDesc, positiveIntValue := some i.value }
  | .float f => { name := o.name.map namePartDesc, doubleValue := some f.value }
  | .string s => { name := o.name.map namePartDesc, stringValue := some s.value }
  | .aggregate t _ => { name := o.name.map namePartDesc, aggregateValue := some t }

def optionErrs (o : OptionBody) : List ParseErrorKind :=
  match o.value with
  | .ident true _ sp => [.negativeIdentOutsideDefault sp]
  | .int i => if i.negative ∧ i.asI64 = none then [.integerValueOutOfRange b!"a 64-bit integer" i (-9223372036854775808) 18446744073709551615 i.span] else []
  | _ => []

def optsMarks : Nat → List Opt → List Mark
  | _, [] => []
  | k, o :: os => ⟨[], o.span, {}⟩ :: ⟨[Tag.uninterpretedOption, k], o.span, o.comments⟩ :: optsMarks (k + 1) os

def bodiesMarks : Nat → List OptionBody → List Mark
  | _, [] => []
  | k, o :: os => ⟨[Tag.uninterpretedOption, k], ospan o, {}⟩ :: bodiesMarks (k + 1) os

def optsDesc (os : List Opt) : List UninterpretedOption := os.map fun o => optionDesc o.body
def optsErrs (os : List Opt) : List ParseErrorKind := os.flatMap fun o => optionErrs o.body

def optListDesc (l : Option OptionList) : Option (List UninterpretedOption) :=
  match l with
  | none => none
  | some l => nonEmpty (l.options.map optionDesc)

def optListErrs (l : Option OptionList) : List ParseErrorKind :=
  match l with
  | none => []
  | some l => l.options.flatMap optionErrs

def optListMarks (l : Option OptionList) : List Mark :=
  match l with
  | none => []
  | some l => ⟨[], l.span, {}⟩ :: bodiesMarks 0 l.options

def optListSmall (n : Nat) (l : Option OptionList) : Prop := ∀ x, l = some x → x.options.length ≤ n

section
variable {src : Bytes} {env : Env}

theorem nameParts_chain {b : Nat} : ∀ {ps : List OptionNamePart} {a}, ChainIn OptionNamePart.In a ps b →
    ∀ t s, .extension t s ∈ ps → ∃ a b, t.In a b
  | [], _, _, _, _, h => by cases h
  | x :: xs, a, h, t, s, hm => by
    obtain ⟨c, h1, h2⟩ := h
    rcases List.mem_cons.1 hm with rfl | hm
    · exact ⟨_, _, h1.1⟩
    · exact nameParts_chain h2 t s hm

theorem genNameParts_runs (p) : ∀ ps : List OptionNamePart, (∀ t s, .extension t s ∈ ps → ∃ a b, t.In a b) →
    Runs src env (genNameParts ps) p (ps.map namePartDesc) [] [] p
  | [], _ => Runs.pure _ _
  | .ident i :: ps, h => Runs.bind (genNameParts_runs p ps fun t s hm => h t s (.tail _ hm)) (Runs.pure _ _)
  | .extension t s :: ps, h => by
    obtain ⟨a, b, hi⟩ := h t s (.head _)
    exact Runs.bind (Runs.unwrap (typeName_display hi) _)
      (Runs.bind (genNameParts_runs p ps fun t s hm => h t s (.tail _ hm)) (Runs.pure _ _))

theorem genOption_runs {o : OptionBody} (h : o.In 0 src.length) (p) :
    Runs src env (genOption o) p (optionDesc o) (optionErrs o) [] p := by
  obtain ⟨_, c, hc, hv⟩ := h
  have hv := hv.mono (Nat.zero_le _) (Nat.le_refl _)
  have hn := genNameParts_runs (src := src) (env := env) p o.name (nameParts_chain hc)
  unfold genOption optionDesc optionErrs
  refine Runs.conv (Runs.bind hn (p2 := p) (m2 := []) (b := optionDesc o) (e2 := optionErrs o) ?_) rfl rfl rfl rfl
  unfold optionDesc optionErrs
  revert hv
  cases o.value with
  | ident neg i sp =>
    intro hv
    cases neg with
    | false => exact Runs.pure _ _
    | true => exact Runs.bind (Runs.err _ _ (by exact one hv.2)) (Runs.pure _ _)
  | int i =>
    intro hv
    simp only
    cases hneg : i.negative with
    | false => exact Runs.pure _ _
    | true =>
      refine Runs.conv (Runs.bind (Runs.errIf _ _ _ (by exact one hv)) (Runs.pure _ _)) rfl ?_ rfl rfl
      cases i.asI64 <;> simp
  | float f => intro _; exact Runs.pure _ _
  | string s => intro _; exact Runs.pure _ _
  | aggregate t sp => intro _; exact Runs.pure _ _

theorem genOptionsLoop_runs (he : EnvOk src env) (p) : ∀ (os : List Opt) (acc : List UninterpretedOption),
    (∀ o ∈ os, o.In 0 src.length) → acc.length + os.length ≤ 2147483647 →
    Runs src env (genOptionsLoop os acc) p (acc ++ optsDesc os) (optsErrs os) (under p (optsMarks acc.length os)) p
  | [], acc, _, _ => (Runs.pure _ _).conv (by simp [optsDesc]) rfl rfl rfl
  | o :: os, acc, h, hl => by
    have ho := h o (.head _)
    simp only [List.length_cons] at hl
    refine Runs.conv (Runs.bind (Runs.addSpan he ho.2 _) <| Runs.bind (Runs.index (by omega) _) <|
      Runs.bind (Runs.addCommentsFor he _ ho.2 _ _) <| Runs.bind (genOption_runs ho.1 _) <|
      genOptionsLoop_runs he p os _ (fun o hm => h o (.tail _ hm)) (by simp; omega)) ?_ ?_ ?_ rfl
    · simp [optsDesc]
    · simp [optsErrs]
    · simp [optsMarks]

theorem genOptions_runs (he : EnvOk src env) (p) {os : List Opt} (h : ∀ o ∈ os, o.In 0 src.length)
    (hl : os.length ≤ 2147483647) :
    Runs src env (genOptions os) p (nonEmpty (optsDesc os)) (optsErrs os) (under p (optsMarks 0 os)) p :=
  Runs.conv (Runs.bind (genOptionsLoop_runs he p os [] h (by simpa using hl)) (Runs.pure _ _))
    (by simp) (by simp) (by simp) rfl

theorem genOptionsListLoop_runs (he : EnvOk src env) (p) : ∀ (os : List OptionBody) (acc : List UninterpretedOption),
    (∀ o ∈ os, o.In 0 src.length) → acc.length + os.length ≤ 2147483647 →
    Runs src env (genOptionsListLoop os acc) p (acc ++ os.map optionDesc) (os.flatMap optionErrs)
      (under p (bodiesMarks acc.length os)) p
  | [], acc, _, _ => (Runs.pure _ _).conv (by simp) rfl rfl rfl
  | o :: os, acc, h, hl => by
    have ho := h o (.head _)
    have hs := optionBody_span' ho
    simp only [List.length_cons] at hl
    refine Runs.conv (Runs.bind (Runs.index (by omega) _) <| Runs.bind (Runs.unwrap hs.1 _) <|
      Runs.bind (Runs.addSpanFor he _ hs.2 _) <| Runs.bind (genOption_runs ho _) <|
      genOptionsListLoop_runs he p os _ (fun o hm => h o (.tail _ hm)) (by simp; omega)) ?_ ?_ ?_ rfl
    · simp
    · simp
    · simp [bodiesMarks]

theorem genOptionsList_runs (he : EnvOk src env) (p) {l : Option OptionList} (h : optListIn 0 src.length l)
    (hl : optListSmall 2147483647 l) :
    Runs src env (genOptionsList l) p (optListDesc l) (optListErrs l) (under p (optListMarks l)) p := by
  cases l with
  | none => exact Runs.pure _ _
  | some l =>
    have hi := h l rfl
    refine Runs.conv (Runs.bind (Runs.addSpan he hi.2 _) <| Runs.bind (genOptionsListLoop_runs he p l.options [] hi.1
      (by simpa using hl l rfl)) <| Runs.pure _ _) ?_ ?_ ?_ rfl
    · simp [optListDesc]
    · simp [optListErrs]
    · simp [optListMarks]

/-! ### Numbers and ranges -/

def messageNumber (i : Int') : Option Int :=
  match i.asI32 with
  | some n => if 1 ≤ n ∧ n ≤ maxFieldNumber then some n else none
  | none => none

def messageNumberErrs (i : Int') : List ParseErrorKind :=
  if messageNumber i = none then [.invalidMessageNumber i.span] else []

def enumNumberErrs (i : Int') : List ParseErrorKind :=
  if i.asI32 = none then [.invalidEnumNumber i.span] else []

def rangeEndNum (ms : Bool) (r : ReservedRange) : Option Int :=
  match r.stop with
  | .none => messageNumber r.start
  | .int v => messageNumber v
  | .max _ => some (if ms then 2147483646 else maxFieldNumber)

def rangeErrs (r : ReservedRange) : List ParseErrorKind :=
  messageNumberErrs r.start ++ match r.stop with
  | .int v => messageNumberErrs v
  | _ => []

def rangeDesc (ms : Bool) (r : ReservedRange) : RangeProto := ⟨messageNumber r.start, (rangeEndNum ms r).map (· + 1)⟩

def rangeMarks (r : ReservedRange) : List Mark :=
  [⟨[], r.span, {}⟩, ⟨[Tag.rangeStart], r.startSpan, {}⟩, ⟨[Tag.rangeEnd], r.endSpan, {}⟩]

def extRangeDesc (ms : Bool) (os : Option OptionList) (r : ReservedRange) : ExtensionRangeProto :=
  ⟨messageNumber r.start, (rangeEndNum ms r).map (· + 1), optListDesc os⟩

def extRangeErrs (os : Option OptionList) (r : ReservedRange) : List ParseErrorKind := optListErrs os ++ rangeErrs r

def extRangeMarks (os : Option OptionList) (r : ReservedRange) : List Mark :=
  rangeMarks r ++ under [Tag.extensionRangeOptions] (optListMarks os)

def enumRangeDesc (r : ReservedRange) : RangeProto :=
  ⟨r.start.asI32, match r.stop with
    | .none => r.start.asI32
    | .int v => v.asI32
    | .max _ => some 2147483647⟩

def enumRangeErrs (r : ReservedRange) : List ParseErrorKind :=
  enumNumberErrs r.start ++ match r.stop with
  | .int v => enumNumberErrs v
  | _ => []

theorem messageNumber_le {i : Int'} {n} (h : messageNumber i = some n) : 1 ≤ n ∧ n ≤ 536870911 := by
  unfold messageNumber at h
  split at h
  · split at h
    · cases h; assumption
    · cases h
  · cases h

theorem genMessageNumber_runs {i : Int'} (hi : i.In 0 src.length) (p) :
    Runs src env (genMessageNumber i) p (messageNumber i) (messageNumberErrs i) [] p := by
  unfold genMessageNumber messageNumberErrs messageNumber
  cases i.asI32 with
  | none => exact Runs.bind (Runs.err _ _ (by exact one hi)) (Runs.pure _ _)
  | some n =>
    by_cases h : 1 ≤ n ∧ n ≤ maxFieldNumber
    · simp only [h, and_self, ↓reduceIte, reduceCtorEq]; exact Runs.pure _ _
    · simp only [h, ↓reduceIte]; exact Runs.bind (Runs.err _ _ (by exact one hi)) (Runs.pure _ _)

theorem genEnumNumber_runs {i : Int'} (hi : i.In 0 src.length) (p) :
    Runs src env (genEnumNumber i) p i.asI32 (enumNumberErrs i) [] p := by
  unfold genEnumNumber enumNumberErrs
  cases i.asI32 with
  | none => exact Runs.bind (Runs.err _ _ (by exact one hi)) (Runs.pure _ _)
  | some n => exact Runs.pure _ _

theorem succOpt_runs {o : Option Int} (h : ∀ n, o = some n → n < 2147483647) (p) :
    Runs src env (succOpt o) p (o.map (· + 1)) [] [] p := by
  cases o with
  | none => exact Runs.pure _ _
  | some n =>
    have := h n rfl
    exact Runs.bind (Runs.unwrap (by simp only [this, ↓reduceIte]) _) (Runs.pure _ _)

theorem rangeEndNum_lt {ms r n} (h : rangeEndNum ms r = some n) : n < 2147483647 := by
  unfold rangeEndNum at h
  split at h
  · have := messageNumber_le h; omega
  · have := messageNumber_le h; omega
  · cases h; cases ms <;> decide

theorem genRangeEnd_runs (ms : Bool) {r : ReservedRange} (h : r.In 0 src.length) (p) :
    Runs src env (genRangeEnd r.stop (messageNumber r.start) ms) p (rangeEndNum ms r)
      (match r.stop with | .int v => messageNumberErrs v | _ => []) [] p := by
  obtain ⟨c, _, h⟩ := h
  unfold genRangeEnd rangeEndNum
  revert h
  cases r.stop with
  | none => intro _; exact Runs.pure _ _
  | int v => intro h; exact genMessageNumber_runs (Int'.In.mono h (Nat.zero_le _) (Nat.le_refl _)) _
  | max _ => intro _; cases ms <;> exact Runs.pure _ _

theorem range_spans {a b} {r : ReservedRange} (h : r.In a b) :
    SpIn a b r.span ∧ SpIn a b r.startSpan ∧ SpIn a b r.endSpan := by
  obtain ⟨c, h1, h2⟩ := h
  unfold ReservedRange.span ReservedRange.startSpan ReservedRange.endSpan
  simp only [Int'.In, SpIn] at h1
  cases hs : r.stop with
  | none =>
    rw [hs] at h2; simp only [ReservedRangeEnd.In] at h2
    simp only [SpIn, joinSpan]; omega
  | int v =>
    rw [hs] at h2; simp only [ReservedRangeEnd.In, Int'.In, SpIn] at h2
    simp only [SpIn, joinSpan]; omega
  | max sp =>
    rw [hs] at h2; simp only [ReservedRangeEnd.In, SpIn] at h2
    simp only [SpIn, joinSpan]; omega

theorem range_start {r : ReservedRange} {L} (h : r.In 0 L) : r.start.In 0 L := by
  obtain ⟨c, h1, h2⟩ := h
  cases hs : r.stop with
  | none => rw [hs] at h2; exact Int'.In.mono h1 (Nat.le_refl _) h2
  | int v => rw [hs] at h2; simp only [ReservedRangeEnd.In, Int'.In, SpIn] at h2; exact Int'.In.mono h1 (Nat.le_refl _) (by omega)
  | max sp => rw [hs] at h2; simp only [ReservedRangeEnd.In, SpIn] at h2; exact Int'.In.mono h1 (Nat.le_refl _) (by omega)

theorem genReservedRange_runs (he : EnvOk src env) (p) {r : ReservedRange} (ms) (h : r.In 0 src.length) :
    Runs src env (genReservedRange r ms) p (rangeDesc ms r) (rangeErrs r) (under p (rangeMarks r)) p := by
  obtain ⟨h1, h2, h3⟩ := range_spans h
  refine Runs.conv (Runs.bind (Runs.addSpan he h1 _) <| Runs.bind (Runs.addSpanFor he _ h2 _) <|
    Runs.bind (Runs.addSpanFor he _ h3 _) <| Runs.bind (genMessageNumber_runs (range_start h) _) <|
    Runs.bind (genRangeEnd_runs ms h _) <| Runs.bind (succOpt_runs (fun n => rangeEndNum_lt) _) <|
    Runs.pure _ _) ?_ ?_ ?_ rfl
  · rfl
  · simp [rangeErrs]
  · simp [rangeMarks]

theorem genExtensionRange_runs (he : EnvOk src env) (p) {r : ReservedRange} (ms) (h : r.In 0 src.length)
    {os} (ho : optListIn 0 src.length os) (hs : optListSmall 2147483647 os) :
    Runs src env (genExtensionRange r ms os) p (extRangeDesc ms os r) (extRangeErrs os r)
      (under p (extRangeMarks os r)) p := by
  obtain ⟨h1, h2, h3⟩ := range_spans h
  refine Runs.conv (Runs.bind (Runs.addSpan he h1 _) <| Runs.bind (Runs.addSpanFor he _ h2 _) <|
    Runs.bind (Runs.addSpanFor he _ h3 _) <| Runs.bind (Runs.extend _ _) <|
    Runs.bind (genOptionsList_runs he _ ho hs) <| Runs.bind (Runs.pop _ _) <| Runs.bind (genMessageNumber_runs (range_start h) _) <|
    Runs.bind (genRangeEnd_runs ms h _) <| Runs.bind (succOpt_runs (fun n => rangeEndNum_lt) _) <|
    Runs.pure _ _) ?_ ?_ ?_ rfl
  · rfl
  · simp [extRangeErrs, rangeErrs]
  · simp [rangeMarks, extRangeMarks]

theorem genEnumReservedRange_runs (he : EnvOk src env) (p) {r : ReservedRange} (h : r.In 0 src.length) :
    Runs src env (genEnumReservedRange r) p (enumRangeDesc r) (enumRangeErrs r) (under p (rangeMarks r)) p := by
  obtain ⟨h1, h2, h3⟩ := range_spans h
  unfold genEnumReservedRange enumRangeDesc enumRangeErrs
  have hm : under p (rangeMarks r) = [⟨p, r.span, {}⟩] ++ ([⟨p ++ [Tag.rangeStart], r.startSpan, {}⟩] ++
      ([⟨p ++ [Tag.rangeEnd], r.endSpan, {}⟩] ++ ([] ++ []))) := by simp [rangeMarks]
  rw [hm]
  refine Runs.bind (e1 := []) (Runs.addSpan he h1 _) <| Runs.bind (e1 := []) (Runs.addSpanFor he _ h2 _) <|
    Runs.bind (e1 := []) (Runs.addSpanFor he _ h3 _) <| Runs.bind (genEnumNumber_runs (range_start h) _) ?_
  obtain ⟨c, _, h⟩ := h
  revert h
  cases r.stop with
  | none => intro _; exact Runs.bind (Runs.pure _ _) (Runs.pure _ _)
  | int v =>
    intro h
    exact Runs.conv (Runs.bind (genEnumNumber_runs (Int'.In.mono h (Nat.zero_le _) (Nat.le_refl _)) _) (Runs.pure _ _)) rfl (List.append_nil _) rfl rfl
  | max _ => intro _; exact Runs.bind (Runs.pure _ _) (Runs.pure _ _)

def rangesMarks (f : ReservedRange → List Mark) : Nat → List ReservedRange → List Mark
  | _, [] => []
  | k, r :: rs => under [(k : Int)] (f r) ++ rangesMarks f (k + 1) rs

theorem genReservedRanges_runs (he : EnvOk src env) (ms p) : ∀ (rs : List ReservedRange) (acc : List RangeProto),
    (∀ o ∈ rs, o.In 0 src.length) → acc.length + rs.length ≤ 2147483647 →
    Runs src env (genReservedRanges ms rs acc) p (acc ++ rs.map (rangeDesc ms)) (rs.flatMap rangeErrs)
      (under p (rangesMarks rangeMarks acc.length rs)) p
  | [], acc, _, _ => (Runs.pure _ _).conv (by simp) rfl rfl rfl
  | r :: rs, acc, h, hl => by
    simp only [List.length_cons] at hl
    refine Runs.conv (Runs.bind (Runs.index (by omega) _) <| Runs.bind (Runs.extend _ _) <|
      Runs.bind (genReservedRange_runs he _ ms (h r (.head _))) <| Runs.bind (Runs.pop _ _) <|
      genReservedRanges_runs he ms p rs _ (fun o hm => h o (.tail _ hm)) (by simp; omega)) ?_ ?_ ?_ rfl
    · simp
    · simp
    · simp [rangesMarks]

theorem genEnumReservedRanges_runs (he : EnvOk src env) (p) : ∀ (rs : List ReservedRange) (acc : List RangeProto),
    (∀ o ∈ rs, o.In 0 src.length) → acc.length + rs.length ≤ 2147483647 →
    Runs src env (genEnumReservedRanges rs acc) p (acc ++ rs.map enumRangeDesc) (rs.flatMap enumRangeErrs)
      (under p (rangesMarks rangeMarks acc.length rs)) p
  | [], acc, _, _ => (Runs.pure _ _).conv (by simp) rfl rfl rfl
  | r :: rs, acc, h, hl => by
    simp only [List.length_cons] at hl
    refine Runs.conv (Runs.bind (Runs.index (by omega) _) <| Runs.bind (Runs.extend _ _) <|
      Runs.bind (genEnumReservedRange_runs he _ (h r (.head _))) <| Runs.bind (Runs.pop _ _) <|
      genEnumReservedRanges_runs he p rs _ (fun o hm => h o (.tail _ hm)) (by simp; omega)) ?_ ?_ ?_ rfl
    · simp
    · simp
    · simp [rangesMarks]

theorem genExtensionRanges_runs (he : EnvOk src env) (ms) {os} (ho : optListIn 0 src.length os)
    (hs : optListSmall 2147483647 os) (p) : ∀ (rs : List ReservedRange) (acc : List ExtensionRangeProto),
    (∀ o ∈ rs, o.In 0 src.length) → acc.length + rs.length ≤ 2147483647 →
    Runs src env (genExtensionRanges ms os rs acc) p (acc ++ rs.map (extRangeDesc ms os)) (rs.flatMap (extRangeErrs os))
      (under p (rangesMarks (extRangeMarks os) acc.length rs)) p
  | [], acc, _, _ => (Runs.pure _ _).conv (by simp) rfl rfl rfl
  | r :: rs, acc, h, hl => by
    simp only [List.length_cons] at hl
    refine Runs.conv (Runs.bind (Runs.index (by omega) _) <| Runs.bind (Runs.extend _ _) <|
      Runs.bind (genExtensionRange_runs he _ ms (h r (.head _)) ho hs) <| Runs.bind (Runs.pop _ _) <|
      genExtensionRanges_runs he ms ho hs p rs _ (fun o hm => h o (.tail _ hm)) (by simp; omega)) ?_ ?_ ?_ rfl
    · simp
    · simp
    · simp [rangesMarks]

def namesMarks : Nat → List Ident → List Mark
  | _, [] => []
  | k, n :: ns => ⟨[(k : Int)], n.span, {}⟩ :: namesMarks (k + 1) ns

theorem genReservedNames_runs (he : EnvOk src env) (p) : ∀ (ns : List Ident) (acc : List Bytes),
    (∀ o ∈ ns, o.In 0 src.length) → acc.length + ns.length ≤ 2147483647 →
    Runs src env (genReservedNames ns acc) p (acc ++ ns.map (·.value)) [] (under p (namesMarks acc.length ns)) p
  | [], acc, _, _ => (Runs.pure _ _).conv (by simp) rfl rfl rfl
  | n :: ns, acc, h, hl => by
    simp only [List.length_cons] at hl
    refine Runs.conv (Runs.bind (Runs.index (by omega) _) <| Runs.bind (Runs.addSpanFor he _ (h n (.head _)) _) <|
      genReservedNames_runs he p ns _ (fun o hm => h o (.tail _ hm)) (by simp; omega)) ?_ ?_ ?_ rfl
    · simp
    · simp
    · simp [namesMarks]

/-- The ranges of one `reserved` declaration. -/
def resRanges (r : Reserved) : List ReservedRange := match r.kind with
  | .ranges rs => rs
  | .names _ => []
/-- The names of one `reserved` declaration. -/
def resNames (r : Reserved) : List Ident := match r.kind with
  | .ranges _ => []
  | .names ns => ns

def allRanges (rs : List Reserved) : List ReservedRange := rs.flatMap resRanges
def allNames (rs : List Reserved) : List Ident := rs.flatMap resNames

def reservedMarks (tagR tagN : Int) : Nat → Nat → List Reserved → List Mark
  | _, _, [] => []
  | k, j, r :: rs => (match r.kind with
    | .ranges xs => under [tagR] (⟨[], r.span, r.comments⟩ :: rangesMarks rangeMarks k xs)
    | .names ns => under [tagN] (⟨[], r.span, r.comments⟩ :: namesMarks j ns)) ++
    reservedMarks tagR tagN (k + (resRanges r).length) (j + (resNames r).length) rs

theorem genReserved_runs (he : EnvOk src env) (ms p) : ∀ (rs : List Reserved) (a : List RangeProto) (b : List Bytes),
    (∀ o ∈ rs, o.In 0 src.length) → a.length + (allRanges rs).length ≤ 2147483647 →
    b.length + (allNames rs).length ≤ 2147483647 →
    Runs src env (genReserved ms rs (a, b)) p
      (a ++ (allRanges rs).map (rangeDesc ms), b ++ (allNames rs).map (·.value)) ((allRanges rs).flatMap rangeErrs)
      (under p (reservedMarks Tag.messageReservedRange Tag.messageReservedName a.length b.length rs)) p
  | [], a, b, _, _, _ => (Runs.pure _ _).conv (by simp [allRanges, allNames]) rfl rfl rfl
  | ⟨.ranges xs, cm, sp⟩ :: rs, a, b, h, ha, hb => by
    have h0 := h _ (.head _)
    simp only [allRanges, allNames, List.flatMap_cons, List.length_append, resRanges, resNames] at ha hb
    refine Runs.conv (Runs.bind (Runs.extend _ _) <| Runs.bind (Runs.addComments he h0.2 _ _) <|
      Runs.bind (genReservedRanges_runs he ms _ xs a h0.1 (by omega)) <| Runs.bind (Runs.pop _ _) <|
      genReserved_runs he ms p rs _ _ (fun o hm => h o (.tail _ hm)) (by simp only [allRanges, List.length_append, List.length_map, List.length_nil] at *; omega)
        (by simp only [allNames, List.length_nil] at *; omega)) ?_ ?_ ?_ rfl
    · simp [allRanges, allNames, resRanges, resNames]
    · simp [allRanges, resRanges]
    · simp [reservedMarks, resRanges, resNames]
  | ⟨.names xs, cm, sp⟩ :: rs, a, b, h, ha, hb => by
    have h0 := h _ (.head _)
    simp only [allRanges, allNames, List.flatMap_cons, List.length_append, resRanges, resNames] at ha hb
    refine Runs.conv (Runs.bind (Runs.extend _ _) <| Runs.bind (Runs.addComments he h0.2 _ _) <|
      Runs.bind (genReservedNames_runs he _ xs b h0.1 (by omega)) <| Runs.bind (Runs.pop _ _) <|
      genReserved_runs he ms p rs _ _ (fun o hm => h o (.tail _ hm)) (by simp only [allRanges, List.length_nil] at *; omega)
        (by simp only [allNames, List.length_append, List.length_map, List.length_nil] at *; omega)) ?_ ?_ ?_ rfl
    · simp [allRanges, allNames, resRanges, resNames]
    · simp [allRanges, resRanges]
    · simp [reservedMarks, resRanges, resNames]

theorem genEnumReserved_runs (he : EnvOk src env) (p) : ∀ (rs : List Reserved) (a : List RangeProto) (b : List Bytes),
    (∀ o ∈ rs, o.In 0 src.length) → a.length + (allRanges rs).length ≤ 2147483647 →
    b.length + (allNames rs).length ≤ 2147483647 →
    Runs src env (genEnumReserved rs (a, b)) p
      (a ++ (allRanges rs).map enumRangeDesc, b ++ (allNames rs).map (·.value)) ((allRanges rs).flatMap enumRangeErrs)
      (under p (reservedMarks Tag.enumReservedRange Tag.enumReservedName a.length b.length rs)) p
  | [], a, b, _, _, _ => (Runs.pure _ _).conv (by simp [allRanges, allNames]) rfl rfl rfl
  | ⟨.ranges xs, cm, sp⟩ :: rs, a, b, h, ha, hb => by
    have h0 := h _ (.head _)
    simp only [allRanges, allNames, List.flatMap_cons, List.length_append, resRanges, resNames] at ha hb
    refine Runs.conv (Runs.bind (Runs.extend _ _) <| Runs.bind (Runs.addComments he h0.2 _ _) <|
      Runs.bind (genEnumReservedRanges_runs he _ xs a h0.1 (by omega)) <| Runs.bind (Runs.pop _ _) <|
      genEnumReserved_runs he p rs _ _ (fun o hm => h o (.tail _ hm)) (by simp only [allRanges, List.length_append, List.length_map, List.length_nil] at *; omega)
        (by simp only [allNames, List.length_nil] at *; omega)) ?_ ?_ ?_ rfl
    · simp [allRanges, allNames, resRanges, resNames]
    · simp [allRanges, resRanges]
    · simp [reservedMarks, resRanges, resNames]
  | ⟨.names xs, cm, sp⟩ :: rs, a, b, h, ha, hb => by
    have h0 := h _ (.head _)
    simp only [allRanges, allNames, List.flatMap_cons, List.length_append, resRanges, resNames] at ha hb
    refine Runs.conv (Runs.bind (Runs.extend _ _) <| Runs.bind (Runs.addComments he h0.2 _ _) <|
      Runs.bind (genReservedNames_runs he _ xs b h0.1 (by omega)) <| Runs.bind (Runs.pop _ _) <|
      genEnumReserved_runs he p rs _ _ (fun o hm => h o (.tail _ hm)) (by simp only [allRanges, List.length_nil] at *; omega)
        (by simp only [allNames, List.length_append, List.length_map, List.length_nil] at *; omega)) ?_ ?_ ?_ rfl
    · simp [allRanges, allNames, resRanges, resNames]
    · simp [allRanges, resRanges]
    · simp [reservedMarks, resRanges, resNames]

/-- All ranges of the `extensions` declarations of a message. -/
def allExtRanges (es : List Extensions) : List (Option OptionList × ReservedRange) :=
  es.flatMap fun e => e.ranges.map fun r => (e.options, r)

def extensionsMarks : Nat → List Extensions → List Mark
  | _, [] => []
  | k, e :: es => ⟨[], e.span, e.comments⟩ :: rangesMarks (extRangeMarks e.options) k e.ranges ++
    extensionsMarks (k + e.ranges.length) es

theorem genExtensions_runs (he : EnvOk src env) (ms p) : ∀ (es : List Extensions) (acc : List ExtensionRangeProto),
    (∀ o ∈ es, o.In 0 src.length) → (∀ e ∈ es, optListSmall 2147483647 e.options) →
    acc.length + (allExtRanges es).length ≤ 2147483647 →
    Runs src env (genExtensions ms es acc) p (acc ++ (allExtRanges es).map fun x => extRangeDesc ms x.1 x.2)
      ((allExtRanges es).flatMap fun x => extRangeErrs x.1 x.2) (under p (extensionsMarks acc.length es)) p
  | [], acc, _, _, _ => (Runs.pure _ _).conv (by simp [allExtRanges]) rfl rfl rfl
  | e :: es, acc, h, hs, hl => by
    have h0 := h _ (.head _)
    simp only [allExtRanges, List.flatMap_cons, List.length_append, List.length_map] at hl
    refine Runs.conv (Runs.bind (Runs.addComments he h0.2.2 _ _) <|
      Runs.bind (genExtensionRanges_runs he ms h0.2.1 (hs e (.head _)) _ e.ranges acc h0.1 (by omega)) <|
      genExtensions_runs he ms p es _ (fun o hm => h o (.tail _ hm)) (fun o hm => hs o (.tail _ hm))
        (by simp only [allExtRanges, List.length_append, List.length_map] at *; omega)) ?_ ?_ ?_ rfl
    · simp [allExtRanges]
    · simp [allExtRanges, List.flatMap_map]
    · simp [extensionsMarks]

end
end Verif.Gen
