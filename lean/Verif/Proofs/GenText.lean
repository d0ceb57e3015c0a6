import Verif.Proofs.ParseText2
import Verif.Proofs.Parse
/-! The generator on text: error spans, location spans and comments. -/
namespace Verif.Text
open Ast Gen
variable {B : Nat → Prop}

/-- Locations at cut points, with comments that are text. -/
def MarksB (B : Nat → Prop) (ms : List Mark) : Prop := ∀ m ∈ ms, Sp B m.span ∧ CommB m.comments

theorem commB_none : CommB {} := ⟨nofun, nofun, nofun⟩

theorem MarksB.nil : MarksB B [] := nofun
theorem MarksB.cons {p s c ms} (h : Sp B s) (hc : CommB c) (hm : MarksB B ms) : MarksB B (⟨p, s, c⟩ :: ms) := by
  intro m hm'
  rcases List.mem_cons.1 hm' with rfl | h'
  · exact ⟨h, hc⟩
  · exact hm m h'
theorem MarksB.cons' {p s ms} (h : Sp B s) (hm : MarksB B ms) : MarksB B (⟨p, s, {}⟩ :: ms) := .cons h commB_none hm
theorem MarksB.append {a b} (h : MarksB B a) (h' : MarksB B b) : MarksB B (a ++ b) := by
  intro m hm
  rcases List.mem_append.1 hm with hm | hm
  · exact h m hm
  · exact h' m hm
theorem MarksB.under {p ms} (h : MarksB B ms) : MarksB B (Gen.under p ms) := by
  intro m hm
  obtain ⟨x, hx, rfl⟩ := List.mem_map.1 hm
  exact h x hx

theorem ErrsB.app {a b} (h : ErrsB B a) (h' : ErrsB B b) : ErrsB B (a ++ b) := by
  intro m hm
  rcases List.mem_append.1 hm with hm | hm
  · exact h m hm
  · exact h' m hm
theorem ErrsB.single {e : ParseErrorKind} {s} (he : e.spans = [s]) (h : Sp B s) : ErrsB B [e] := ErrsB.one (errs := []) .nil he h.1 h.2
theorem ErrsB.flat {α : Type} {l : List α} {g : α → List ParseErrorKind} (h : ∀ x ∈ l, ErrsB B (g x)) :
    ErrsB B (l.flatMap g) := by
  intro m hm
  obtain ⟨x, hx, hm⟩ := List.mem_flatMap.1 hm
  exact h x hx m hm
theorem ErrsB.ite {c : Prop} [Decidable c] {a b} (h : ErrsB B a) (h' : ErrsB B b) : ErrsB B (if c then a else b) := by
  split
  · exact h
  · exact h'

theorem valueB {v : OptionValue} (h : OptionValueB B v) : Sp B v.span := by
  cases v
  case ident => exact h.2
  all_goals exact h

theorem namePartB {x : OptionNamePart} (h : OptionNamePartB B x) : Sp B x.span := by
  cases x
  case ident => exact h
  case extension => exact h.2

theorem ospanB (h0 : B 0) {o : OptionBody} (h : OptionBodyB B o) : Sp B (ospan o) := by
  unfold ospan OptionBody.span OptionBody.nameSpan
  split
  · rename_i a b ha hb
    exact ⟨(namePartB (h.1 a (List.mem_of_mem_head? ha))).1, (valueB h.2).2⟩
  · exact ⟨h0, h0⟩

theorem tspanB (h0 : B 0) {t : Ast.TypeName} (h : TypeNameB B t) : Sp B (tspan t) := by
  unfold tspan
  cases hs : t.span with
  | none => exact ⟨h0, h0⟩
  | some s => exact typeName_spB h hs

theorem optionErrsB {o : OptionBody} (h : OptionBodyB B o) : ErrsB B (optionErrs o) := by
  unfold optionErrs
  obtain ⟨n, v⟩ := o
  have hv := h.2
  cases v with
  | ident b i sp =>
    cases b
    · exact .nil
    · exact .single rfl hv.2
  | int i => exact .ite (.single rfl hv) .nil
  | float => exact .nil
  | string => exact .nil
  | aggregate => exact .nil

theorem optsErrsB {os : List Opt} (h : ∀ o ∈ os, OptB B o) : ErrsB B (optsErrs os) := .flat fun x hx => optionErrsB (h x hx).1

theorem optsMarksB {os : List Opt} (h : ∀ o ∈ os, OptB B o) (k) : MarksB B (optsMarks k os) := by
  induction os generalizing k with
  | nil => exact .nil
  | cons o os ih =>
    have ho := h o (.head _)
    exact .cons' ho.2.2 (.cons ho.2.2 ho.2.1 (ih (fun x hx => h x (.tail _ hx)) _))

theorem bodiesMarksB (h0 : B 0) {os : List OptionBody} (h : ∀ o ∈ os, OptionBodyB B o) (k) : MarksB B (bodiesMarks k os) := by
  induction os generalizing k with
  | nil => exact .nil
  | cons o os ih => exact .cons' (ospanB h0 (h o (.head _))) (ih (fun x hx => h x (.tail _ hx)) _)

theorem optListErrsB {l : Option OptionList} (h : optListB B l) : ErrsB B (optListErrs l) := by
  cases l with
  | none => exact .nil
  | some l => exact .flat fun x hx => optionErrsB ((h l rfl).1 x hx)

theorem optListMarksB (h0 : B 0) {l : Option OptionList} (h : optListB B l) : MarksB B (optListMarks l) := by
  cases l with
  | none => exact .nil
  | some l => exact .cons' (h l rfl).2 (bodiesMarksB h0 (h l rfl).1 _)

theorem numberErrsB {i : Int'} (h : Sp B i.span) : ErrsB B (messageNumberErrs i) := .ite (.single rfl h) .nil
theorem enumNumberErrsB {i : Int'} (h : Sp B i.span) : ErrsB B (enumNumberErrs i) := .ite (.single rfl h) .nil

theorem rangeErrsB {r : ReservedRange} (h : RangeB B r) : ErrsB B (rangeErrs r) := by
  obtain ⟨a, b⟩ := r
  refine .app (numberErrsB h.1) ?_
  cases b
  case int v => exact numberErrsB h.2
  all_goals exact .nil

theorem enumRangeErrsB {r : ReservedRange} (h : RangeB B r) : ErrsB B (enumRangeErrs r) := by
  obtain ⟨a, b⟩ := r
  refine .app (enumNumberErrsB h.1) ?_
  cases b
  case int v => exact enumNumberErrsB h.2
  all_goals exact .nil

theorem rangeMarksB {r : ReservedRange} (h : RangeB B r) : MarksB B (rangeMarks r) := by
  have he : Sp B r.endSpan := by
    obtain ⟨a, b⟩ := r
    cases b
    case none => exact h.1
    all_goals exact h.2
  exact .cons' (h.1.join he) (.cons' h.1 (.cons' he .nil))

theorem rangesMarksB {f : ReservedRange → List Mark} {rs : List ReservedRange} (h : ∀ r ∈ rs, MarksB B (f r)) (k) :
    MarksB B (rangesMarks f k rs) := by
  induction rs generalizing k with
  | nil => exact .nil
  | cons r rs ih => exact .append (.under (h r (.head _))) (ih (fun x hx => h x (.tail _ hx)) _)

theorem namesMarksB {ns : List Ident} (h : ∀ n ∈ ns, Sp B n.span) (k) : MarksB B (namesMarks k ns) := by
  induction ns generalizing k with
  | nil => exact .nil
  | cons r rs ih => exact .cons' (h r (.head _)) (ih (fun x hx => h x (.tail _ hx)) _)

theorem allRangesB {rs : List Reserved} (h : ∀ r ∈ rs, ReservedB B r) : ∀ r ∈ allRanges rs, RangeB B r := by
  intro r hr
  obtain ⟨x, hx, hr⟩ := List.mem_flatMap.1 hr
  obtain ⟨k, c, s⟩ := x
  have hk := (h _ hx).1
  cases k with
  | ranges xs => exact hk r hr
  | names => cases hr

theorem reservedMarksB {rs : List Reserved} (h : ∀ r ∈ rs, ReservedB B r) (a b k j) : MarksB B (reservedMarks a b k j rs) := by
  induction rs generalizing k j with
  | nil => exact .nil
  | cons r rs ih =>
    obtain ⟨kd, c, s⟩ := r
    obtain ⟨h1, h2, h3⟩ := h _ (.head _)
    refine .append ?_ (ih (fun x hx => h x (.tail _ hx)) _ _)
    cases kd with
    | ranges xs => exact .under (.cons h3 h2 (rangesMarksB (fun r hr => rangeMarksB (h1 r hr)) _))
    | names xs => exact .under (.cons h3 h2 (namesMarksB h1 _))

theorem extRangesB {es : List Extensions} (h : ∀ e ∈ es, ExtensionsB B e) :
    ∀ x ∈ allExtRanges es, optListB B x.1 ∧ RangeB B x.2 := by
  intro x hx
  obtain ⟨e, he, hx⟩ := List.mem_flatMap.1 hx
  obtain ⟨r, hr, rfl⟩ := List.mem_map.1 hx
  exact ⟨(h e he).2.1, (h e he).1 r hr⟩

theorem extensionsMarksB (h0 : B 0) {es : List Extensions} (h : ∀ e ∈ es, ExtensionsB B e) (k) :
    MarksB B (extensionsMarks k es) := by
  induction es generalizing k with
  | nil => exact .nil
  | cons e es ih =>
    have he := h e (.head _)
    exact .append (.cons he.2.2.2 he.2.2.1 (rangesMarksB (fun r hr =>
      .append (rangeMarksB (he.1 r hr)) (.under (optListMarksB h0 he.2.1))) _)) (ih (fun x hx => h x (.tail _ hx)) _)

theorem enumErrsB {e : Ast.Enum} (h : EnumB B e) : ErrsB B (enumErrs e) :=
  .app (.app (.flat fun v hv => .app (enumNumberErrsB (h.2.2.1 v hv).2.1) (optListErrsB (h.2.2.1 v hv).2.2.1))
    (.flat fun r hr => enumRangeErrsB (allRangesB h.2.2.2.1 r hr))) (optsErrsB h.2.1)

theorem valuesMarksB (h0 : B 0) {vs : List EnumValue} (h : ∀ v ∈ vs, EnumValueB B v) (k) : MarksB B (valuesMarks k vs) := by
  induction vs generalizing k with
  | nil => exact .nil
  | cons v vs ih =>
    have hv := h v (.head _)
    exact .append (.under (.cons hv.2.2.2.2 hv.2.2.2.1 (.cons' hv.1 (.cons' hv.2.1 (.under (optListMarksB h0 hv.2.2.1))))))
      (ih (fun x hx => h x (.tail _ hx)) _)

theorem enumMarksB (h0 : B 0) {e : Ast.Enum} (h : EnumB B e) : MarksB B (enumMarks e) :=
  .append (.append (.cons h.2.2.2.2.2 h.2.2.2.2.1 (.cons' h.1 (valuesMarksB h0 h.2.2.1 _))) (reservedMarksB h.2.2.2.1 _ _ _ _))
    (.under (optsMarksB h.2.1 _))

theorem optMarkB {tag s} (h : optSpB B s) : MarksB B (optMark tag s) := by
  cases s with
  | none => exact .nil
  | some s => exact .cons' (h s rfl) .nil

theorem methodMarksB (h0 : B 0) {x : Method} (h : MethodB B x) : MarksB B (methodMarks x) := by
  obtain ⟨h1, h2, h3, h4, h5, h6, h7, h8⟩ := h
  exact .append (.append (.cons h8 h7 (.cons' h1 (.cons' (tspanB h0 h2) (.cons' (tspanB h0 h3) (optMarkB h5))))) (optMarkB h6))
    (.under (optsMarksB h4 _))

theorem methodsMarksB (h0 : B 0) {vs : List Method} (h : ∀ v ∈ vs, MethodB B v) (k) : MarksB B (methodsMarks k vs) := by
  induction vs generalizing k with
  | nil => exact .nil
  | cons v vs ih => exact .append (.under (methodMarksB h0 (h v (.head _)))) (ih (fun x hx => h x (.tail _ hx)) _)

theorem serviceErrsB {s : Service} (h : ServiceB B s) : ErrsB B (serviceErrs s) :=
  .app (.flat fun x hx => optsErrsB (h.2.2.1 x hx).2.2.2.1) (optsErrsB h.2.1)

theorem serviceMarksB (h0 : B 0) {s : Service} (h : ServiceB B s) : MarksB B (serviceMarks s) :=
  .append (.cons h.2.2.2.2 h.2.2.2.1 (.cons' h.1 (.under (methodsMarksB h0 h.2.2.1 _)))) (.under (optsMarksB h.2.1 _))

theorem labelErrsB {s scope label sp} (h : labelB B label) (hs : Sp B sp) : ErrsB B (labelErrs s scope label sp) := by
  unfold labelErrs
  split
  · exact .single rfl (h _ rfl)
  · exact .single rfl (h _ rfl)
  · exact .ite (.single rfl hs) .nil
  · exact .ite (.single rfl hs) .nil
  · exact .ite (.single rfl (h _ rfl)) .nil
  · exact .nil

theorem labelMarksB {s scope label} (h : labelB B label) : MarksB B (labelMarks s scope label) := by
  unfold labelMarks
  split
  · exact .nil
  · split
    · exact .nil
    · exact .cons' (h _ rfl) .nil

theorem stringErrsB {v} (h : OptionValueB B v) : ErrsB B (stringErrs v) := by
  have := valueB h
  cases v <;> first | exact .ite .nil (.single rfl this) | exact .single rfl this

theorem integerErrsB {c v} (h : OptionValueB B v) : ErrsB B (integerErrs c v) := by
  have := valueB h
  cases v <;> first | exact .ite (.single rfl this) .nil | exact .single rfl this

theorem scalarErrsB {ty v} (h : OptionValueB B v) : ErrsB B (scalarErrs ty v) := by
  have := valueB h
  cases ty <;> first
    | exact integerErrsB h
    | exact stringErrsB h
    | exact .ite (.single rfl this) .nil
    | exact .nil

theorem pickB {options name o} (h : optListB B options) (ho : pick options name = some o) : OptionBodyB B o := by
  unfold pick takeOption at ho
  split at ho
  · cases ho
  · rename_i l
    split at ho
    · cases ho
    · rename_i heq
      cases ho
      exact (h l rfl).1 _ (takeFirst_mem heq).1

theorem drop1B {options name} (h : optListB B options) : optListB B (drop1 options name) := by
  unfold drop1 takeOption
  split
  · nofun
  · rename_i l
    split
    · exact h
    · rename_i heq
      rintro _ ⟨⟩
      exact ⟨fun x hx => (h l rfl).1 _ ((takeFirst_mem heq).2.1 x hx), (h l rfl).2⟩

theorem dfltMarksB {d : Option OptionBody} (h : ∀ o, d = some o → OptionBodyB B o) : MarksB B (dfltMarks d) := by
  cases d with
  | none => exact .nil
  | some o => exact .cons' (valueB (h o rfl).2) .nil

theorem defaultCheckErrsB (h0 : B 0) {s label map} {d : Option OptionBody} (h : ∀ o, d = some o → OptionBodyB B o) :
    ErrsB B (defaultCheckErrs s label map d) := by
  cases d with
  | none => exact .nil
  | some o =>
    have := ospanB h0 (h o rfl)
    exact .ite (.single rfl this) (.ite (.single rfl this) (.ite (.single rfl this) .nil))

theorem groupDfltErrsB (h0 : B 0) {d : Option OptionBody} (h : ∀ o, d = some o → OptionBodyB B o) :
    ErrsB B (groupDfltErrs d) := by
  cases d with
  | none => exact .nil
  | some o => exact .single rfl (ospanB h0 (h o rfl))

theorem scalarDfltErrsB {ty} {d : Option OptionBody} (h : ∀ o, d = some o → OptionBodyB B o) :
    ErrsB B (scalarDfltErrs ty d) := by
  cases d with
  | none => exact .nil
  | some o => exact scalarErrsB (h o rfl).2

theorem mapScopeErrsB {label span scope} (h : labelB B label) (hs : Sp B span) : ErrsB B (mapScopeErrs label span scope) := by
  unfold mapScopeErrs
  split
  · exact .single rfl hs
  · exact .single rfl hs
  · split
    · exact .single rfl (h _ rfl)
    · exact .nil

theorem tailErrsB {options} (h : optListB B options) : ErrsB B (tailErrs options) := by
  refine .app ?_ (optListErrsB (drop1B (drop1B h)))
  unfold jsonErrs
  split
  · exact .nil
  · rename_i o ho
    exact stringErrsB (pickB (drop1B h) ho).2

theorem tailMarksB (h0 : B 0) {options} (h : optListB B options) : MarksB B (tailMarks options) := by
  refine .append ?_ (.under (optListMarksB h0 (drop1B (drop1B h))))
  unfold jsonMarks
  split
  · exact .nil
  · rename_i o ho
    have := pickB (drop1B h) ho
    exact .cons' (ospanB h0 this) (.cons' (valueB this.2) .nil)

mutual
theorem bodyErrsB (h0 : B 0) (s) : ∀ b : MessageBody, MessageBodyB B b → ErrsB B (bodyErrs s b)
  | ⟨items, exts, opts, res⟩, h => by
    rw [MessageBodyB] at h
    rw [bodyErrs]
    exact .app (.app (.app (itemsErrsB h0 s items h.1) (.flat fun r hr => rangeErrsB (allRangesB h.2.2.2 r hr)))
      (.flat fun x hx => .app (optListErrsB (extRangesB h.2.1 x hx).1) (rangeErrsB (extRangesB h.2.1 x hx).2)))
      (optsErrsB h.2.2.1)
theorem itemsErrsB (h0 : B 0) (s) : ∀ b : List MessageItem, itemsB B b → ErrsB B (itemsErrs s b)
  | [], _ => by rw [itemsErrs]; exact .nil
  | x :: xs, h => by
    rw [itemsB] at h
    rw [itemsErrs]
    exact .app (itemErrsB h0 s x h.1) (itemsErrsB h0 s xs h.2)
theorem itemErrsB (h0 : B 0) (s) : ∀ b : MessageItem, MessageItemB B b → ErrsB B (itemErrs s b)
  | .field f, h => by rw [MessageItemB] at h; rw [itemErrs]; exact fieldErrsB h0 s _ f h
  | .enum e, h => by rw [MessageItemB] at h; rw [itemErrs]; exact enumErrsB h
  | .message x, h => by rw [MessageItemB] at h; rw [itemErrs]; exact messageErrsB h0 s x h
  | .extend e, h => by rw [MessageItemB] at h; rw [itemErrs]; exact extendErrsB h0 s e h
  | .oneof o, h => by rw [MessageItemB] at h; rw [itemErrs]; exact oneofErrsB h0 s o h
theorem extendErrsB (h0 : B 0) (s) : ∀ b : Extend, ExtendB B b → ErrsB B (extendErrs s b)
  | ⟨t, fields, c, sp⟩, h => by rw [ExtendB] at h; rw [extendErrs]; exact fieldsErrsB h0 s _ fields h.2.1
theorem oneofErrsB (h0 : B 0) (s) : ∀ b : Oneof, OneofB B b → ErrsB B (oneofErrs s b)
  | ⟨name, options, fields, c, sp⟩, h => by
    rw [OneofB] at h
    rw [oneofErrs]
    exact .app (.app (optsErrsB h.2.1) (.ite (.single rfl h.2.2.2.2) .nil)) (fieldsErrsB h0 s _ fields h.2.2.1)
theorem fieldsErrsB (h0 : B 0) (s scope) : ∀ b : List Field, fieldsB B b → ErrsB B (fieldsErrs s scope b)
  | [], _ => by rw [fieldsErrs]; exact .nil
  | x :: xs, h => by
    rw [fieldsB] at h
    rw [fieldsErrs]
    exact .app (fieldErrsB h0 s _ x h.1) (fieldsErrsB h0 s _ xs h.2)
theorem fieldErrsB (h0 : B 0) (s scope) : ∀ b : Field, FieldB B b → ErrsB B (fieldErrs s scope b)
  | ⟨label, name, kind, number, options, comments, span⟩, h => by
    rw [FieldB] at h
    rw [fieldErrs]
    obtain ⟨h1, h2, h3, h4, h5, h6, h7⟩ := h
    have hd : ∀ o, dfltOf options = some o → OptionBodyB B o := fun o ho => pickB h5 ho
    exact .app (.app (.app (numberErrsB h4) (defaultCheckErrsB h0 hd)) (kindErrsB h0 s scope label span _ kind h1 h7 hd h3))
      (tailErrsB h5)
theorem kindErrsB (h0 : B 0) (s scope label span dflt) : ∀ k : FieldKind, labelB B label → Sp B span →
    (∀ o, dflt = some o → OptionBodyB B o) → FieldKindB B k → ErrsB B (kindErrs s scope label span dflt k)
  | .normal ty sp, h1, h7, hd, h => by
    rw [kindErrs]
    exact .app (labelErrsB h1 h7) (scalarDfltErrsB hd)
  | .group sp body, h1, h7, hd, h => by
    rw [FieldKindB] at h
    rw [kindErrs]
    exact .app (.app (.app (labelErrsB h1 h7) (.ite (.single rfl h7) .nil)) (groupDfltErrsB h0 hd)) (bodyErrsB h0 s body h.2)
  | .map sp k ksp v vsp, h1, h7, hd, h => by
    rw [FieldKindB] at h
    rw [kindErrs]
    exact .app (mapScopeErrsB h1 h7) (.ite .nil (.single rfl h.2.2.1))
theorem messageErrsB (h0 : B 0) (s) : ∀ b : Message, MessageB B b → ErrsB B (messageErrs s b)
  | ⟨name, body, c, sp⟩, h => by rw [MessageB] at h; rw [messageErrs]; exact bodyErrsB h0 s body h.2.1
end

mutual
theorem bodyMarksB (h0 : B 0) (s) : ∀ b : MessageBody, MessageBodyB B b → MarksB B (bodyMarks s b)
  | ⟨items, exts, opts, res⟩, h => by
    rw [MessageBodyB] at h
    rw [bodyMarks]
    exact .append (itemsMarksB h0 s _ items h.1) (.append (.append (reservedMarksB h.2.2.2 _ _ _ _)
      (.under (extensionsMarksB h0 h.2.1 _))) (.under (optsMarksB h.2.2.1 _)))
theorem itemsMarksB (h0 : B 0) (s) : ∀ c, ∀ b : List MessageItem, itemsB B b → MarksB B (itemsMarks s c b)
  | _, [], _ => by rw [itemsMarks]; exact .nil
  | c, x :: xs, h => by
    rw [itemsB] at h
    rw [itemsMarks]
    exact .append (itemMarksB h0 s c x h.1) (itemsMarksB h0 s _ xs h.2)
theorem itemMarksB (h0 : B 0) (s c) : ∀ b : MessageItem, MessageItemB B b → MarksB B (itemMarks s c b)
  | .field f, h => by rw [MessageItemB] at h; rw [itemMarks]; exact fieldMarksB h0 s _ _ _ _ _ f h
  | .enum e, h => by rw [MessageItemB] at h; rw [itemMarks]; exact .under (enumMarksB h0 h)
  | .message x, h => by rw [MessageItemB] at h; rw [itemMarks]; exact .under (messageMarksB h0 s x h)
  | .extend e, h => by rw [MessageItemB] at h; rw [itemMarks]; exact extendMarksB h0 s _ _ _ _ e h
  | .oneof o, h => by rw [MessageItemB] at h; rw [itemMarks]; exact oneofAllMarksB h0 s c o h
theorem oneofAllMarksB (h0 : B 0) (s c) : ∀ b : Oneof, OneofB B b → MarksB B (oneofAllMarks s c b)
  | ⟨name, options, fields, cm, sp⟩, h => by
    rw [OneofB] at h
    rw [oneofAllMarks]
    exact .append (.under (.cons h.2.2.2.2 h.2.2.2.1 (.cons' h.1 (.under (optsMarksB h.2.1 _)))))
      (oneofFieldsMarksB h0 s _ _ fields h.2.2.1)
theorem extendMarksB (h0 : B 0) (s et mt i k) : ∀ b : Extend, ExtendB B b → MarksB B (extendMarks s et mt i k b)
  | ⟨t, fields, c, sp⟩, h => by
    rw [ExtendB] at h
    rw [extendMarks]
    exact .cons h.2.2.2 h.2.2.1 (extFieldsMarksB h0 s t et mt h.1 _ _ fields h.2.1)
theorem oneofFieldsMarksB (h0 : B 0) (s) : ∀ i k, ∀ b : List Field, fieldsB B b → MarksB B (oneofFieldsMarks s i k b)
  | _, _, [], _ => by rw [oneofFieldsMarks]; exact .nil
  | i, k, x :: xs, h => by
    rw [fieldsB] at h
    rw [oneofFieldsMarks]
    exact .append (fieldMarksB h0 s _ _ _ _ _ x h.1) (oneofFieldsMarksB h0 s _ _ xs h.2)
theorem extFieldsMarksB (h0 : B 0) (s t et mt) (ht : TypeNameB B t) : ∀ i k, ∀ b : List Field, fieldsB B b →
    MarksB B (extFieldsMarks s t et mt i k b)
  | _, _, [], _ => by rw [extFieldsMarks]; exact .nil
  | i, k, x :: xs, h => by
    rw [fieldsB] at h
    rw [extFieldsMarks]
    exact .append (.cons' (tspanB h0 ht) (fieldMarksB h0 s _ _ _ _ _ x h.1)) (extFieldsMarksB h0 s t et mt ht _ _ xs h.2)
theorem fieldMarksB (h0 : B 0) (s scope ft mt i k) : ∀ b : Field, FieldB B b → MarksB B (fieldMarks s scope ft mt i k b)
  | ⟨label, name, kind, number, options, comments, span⟩, h => by
    rw [FieldB] at h
    rw [fieldMarks]
    obtain ⟨h1, h2, h3, h4, h5, h6, h7⟩ := h
    have hd : ∀ o, dfltOf options = some o → OptionBodyB B o := fun o ho => pickB h5 ho
    exact .append (.append (.under (.cons' h2 (.cons' h4 .nil)))
      (kindMarksB h0 s scope ft mt i k label name span comments _ kind h1 h2 h7 h6 hd h3)) (.under (tailMarksB h0 h5))
theorem kindMarksB (h0 : B 0) (s scope ft mt i k label) (name : Ident) (span : Span) (cm dflt) : ∀ kd : FieldKind,
    labelB B label → Sp B name.span → Sp B span → CommB cm →
    (∀ o, dflt = some o → OptionBodyB B o) → FieldKindB B kd →
    MarksB B (kindMarks s scope ft mt i k label name span cm dflt kd)
  | .normal ty sp, h1, h2, h7, hc, hd, h => by
    rw [FieldKindB] at h
    have hl := labelMarksB (s := s) (scope := scope) h1
    have hsc : MarksB B (scalarMarks s scope label span cm sp dflt) :=
      .append (.append hl (dfltMarksB hd)) (.cons h7 hc (.cons' h.2 .nil))
    cases ty
    case named t =>
      rw [kindMarks]
      exact .under (.append hl (.cons h7 hc (.cons' (tspanB h0 h.1) (dfltMarksB hd))))
    all_goals
      rw [kindMarks]
      · exact .under hsc
      · nofun
  | .group sp body, h1, h2, h7, hc, hd, h => by
    rw [FieldKindB] at h
    rw [kindMarks]
    exact .append (.under (.append (labelMarksB h1) (.cons' h7 (.cons' h.1 (.cons' h2 .nil)))))
      (.under (.append (.cons h7 hc (.cons' h2 .nil)) (bodyMarksB h0 s body h.2)))
  | .map sp k ksp v vsp, h1, h2, h7, hc, hd, h => by
    rw [FieldKindB] at h
    rw [kindMarks]
    exact .under (.cons h7 hc (.cons' h.1 .nil))
theorem messageMarksB (h0 : B 0) (s) : ∀ b : Message, MessageB B b → MarksB B (messageMarks s b)
  | ⟨name, body, c, sp⟩, h => by
    rw [MessageB] at h
    rw [messageMarks]
    exact .cons h.2.2.2 h.2.2.1 (.cons' h.1 (bodyMarksB h0 s body h.2.1))
end

theorem fileErrsB (h0 : B 0) {f : Ast.File} (h : FileB B f) : ErrsB B (fileErrs f) := by
  refine .app (.flat fun x hx => ?_) (optsErrsB h.options)
  have hx := h.items x hx
  cases x with
  | message x => exact messageErrsB h0 _ x hx
  | enum e => exact enumErrsB hx
  | service x => exact serviceErrsB hx
  | extend e => exact extendErrsB h0 _ e hx

theorem importMarksB {l : List Import} (h : ∀ i ∈ l, ImportB B i) (a b c) : MarksB B (importMarks a b c l) := by
  induction l generalizing a b c with
  | nil => exact .nil
  | cons x xs ih =>
    obtain ⟨kind, v, vs, cm, sp⟩ := x
    obtain ⟨h1, h2, h3, h4⟩ := h _ (.head _)
    have ih := fun a b c => ih (fun x hx => h x (.tail _ hx)) a b c
    refine .cons h4 h3 ?_
    dsimp only
    split
    · exact .cons' (h1 _ rfl) (ih _ _ _)
    · exact .cons' (h1 _ rfl) (ih _ _ _)
    · exact ih _ _ _

theorem fileMarksB (h0 : B 0) {f : Ast.File} (h : FileB B f) : MarksB B (fileMarks f) := by
  refine .cons' h.span (.append (.append (.append (.append ?_ (importMarksB h.imports _ _ _)) ?_) (.under (optsMarksB h.options _))) ?_)
  · unfold packageMarks
    split
    · exact .nil
    · rename_i p hp
      have := h.pkg p hp
      exact .cons this.2.2 this.2.1 .nil
  · have key : ∀ (l : List FileItem) (c : FCnt), (∀ x ∈ l, FileItemB B x) → MarksB B (fileItemsMarks f.syntax' c l) := by
      intro l
      induction l with
      | nil => exact fun _ _ => .nil
      | cons x xs ih =>
        intro c h
        have hx := h x (.head _)
        refine .append ?_ (ih _ fun x hx => h x (.tail _ hx))
        cases x with
        | message x => exact .under (messageMarksB h0 _ x hx)
        | enum e => exact .under (enumMarksB h0 hx)
        | service x => exact .under (serviceMarksB h0 hx)
        | extend e => exact extendMarksB h0 _ _ _ _ _ e hx
    exact key _ _ h.items
  · unfold syntaxMarks
    split
    · exact .nil
    · rename_i sp cm hs
      have := h.syn _ hs
      exact .cons this.1 this.2 .nil

end Verif.Text
