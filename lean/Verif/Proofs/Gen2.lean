import Verif.Proofs.Gen
/-!
Running the generator: enums and services.
-/
namespace Verif.Gen
open Verif.Ast Verif.Spec

/-! ### Enums -/

def enumValueDesc (v : EnumValue) : EnumValueDescriptorProto :=
  ⟨some v.name.value, v.number.asI32, optListDesc v.options⟩

def enumValueErrs (v : EnumValue) : List ParseErrorKind := enumNumberErrs v.number ++ optListErrs v.options

def enumValueMarks (v : EnumValue) : List Mark :=
  ⟨[], v.span, v.comments⟩ :: ⟨[Tag.enumValueName], v.name.span, {}⟩ :: ⟨[Tag.enumValueNumber], v.number.span, {}⟩ ::
    under [Tag.enumValueOptions] (optListMarks v.options)

def valuesMarks : Nat → List EnumValue → List Mark
  | _, [] => []
  | k, v :: vs => under [Tag.enumValue, k] (enumValueMarks v) ++ valuesMarks (k + 1) vs

def enumDesc (e : Enum) : EnumDescriptorProto :=
  ⟨some e.name.value, e.values.map enumValueDesc, nonEmpty (optsDesc e.options),
    (allRanges e.reserved).map enumRangeDesc, (allNames e.reserved).map (·.value)⟩

def enumErrs (e : Enum) : List ParseErrorKind :=
  e.values.flatMap enumValueErrs ++ (allRanges e.reserved).flatMap enumRangeErrs ++ optsErrs e.options

def enumMarks (e : Enum) : List Mark :=
  ⟨[], e.span, e.comments⟩ :: ⟨[Tag.enumName], e.name.span, {}⟩ :: valuesMarks 0 e.values ++
    reservedMarks Tag.enumReservedRange Tag.enumReservedName 0 0 e.reserved ++
    under [Tag.enumOptions] (optsMarks 0 e.options)

/-- The lists in an enum have at most `n` elements. -/
def enumSmall (n : Nat) (e : Enum) : Prop :=
  e.values.length ≤ n ∧ (∀ v ∈ e.values, optListSmall n v.options) ∧ (allRanges e.reserved).length ≤ n ∧
    (allNames e.reserved).length ≤ n ∧ e.options.length ≤ n

/-! ### Services -/

def methodDesc (x : Method) : MethodDescriptorProto :=
  ⟨some x.name.value, some (tname x.inputTy), some (tname x.outputTy), nonEmpty (optsDesc x.options),
    if x.clientStreaming.isSome then some true else none, if x.serverStreaming.isSome then some true else none⟩

def optMark (tag : Int) (s : Option Span) : List Mark :=
  match s with
  | none => []
  | some sp => [⟨[tag], sp, {}⟩]

def methodMarks (x : Method) : List Mark :=
  ⟨[], x.span, x.comments⟩ :: ⟨[Tag.methodName], x.name.span, {}⟩ :: ⟨[Tag.methodInputType], tspan x.inputTy, {}⟩ ::
    ⟨[Tag.methodOutputType], tspan x.outputTy, {}⟩ :: optMark Tag.methodClientStreaming x.clientStreaming ++
    optMark Tag.methodServerStreaming x.serverStreaming ++ under [Tag.methodOptions] (optsMarks 0 x.options)

def methodsMarks : Nat → List Method → List Mark
  | _, [] => []
  | k, v :: vs => under [(k : Int)] (methodMarks v) ++ methodsMarks (k + 1) vs

def serviceDesc (s : Service) : ServiceDescriptorProto :=
  ⟨some s.name.value, s.methods.map methodDesc, nonEmpty (optsDesc s.options)⟩

def serviceErrs (s : Service) : List ParseErrorKind :=
  (s.methods.flatMap fun x => optsErrs x.options) ++ optsErrs s.options

def serviceMarks (s : Service) : List Mark :=
  ⟨[], s.span, s.comments⟩ :: ⟨[Tag.serviceName], s.name.span, {}⟩ :: under [Tag.serviceMethod] (methodsMarks 0 s.methods)
    ++ under [Tag.serviceOptions] (optsMarks 0 s.options)

def serviceSmall (n : Nat) (s : Service) : Prop :=
  s.methods.length ≤ n ∧ (∀ x ∈ s.methods, x.options.length ≤ n) ∧ s.options.length ≤ n

section
variable {src : Bytes} {env : Env}

theorem genEnumValue_runs (he : EnvOk src env) (p) {v : EnumValue} (h : v.In 0 src.length)
    (hs : optListSmall 2147483647 v.options) :
    Runs src env (genEnumValue v) p (enumValueDesc v) (enumValueErrs v) (under p (enumValueMarks v)) p := by
  obtain ⟨h1, h2, h3, h4⟩ := h
  refine Runs.conv (Runs.bind (Runs.addComments he h4 _ _) <| Runs.bind (Runs.addSpanFor he _ h1 _) <|
    Runs.bind (Runs.addSpanFor he _ h2 _) <| Runs.bind (genEnumNumber_runs h2 _) <| Runs.bind (Runs.extend _ _) <|
    Runs.bind (genOptionsList_runs he _ h3 hs) <| Runs.bind (Runs.pop _ _) <| Runs.pure _ _) ?_ ?_ ?_ rfl
  · rfl
  · simp [enumValueErrs]
  · simp [enumValueMarks]

theorem genEnumValues_runs (he : EnvOk src env) (p) : ∀ (vs : List EnumValue) (acc : List EnumValueDescriptorProto),
    (∀ v ∈ vs, v.In 0 src.length) → (∀ v ∈ vs, optListSmall 2147483647 v.options) →
    acc.length + vs.length ≤ 2147483647 →
    Runs src env (genEnumValues vs acc) p (acc ++ vs.map enumValueDesc) (vs.flatMap enumValueErrs)
      (under p (valuesMarks acc.length vs)) p
  | [], acc, _, _, _ => (Runs.pure _ _).conv (by simp) rfl rfl rfl
  | v :: vs, acc, h, hs, hl => by
    simp only [List.length_cons] at hl
    refine Runs.conv (Runs.bind (Runs.index (by omega) _) <| Runs.bind (Runs.extend _ _) <|
      Runs.bind (genEnumValue_runs he _ (h v (.head _)) (hs v (.head _))) <| Runs.bind (Runs.popPath _ _ rfl) <|
      genEnumValues_runs he p vs _ (fun o hm => h o (.tail _ hm)) (fun o hm => hs o (.tail _ hm))
        (by simp; omega)) ?_ ?_ ?_ rfl
    · simp
    · simp
    · simp [valuesMarks]

theorem genEnum_runs (he : EnvOk src env) (p) {e : Enum} (h : e.In 0 src.length) (hs : enumSmall 2147483647 e) :
    Runs src env (genEnum e) p (enumDesc e) (enumErrs e) (under p (enumMarks e)) p := by
  obtain ⟨h1, h2, h3, h4, h5⟩ := h
  obtain ⟨s1, s2, s3, s4, s5⟩ := hs
  refine Runs.conv (Runs.bind (Runs.addComments he h5 _ _) <| Runs.bind (Runs.addSpanFor he _ h1 _) <|
    Runs.bind (genEnumValues_runs he _ _ [] h3 s2 (by simpa using s1)) <|
    Runs.bind (genEnumReserved_runs he _ _ [] [] h4 (by simpa using s3) (by simpa using s4)) <|
    Runs.bind (Runs.extend _ _) <| Runs.bind (genOptions_runs he _ h2 s5) <| Runs.bind (Runs.pop _ _) <|
    Runs.pure _ _) ?_ ?_ ?_ rfl
  · simp [enumDesc]
  · simp [enumErrs]
  · simp [enumMarks]

theorem addSpanOpt_runs (he : EnvOk src env) (p) (tag : Int) {s : Option Span} (h : optSpIn 0 src.length s) :
    Runs src env (addSpanOpt tag s) p () [] (under p (optMark tag s)) p := by
  cases s with
  | none => exact Runs.pure _ _
  | some sp => exact Runs.conv (Runs.addSpanFor he _ (h sp rfl) _) rfl rfl (by simp [optMark]) rfl

theorem genMethod_runs (he : EnvOk src env) (p) {x : Method} (h : x.In 0 src.length) (hs : x.options.length ≤ 2147483647) :
    Runs src env (genMethod x) p (methodDesc x) (optsErrs x.options) (under p (methodMarks x)) p := by
  obtain ⟨h1, h2, h3, h4, h5, h6, h7⟩ := h
  have t2 := typeName_span' h2
  have t3 := typeName_span' h3
  refine Runs.conv (Runs.bind (Runs.addComments he h7 _ _) <| Runs.bind (Runs.addSpanFor he _ h1 _) <|
    Runs.bind (Runs.unwrap t2.1 _) <| Runs.bind (Runs.addSpanFor he _ t2.2 _) <|
    Runs.bind (Runs.unwrap (typeName_display h2) _) <|
    Runs.bind (Runs.unwrap t3.1 _) <| Runs.bind (Runs.addSpanFor he _ t3.2 _) <|
    Runs.bind (Runs.unwrap (typeName_display h3) _) <|
    Runs.bind (addSpanOpt_runs he _ _ h5) <| Runs.bind (addSpanOpt_runs he _ _ h6) <|
    Runs.bind (Runs.extend _ _) <| Runs.bind (genOptions_runs he _ h4 hs) <| Runs.bind (Runs.pop _ _) <|
    Runs.pure _ _) ?_ ?_ ?_ rfl
  · rfl
  · simp
  · simp [methodMarks]

theorem genMethods_runs (he : EnvOk src env) (p) : ∀ (xs : List Method) (acc : List MethodDescriptorProto),
    (∀ v ∈ xs, v.In 0 src.length) → (∀ x ∈ xs, x.options.length ≤ 2147483647) →
    acc.length + xs.length ≤ 2147483647 →
    Runs src env (genMethods xs acc) p (acc ++ xs.map methodDesc) (xs.flatMap fun x => optsErrs x.options)
      (under p (methodsMarks acc.length xs)) p
  | [], acc, _, _, _ => (Runs.pure _ _).conv (by simp) rfl rfl rfl
  | v :: vs, acc, h, hs, hl => by
    simp only [List.length_cons] at hl
    refine Runs.conv (Runs.bind (Runs.index (by omega) _) <| Runs.bind (Runs.extend _ _) <|
      Runs.bind (genMethod_runs he _ (h v (.head _)) (hs v (.head _))) <| Runs.bind (Runs.pop _ _) <|
      genMethods_runs he p vs _ (fun o hm => h o (.tail _ hm)) (fun o hm => hs o (.tail _ hm))
        (by simp; omega)) ?_ ?_ ?_ rfl
    · simp
    · simp
    · simp [methodsMarks]

theorem genService_runs (he : EnvOk src env) (p) {s : Service} (h : s.In 0 src.length)
    (hs : serviceSmall 2147483647 s) :
    Runs src env (genService s) p (serviceDesc s) (serviceErrs s) (under p (serviceMarks s)) p := by
  obtain ⟨h1, h2, h3, h4⟩ := h
  obtain ⟨s1, s2, s3⟩ := hs
  refine Runs.conv (Runs.bind (Runs.addComments he h4 _ _) <| Runs.bind (Runs.addSpanFor he _ h1 _) <|
    Runs.bind (Runs.extend _ _) <| Runs.bind (genMethods_runs he _ _ [] h3 s2 (by simpa using s1)) <|
    Runs.bind (Runs.pop _ _) <| Runs.bind (Runs.extend _ _) <| Runs.bind (genOptions_runs he _ h2 s3) <|
    Runs.bind (Runs.pop _ _) <| Runs.pure _ _) ?_ ?_ ?_ rfl
  · simp [serviceDesc]
  · simp [serviceErrs]
  · simp [serviceMarks]
end
end Verif.Gen
