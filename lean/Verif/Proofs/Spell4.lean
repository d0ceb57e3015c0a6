import Verif.Proofs.Spell3
import Verif.Props.Described
/-!
The rows of the source locations say what is in the descriptor.
-/
namespace Verif.Spell
open Verif.Ast Verif.Spec Verif.Gen

/-- All rows satisfy `P`. -/
def Ok (src : Bytes) (P : List Int → List Bytes → Prop) (rs : List Row) : Prop := ∀ r ∈ rs, P r.path (wordsIn src r.span)

section
variable {src : Bytes} {P : List Int → List Bytes → Prop}

theorem Ok.append {rs rs'} (h : Ok src P rs) (h' : Ok src P rs') : Ok src P (rs ++ rs') := by
  intro r hr
  rcases List.mem_append.1 hr with hr | hr
  · exact h r hr
  · exact h' r hr

theorem Ok.nil : Ok src P [] := nofun

theorem Ok.cons {r rs} (h : P r.path (wordsIn src r.span)) (h' : Ok src P rs) : Ok src P (r :: rs) := by
  intro x hx
  rcases List.mem_cons.1 hx with rfl | hx
  · exact h
  · exact h' x hx

theorem Ok.below {q rs} (h : Ok src (fun p => P (q ++ p)) rs) : Ok src P (rs.map (Row.below q)) := by
  intro x hx
  obtain ⟨r, hr, rfl⟩ := List.mem_map.1 hx
  exact h r hr

theorem Ok.map {α : Type} {l : List α} {g : α → Row} (h : ∀ x ∈ l, P (g x).path (wordsIn src (g x).span)) : Ok src P (l.map g) := by
  intro r hr
  obtain ⟨x, hx, rfl⟩ := List.mem_map.1 hr
  exact h x hx

theorem Ok.indexed {α : Type} {tag : Int} {l : List α} {rows : α → List Row}
    (h : ∀ (i : Nat) x, l[i]? = some x → Ok src (fun p => P (tag :: (i : Int) :: p)) (rows x)) :
    Ok src P (indexed tag l rows) := by
  intro r hr
  obtain ⟨i, x, hx, hr⟩ := mem_indexed.1 hr
  exact Ok.below (h i x hx) r hr

theorem Ok.mono {Q : List Int → List Bytes → Prop} {rs} (h : Ok src P rs) (hi : ∀ p ws, P p ws → Q p ws) : Ok src Q rs :=
  fun r hr => hi _ _ (h r hr)

/-- Nothing is said at any of the paths. -/
theorem Ok.any {rs} (h : ∀ p ws, P p ws) : Ok src P rs := fun _ _ => h _ _

theorem each_map {α β : Type} {inside : β → List Int → List Bytes → Prop} {l : List α} {g : α → β} {i : Nat} {x : α} {p ws}
    (hx : l[i]? = some x) (h : inside (g x) p ws) : each inside (l.map g) ((i : Int) :: p) ws :=
  ⟨i, g x, rfl, by rw [List.getElem?_map, hx]; rfl, h⟩

theorem each_get {α : Type} {inside : α → List Int → List Bytes → Prop} {l : List α} {i : Nat} {x : α} {p ws}
    (hx : l[i]? = some x) (h : inside x p ws) : each inside l ((i : Int) :: p) ws := ⟨i, x, rfl, hx, h⟩

/-! ### Ranges -/

theorem last_words {r : ReservedRange} {top : Int} {tops : List Int} (ht : top ∈ tops) (h : RangeWords src r) :
    LastNumber tops (wordsIn src (stopSpan r)) (lastOf top r) := by
  have h2 := h.stop
  unfold stopSpan lastOf
  cases hs : r.stop with
  | none => exact .inr h.start
  | int j => rw [hs] at h2; exact .inr h2
  | max s => rw [hs] at h2; exact .inl ⟨h2, ht⟩

theorem whole_words {r : ReservedRange} {top : Int} {tops : List Int} (ht : top ∈ tops) (h : RangeWords src r) :
    WrittenRange tops (wordsIn src (spanTo r.start.span (stopSpan r))) r.start.toInt (lastOf top r) := by
  have h1 := h.whole
  have h2 := last_words ht h
  cases hs : r.stop with
  | none =>
    rw [hs] at h1
    exact .inl ⟨by simp [lastOf, hs], by rw [h1]; exact h.start⟩
  | int j => rw [hs] at h1; exact .inr ⟨_, _, h1, h.start, h2⟩
  | max s => rw [hs] at h1; exact .inr ⟨_, _, h1, h.start, h2⟩

theorem range_ok {r : ReservedRange} {top : Int} (ht : top ∈ fieldTops) (h : RangeWords src r) :
    Ok src (rangeSays { start := some r.start.toInt, stop := some (lastOf top r + 1) }) (rangeRows r) :=
  Ok.cons ⟨_, _, rfl, rfl, whole_words ht h⟩ <| Ok.cons ⟨_, rfl, h.start⟩ <| Ok.cons ⟨_, rfl, last_words ht h⟩ Ok.nil

theorem enumRange_ok {r : ReservedRange} (h : RangeWords src r) :
    Ok src (enumRangeSays { start := some r.start.toInt, stop := some (lastOf 2147483647 r) }) (rangeRows r) :=
  Ok.cons ⟨_, _, rfl, rfl, whole_words (by simp) h⟩ <| Ok.cons ⟨_, rfl, h.start⟩ <| Ok.cons ⟨_, rfl, last_words (by simp) h⟩ Ok.nil

theorem extRange_ok {r : ReservedRange} {top : Int} {o} {rs : List Row} (ht : top ∈ fieldTops) (h : RangeWords src r)
    (ho : Ok src (optionsSay o) rs) :
    Ok src (extensionRangeSays { start := some r.start.toInt, stop := some (lastOf top r + 1), options := o })
      (rangeRows r ++ rs.map (Row.below [3])) :=
  Ok.append (Ok.cons ⟨_, _, rfl, rfl, whole_words ht h⟩ <| Ok.cons ⟨_, rfl, h.start⟩ <| Ok.cons ⟨_, rfl, last_words ht h⟩ Ok.nil)
    (Ok.below ho)

theorem names_eq (rs : List Reserved) : reservedNames rs =
    (rs.flatMap fun r => match r.kind with | .ranges _ => [] | .names ns => ns).map (·.value) := by
  unfold reservedNames
  induction rs with
  | nil => rfl
  | cons r rs ih =>
    simp only [List.flatMap_cons, List.map_append, ih]
    cases r.kind <;> rfl

theorem reserved_ok {rt nt : Int} {rs : List Reserved} (H : ReservedWords src rs) (h1 : ∀ ws, P [rt] ws) (h2 : ∀ ws, P [nt] ws)
    (hr : ∀ (i : Nat) r, (reservedRanges rs)[i]? = some r → RangeWords src r →
      Ok src (fun p => P (rt :: (i : Int) :: p)) (rangeRows r))
    (hn : ∀ p ws, each nameSays (reservedNames rs) p ws → P (nt :: p) ws) : Ok src P (reservedRows rt nt rs) := by
  refine Ok.append (Ok.append (Ok.map ?_) (Ok.indexed ?_)) (Ok.indexed ?_)
  · intro r _
    cases r.kind
    · exact h1 _
    · exact h2 _
  · exact fun i x hx => hr i x hx (H.ranges x (List.mem_of_getElem? hx))
  · intro i x hx
    refine Ok.cons (hn _ _ ?_) Ok.nil
    rw [names_eq]
    exact each_map hx (H.names x (List.mem_of_getElem? hx))

/-! ### Options -/

theorem carried_get {os : List OptionBody} {i : Nat} {o} (h : os[i]? = some o) : ((carried os).getD [])[i]? = some (optionOf o) := by
  unfold carried
  rw [if_neg (by rintro rfl; simp at h)]
  simp [h]

variable [FloatFmt]

theorem list_ok (H : Toks src) {l : Option OptionList} {os : List OptionBody} (h : ∀ o ∈ os, From (annotated src) Places.OptionBodyG o) :
    Ok src (optionsSay (carried os)) (listRows l os) := by
  refine Ok.append (Ok.map fun _ _ => by simp [optionsSay]) (Ok.indexed fun i o ho => Ok.cons ?_ Ok.nil)
  simp only [optionsSay]
  exact each_get (carried_get ho) (listed_words H (h o (List.mem_of_getElem? ho)))

theorem options_ok (H : Toks src) {os : List Opt} (h : ∀ o ∈ os, From (annotated src) Places.OptionG o) :
    Ok src (optionsSay (carried (os.map (·.body)))) (optionRows os) := by
  refine Ok.append (Ok.map fun _ _ => by simp [optionsSay]) (Ok.indexed fun i o ho => Ok.cons ?_ Ok.nil)
  simp only [optionsSay]
  exact each_get (carried_get (o := o.body) (by rw [List.getElem?_map, ho]; rfl)) (option_words H (h o (List.mem_of_getElem? ho)))

/-! ### Enums and services -/

theorem enum_ok {e : Enum} (T : Toks src) (H : EnumWords src e) : Ok src (enumSays (enumDescribed e)) (enumRows e) := by
  refine Ok.append (Ok.append (Ok.append (Ok.cons H.whole <| Ok.cons ⟨_, H.name, rfl⟩ Ok.nil) (Ok.indexed ?_)) ?_)
    (Ok.below (options_ok T H.options))
  · intro i v hv
    have hw := H.values v (List.mem_of_getElem? hv)
    refine Ok.mono (P := enumValueSays
      { name := some v.name.value, number := some v.number.toInt, options := carried (listed v.options) }) ?_
      fun p ws h => each_map hv h
    exact Ok.append (Ok.cons (hw.whole.elim fun num h => h.elim fun r h => ⟨_, num, r, _, h.1, rfl, rfl, h.2⟩) <| Ok.cons ⟨_, hw.name, rfl⟩ <| Ok.cons ⟨_, rfl, hw.number⟩ Ok.nil)
      (Ok.below (list_ok T hw.options))
  · refine reserved_ok H.reserved (fun _ => trivial) (fun _ => trivial) (fun i r hr hw => ?_) (fun _ _ h => h)
    exact (enumRange_ok hw).mono fun p ws h => each_map hr h

theorem service_ok {s : Service} (T : Toks src) (H : ServiceWords src s) : Ok src (serviceSays (serviceDescribed s)) (serviceRows s) := by
  refine Ok.append (Ok.append (Ok.cons H.whole <| Ok.cons ⟨_, H.name, rfl⟩ Ok.nil) (Ok.indexed ?_))
    (Ok.below (options_ok T H.options))
  intro i x hx
  have hw := H.methods x (List.mem_of_getElem? hx)
  have key : Ok src (methodSays
      { name := some x.name.value, inputType := some (typeText x.inputTy), outputType := some (typeText x.outputTy)
        options := carried (x.options.map (·.body))
        clientStreaming := if x.clientStreaming.isSome then some true else none
        serverStreaming := if x.serverStreaming.isSome then some true else none }) (methodRows x) := by
    refine Ok.append (Ok.append (Ok.append (Ok.cons hw.whole <| Ok.cons ⟨_, hw.name, rfl⟩ <|
      Ok.cons (congrArg some hw.input.symm) <| Ok.cons (congrArg some hw.output.symm) Ok.nil) (Ok.map ?_)) (Ok.map ?_))
      (Ok.below (options_ok T hw.options))
    · intro s hs
      have hs : x.clientStreaming = some s := by simpa using hs
      exact ⟨by simp [hs], hw.client s hs⟩
    · intro s hs
      have hs : x.serverStreaming = some s := by simpa using hs
      exact ⟨by simp [hs], hw.server s hs⟩
  exact key.mono fun p ws h => each_map hx h

/-! ### Fields -/

theorem field_ok (T : Toks src) (H : FieldWords src x) {syn pl oi d} (hd : FieldDescribed syn pl x oi d)
    (hmap : isMapField x = true → x.label = none) (hpl : ∀ t, pl = .extend t → (wordsIn src (typeSpan t)).flatten = typeText t) :
    Ok src (fieldSays d) (fieldRows pl x) := by
  have hname : fieldNameSays d [x.name.value] := by
    have h1 := hd.name
    have h2 := hd.type
    unfold fieldNameOf at h1
    unfold fieldTypeOf at h2
    unfold fieldNameSays
    cases hk : x.kind with
    | normal ty sp =>
      simp only [hk] at h1 h2
      rw [if_neg (by rw [h2]; cases ty <;> simp [typeNumber])]
      exact ⟨_, rfl, h1⟩
    | group sp b =>
      simp only [hk] at h1 h2
      rw [if_pos h2]
      exact ⟨_, rfl, h1⟩
    | map =>
      simp only [hk] at h1 h2
      rw [if_neg (by simp [h2])]
      exact ⟨_, rfl, h1⟩
  refine Ok.append (Ok.append (Ok.append (Ok.append (Ok.append (Ok.append ?_ ?_) (Ok.map ?_)) ?_) (Ok.map ?_)) ?_) ?_
  · exact Ok.cons (by
      obtain ⟨pre, num, r, h1, h2⟩ := H.decl
      exact ⟨pre, _, num, r, _, h1, hname, hd.number, h2⟩) <| Ok.cons (show fieldNameSays d _ by rw [H.name]; exact hname) <| Ok.cons ⟨_, hd.number, H.number⟩ Ok.nil
  · cases pl with
    | extend t => exact Ok.cons (hd.extendee.trans (congrArg some (hpl t rfl).symm)) Ok.nil
    | _ => nofun
  · intro l hl
    have hl : x.label = some l := by simpa using hl
    have hm : isMapField x = false := by
      cases hm : isMapField x with
      | false => rfl
      | true => rw [hmap hm] at hl; cases hl
    refine ⟨l.1, ?_, H.label l hl⟩
    rw [hd.label, hm, hl]
    rfl
  · have h1 := hd.type
    have h2 := hd.typeName
    have hk' := H.kind
    unfold fieldTypeOf at h1
    unfold fieldTypeNameOf at h2
    unfold typeRows
    cases hk : x.kind with
    | map =>
      simp only [hk] at h1 h2 hk' ⊢
      refine Ok.cons ?_ Ok.nil
      simp only [fieldSays, h1, if_true]
      exact hk'
    | group sp b =>
      simp only [hk] at h1 h2 hk' ⊢
      refine Ok.cons ?_ <| Ok.cons ?_ Ok.nil
      · exact ⟨_, b!"group", h1, hk', by decide⟩
      · simp only [fieldSays, h1, H.name]
        simpa using h2
    | normal ty sp =>
      simp only [hk] at h1 h2 hk'
      cases ty with
      | named t =>
        refine Ok.cons ?_ Ok.nil
        have h1 : d.type = none := h1
        simp only [fieldSays, h1]
        rw [if_neg (by simp), h2]
        exact congrArg some (Eq.symm hk')
      | _ =>
        obtain ⟨n, w, e, hw, hm⟩ := hk'
        refine Ok.cons ?_ Ok.nil
        exact ⟨n, w, h1.trans e, hw, hm⟩
  · intro o ho
    have ho : (listed x.options).find? (named b!"default") = some o := by simpa using ho
    obtain ⟨t, sp, v, hk, hv, ht⟩ := hd.default o ho
    obtain ⟨w1, w2, w3⟩ := value_words' T (H.options o (List.mem_of_find?_eq_some ho))
    have h1 := hd.type
    simp only [fieldTypeOf, hk] at h1
    show defaultSays d _
    refine ⟨v, hv, ?_, ?_, ?_⟩ <;> rw [h1]
    · intro e
      cases t <;> cases e
      cases hx : o.value with
      | string s => rw [hx] at ht; rw [ht.2, ← hx]; exact w3 s hx
      | _ => rw [hx] at ht; exact absurd ht (by simp [DefaultText])
    · intro e
      cases t <;> cases e
      cases hx : o.value with
      | ident neg i s =>
        rw [hx] at ht
        obtain ⟨rfl, -, rfl⟩ := ht
        rw [← hx]
        exact w1 _ _ hx
      | _ => rw [hx] at ht; exact absurd ht (by simp [DefaultText])
    · intro t' ht' e
      cases hx : o.value with
      | int i =>
        rw [hx] at ht
        rw [← hx]
        refine ⟨_, ?_, w2 i hx⟩
        cases t <;> cases e <;> first | exact ht.2 | (simp [integerTypes] at ht')
      | _ => rw [hx] at ht; exfalso; cases t <;> cases e <;> first | exact ht | (simp [integerTypes] at ht')
  · intro r hr
    simp only [List.mem_flatMap, Option.mem_toList] at hr
    obtain ⟨o, ho, hr⟩ := hr
    obtain ⟨s, hs, hj⟩ := hd.jsonName o ho
    have hn : named b!"json_name" o = true := by simpa using List.find?_some ho
    obtain ⟨g1, g2⟩ := H.json o (List.mem_of_find?_eq_some ho) hn s hs
    simp only [List.mem_cons, List.not_mem_nil, or_false] at hr
    rcases hr with rfl | rfl
    · exact ⟨_, _, hj, g1, .inr g2⟩
    · exact ⟨_, _, hj, g1, .inl rfl⟩
  · refine Ok.below ?_
    have h1 := list_ok T (l := x.options) (os := keptOptions x) fun o ho =>
      H.options o (List.mem_of_mem_eraseP (List.mem_of_mem_eraseP ho))
    refine h1.mono fun p ws h => ?_
    show optionsSay d.options p ws
    rw [hd.options]
    exact h

/-! ### Messages -/

/-- The words of the parts of a message body. -/
structure BodyWords (src : Bytes) (b : MessageBody) : Prop where
  oneofs : ∀ o ∈ bodyOneofs b, Named b!"oneof" (wordsIn src o.span) (some o.name.value) ∧ wordsIn src o.name.span = [o.name.value] ∧
    ∀ x ∈ o.options, From (annotated src) Places.OptionG x
  reserved : ReservedWords src b.reserved
  extensions : ∀ r ∈ extensionRanges b.extensions, RangeWords src r.1 ∧ ∀ o ∈ listed r.2, From (annotated src) Places.OptionBodyG o
  options : ∀ o ∈ b.options, From (annotated src) Places.OptionG o

theorem body_words (H : Toks src) {b} (h : BodyFrom (annotated src) b) : BodyWords src b := by
  refine ⟨?_, reserved_words H h.reserved, ?_, h.options⟩
  · intro o ho
    obtain ⟨i, hi, hm⟩ := List.mem_filterMap.1 ho
    obtain ⟨t, ht, h⟩ := h.items i hi
    cases i with
    | oneof o' => cases hm; obtain ⟨d, h⟩ := h; exact oneof_words H ⟨t, ht, h⟩
    | _ => cases hm
  · intro r hr
    obtain ⟨e, he, hr⟩ := List.mem_flatMap.1 hr
    obtain ⟨x, hx, rfl⟩ := List.mem_map.1 hr
    obtain ⟨t, ht, h⟩ := h.extensions e he
    cases h with
    | @mk k ts rs us os z hk h1 h2 h3 hz =>
      exact ⟨range_words H ((sepBy_mem h1 x hx).mono (sub_words ht ⟨[k], us ++ [z], by simp⟩)),
        fun o ho => (optList_mem h2 o ho).mono (sub_words ht ⟨k :: ts, [z], by simp⟩)⟩

theorem body_ok {syn b d} (T : Toks src) (H : BodyWords src b) (hd : BodyDescribed syn b d) : Ok src (descriptorSays d) (bodyRows b) := by
  obtain ⟨top, ht1, ht2, hr, he⟩ := hd.ranges
  have ht : top ∈ fieldTops := by
    by_cases hms : MessageSet b
    · simp [fieldTops, ht1 hms]
    · simp [fieldTops, ht2 hms]
  refine Ok.append (Ok.append (Ok.append (Ok.append (Ok.append (Ok.indexed ?_) ?_) (Ok.map ?_)) (Ok.indexed ?_)) (Ok.map ?_))
    (Ok.below ?_)
  · intro i o ho
    have hw := H.oneofs o (List.mem_of_getElem? ho)
    have key : Ok src (oneofSays { name := some o.name.value, options := carried (o.options.map (·.body)) }) (oneofRows o) :=
      Ok.append (Ok.cons hw.1 <| Ok.cons ⟨_, hw.2.1, rfl⟩ Ok.nil) (Ok.below (options_ok T hw.2.2))
    refine key.mono fun p ws hp => ?_
    simp only [descriptorSays, hd.oneofs]
    refine each_get ?_ hp
    rw [List.getElem?_append_left, List.getElem?_map, ho]
    · rfl
    · rw [List.length_map]; exact (List.getElem?_eq_some_iff.1 ho).1
  · refine reserved_ok H.reserved (fun _ => by simp [descriptorSays, each]) (fun _ => by simp [descriptorSays, each])
      (fun i r hi hw => ?_) (fun p ws h => ?_)
    · refine (range_ok (top := top) ht hw).mono fun p ws h => ?_
      simp only [descriptorSays, hr]
      exact each_map hi h
    · simpa only [descriptorSays, hd.reservedName] using h
  · intro e _; simp [descriptorSays, each]
  · intro i r hi
    have hw := H.extensions r (List.mem_of_getElem? hi)
    refine (extRange_ok (top := top) (o := carried (listed r.2)) ht hw.1 (list_ok T hw.2)).mono fun p ws h => ?_
    simp only [descriptorSays, he]
    exact each_map hi h
  · intro e _; simp [descriptorSays, each]
  · refine (options_ok T H.options).mono fun p ws h => ?_
    simp only [List.cons_append, List.nil_append, descriptorSays]
    rw [hd.options, Option.map_map]
    simpa [Function.comp_def] using h

theorem message_ok (H : Toks src) {s : MsgSrc} (hs : SrcFrom (annotated src) s) {syn d} (hn : d.name = some s.name)
    (hb : ∀ b, s.body = some b → BodyDescribed syn b d) : Ok src (descriptorSays d) (messageRows s) := by
  cases s with
  | message m =>
    have hbody := body_ok H (body_words H (srcFrom_body hs (b := m.body) rfl)) (hb _ rfl)
    obtain ⟨t, ht, k, hg⟩ := hs
    cases hg with
    | mk h1 h2 h3 h4 h5 =>
      have hw := named_words H ht h1 h2
      refine Ok.append (Ok.cons ?_ <| Ok.cons ?_ Ok.nil) hbody
      · simp only [descriptorSays, hn]
        exact .inl hw.1
      · simp only [descriptorSays, hn]
        exact ⟨_, hw.2, rfl⟩
  | group x b =>
    have hbody := body_ok H (body_words H (srcFrom_body hs (b := b) rfl)) (hb _ rfl)
    obtain ⟨hx, sp, hk⟩ := hs
    have hw := field_words H hx
    refine Ok.append (Ok.cons ?_ <| Ok.cons ?_ Ok.nil) hbody
    · simp only [descriptorSays, hn]
      exact hw.whole _ _ hk
    · simp only [descriptorSays, hn]
      exact ⟨_, hw.name, rfl⟩
  | map x k v => exact Ok.nil

/-! ### Where they stand -/

variable {f : Ast.File} {fd : FileDescriptorProto}

omit [FloatFmt] in
theorem msgAt_says {p s d} (h : MsgAt f fd p s d) {q ws} (hq : descriptorSays d q ws) : fileSays fd (p ++ q) ws := by
  induction h generalizing q with
  | top h1 h2 => exact each_get h2 hq
  | nested h1 h2 h3 h4 ih =>
    rw [List.append_assoc]
    exact ih ⟨_, _, rfl, h4, hq⟩

omit [FloatFmt] in
theorem fieldAt_says {p pl x d} (h : FieldAt f fd p pl x d) {q ws} (hq : fieldSays d q ws) : fileSays fd (p ++ q) ws := by
  cases h with
  | field hat hb h1 h2 =>
    rw [List.append_assoc]
    exact msgAt_says hat (by simpa only [List.cons_append, List.nil_append, descriptorSays] using each_get h2 hq)
  | ext hat hb h1 h2 =>
    rw [List.append_assoc]
    exact msgAt_says hat (by simpa only [List.cons_append, List.nil_append, descriptorSays] using each_get h2 hq)
  | fileExt h1 h2 => exact each_get h2 hq

omit [FloatFmt] in
theorem enumAt_says {p e d} (h : EnumAt f fd p e d) {q ws} (hq : enumSays d q ws) : fileSays fd (p ++ q) ws := by
  cases h with
  | top h1 h2 => exact each_get h2 hq
  | nested hat hb h1 h2 =>
    rw [List.append_assoc]
    exact msgAt_says hat (by simpa only [List.cons_append, List.nil_append, descriptorSays] using each_get h2 hq)

omit [FloatFmt] in
theorem serviceAt_says {p s d} (h : ServiceAt f fd p s d) {q ws} (hq : serviceSays d q ws) : fileSays fd (p ++ q) ws := by
  cases h with
  | mk h1 h2 => exact each_get h2 hq

/-! ### The file -/

/-- The numbers of the imports of a kind are as many as the imports of that kind. -/
theorem file_ok {name : Bytes} (H : Toks src) (hf : FileFrom (annotated src) f) (hm : Made name f fd) (hd : Describes name f fd) :
    Ok src (fileSays fd) (fileRows f) := by
  have d10 : fd.publicDependency = (fileDesc name f).publicDependency := by rw [← hm.desc]
  have d11 : fd.weakDependency = (fileDesc name f).weakDependency := by rw [← hm.desc]
  refine Ok.append (Ok.append (Ok.append (Ok.append (Ok.append (Ok.append (Ok.append (Ok.cons trivial Ok.nil)
    (Ok.map ?_)) (Ok.map ?_)) (Ok.indexed ?_)) (Ok.indexed ?_)) (Ok.indexed ?_)) (Ok.map ?_)) (Ok.below ?_)
  · intro s hs
    have hs : f.syntaxSpan = some s := by simpa using hs
    obtain ⟨vs, h1, h2⟩ := syntax_words H (hf.syn s hs)
    refine ⟨vs, h1, ?_⟩
    have h3 := hd.syn
    revert h2 h3
    generalize f.syntax' = syn
    intro h2 h3
    rw [h3]
    cases syn <;> exact h2
  · intro p hp
    have hp : f.package = some p := by simpa using hp
    obtain ⟨vs, h1, h2⟩ := package_words H (hf.package p hp)
    exact ⟨vs, h1, by rw [hd.package, hp]; exact h2⟩
  · intro i x hx
    refine Ok.cons ?_ Ok.nil
    show each importSays fd.dependency [(i : Int)] _
    rw [hd.dependency]
    exact each_map hx (import_words H (hf.imports x (List.mem_of_getElem? hx))).1
  · intro i s hx
    refine Ok.cons ?_ Ok.nil
    show each (fun (_ : Int) _ ws => ws = [b!"public"]) fd.publicDependency [(i : Int)] _
    rw [d10]
    obtain ⟨y, hy⟩ := get_of_len (importIdx_length .publ 0 f.imports) hx
    refine each_get hy ?_
    obtain ⟨x, hx, hk⟩ := List.mem_filterMap.1 (List.mem_of_getElem? hx)
    obtain ⟨k, hk1, hk2⟩ := Option.bind_eq_some_iff.1 hk
    split at hk2
    · rename_i hk3
      cases hk2
      refine (import_words H (hf.imports x ‹x ∈ f.imports›)).2.1 _ ?_
      rw [hk1, ← hk3]
    · cases hk2
  · intro i s hx
    refine Ok.cons ?_ Ok.nil
    show each (fun (_ : Int) _ ws => ws = [b!"weak"]) fd.weakDependency [(i : Int)] _
    rw [d11]
    obtain ⟨y, hy⟩ := get_of_len (importIdx_length .weak 0 f.imports) hx
    refine each_get hy ?_
    obtain ⟨x, hx, hk⟩ := List.mem_filterMap.1 (List.mem_of_getElem? hx)
    obtain ⟨k, hk1, hk2⟩ := Option.bind_eq_some_iff.1 hk
    split at hk2
    · rename_i hk3
      cases hk2
      refine (import_words H (hf.imports x ‹x ∈ f.imports›)).2.2 _ ?_
      rw [hk1, ← hk3]
    · cases hk2
  · intro e _; trivial
  · refine (options_ok H hf.options).mono fun p ws h => ?_
    show optionsSay fd.options p ws
    rw [hd.options]
    exact h

end
end Verif.Spell
