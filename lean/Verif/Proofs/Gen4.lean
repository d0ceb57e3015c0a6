import Verif.Proofs.Gen3
/-!
Running the generator: message bodies.
-/
namespace Verif.Gen
open Verif.Ast Verif.Spec

/-! ### Descriptors -/

/-- The descriptor of a field. -/
def fieldDesc [FloatFmt] (s : Syntax') (scope : FieldScope) (oi : Option Int) (f : Field) : FieldDescriptorProto :=
  mkField ⟨kindName f.kind f.name.value, kindLabel s scope f.label f.kind, kindType f.kind,
      kindTypeName f.kind f.name.value, kindDefault f.kind (dfltOf f.options), []⟩
    (messageNumber f.number) (if isP3 s f.label then some true else none) oi f.options

def extFieldDesc [FloatFmt] (s : Syntax') (t : TypeName) (f : Field) : FieldDescriptorProto :=
  { fieldDesc s .extend none f with extendee := some (tname t) }

/-- The fields of a message: `r` is the index of the next oneof, `y` that of the next synthetic oneof. -/
def itemsFields [FloatFmt] (s : Syntax') : Nat → Nat → List MessageItem → List FieldDescriptorProto
  | _, _, [] => []
  | r, y, .field f :: xs =>
    if isP3 s f.label then fieldDesc s .message (some (y : Int)) f :: itemsFields s r (y + 1) xs
    else fieldDesc s .message none f :: itemsFields s r y xs
  | r, y, .oneof o :: xs => o.fields.map (fieldDesc s .oneof (some (r : Int))) ++ itemsFields s (r + 1) y xs
  | r, y, _ :: xs => itemsFields s r y xs

def itemsExts [FloatFmt] (s : Syntax') : List MessageItem → List FieldDescriptorProto
  | [] => []
  | .extend e :: xs => e.fields.map (extFieldDesc s e.extendee) ++ itemsExts s xs
  | _ :: xs => itemsExts s xs

def itemsEnums : List MessageItem → List EnumDescriptorProto
  | [] => []
  | .enum e :: xs => enumDesc e :: itemsEnums xs
  | _ :: xs => itemsEnums xs

def oneofDesc (o : Oneof) : OneofDescriptorProto := ⟨some o.name.value, nonEmpty (optsDesc o.options)⟩

def itemsOneofs : List MessageItem → List OneofDescriptorProto
  | [] => []
  | .oneof o :: xs => oneofDesc o :: itemsOneofs xs
  | _ :: xs => itemsOneofs xs

def itemsSynth (s : Syntax') : List MessageItem → List OneofDescriptorProto
  | [] => []
  | .field f :: xs =>
    if isP3 s f.label then ⟨some (synthName f.name.value), none⟩ :: itemsSynth s xs else itemsSynth s xs
  | _ :: xs => itemsSynth s xs

mutual
/-- The descriptor of a message or group body, without its name. -/
def bodyDesc [FloatFmt] (s : Syntax') : MessageBody → DescriptorProto
  | ⟨items, exts, opts, res⟩ => {
      name := none
      field := itemsFields s 0 (countOneofs items) items
      extension := itemsExts s items
      nestedType := itemsNested s items
      enumType := itemsEnums items
      extensionRange := (allExtRanges exts).map fun x => extRangeDesc (isMessageSet opts) x.1 x.2
      oneofDecl := itemsOneofs items ++ itemsSynth s items
      options := (nonEmpty (optsDesc opts)).map fun us => { uninterpretedOption := us }
      reservedRange := (allRanges res).map (rangeDesc (isMessageSet opts))
      reservedName := (allNames res).map (·.value) }
def itemsNested [FloatFmt] (s : Syntax') : List MessageItem → List DescriptorProto
  | [] => []
  | x :: xs => itemNested s x ++ itemsNested s xs
def itemNested [FloatFmt] (s : Syntax') : MessageItem → List DescriptorProto
  | .field f => fieldNested s f
  | .enum _ => []
  | .message x => [messageDesc s x]
  | .extend e => extendNested s e
  | .oneof o => oneofNested s o
def extendNested [FloatFmt] (s : Syntax') : Extend → List DescriptorProto
  | ⟨_, fields, _, _⟩ => fieldsNested s fields
def oneofNested [FloatFmt] (s : Syntax') : Oneof → List DescriptorProto
  | ⟨_, _, fields, _, _⟩ => fieldsNested s fields
def fieldsNested [FloatFmt] (s : Syntax') : List Field → List DescriptorProto
  | [] => []
  | f :: fs => fieldNested s f ++ fieldsNested s fs
/-- The nested message made for a group or map field. -/
def fieldNested [FloatFmt] (s : Syntax') : Field → List DescriptorProto
  | ⟨_, name, kind, _, _, _, _⟩ => kindNested s name.value kind
def kindNested [FloatFmt] (s : Syntax') (name : Bytes) : FieldKind → List DescriptorProto
  | .normal _ _ => []
  | .group _ body => [{ bodyDesc s body with name := some name }]
  | .map _ k _ v _ => [entryOf name k v]
def messageDesc [FloatFmt] (s : Syntax') : Message → DescriptorProto
  | ⟨name, body, _, _⟩ => { bodyDesc s body with name := some name.value }
end

/-! ### Errors -/

mutual
def bodyErrs (s : Syntax') : MessageBody → List ParseErrorKind
  | ⟨items, exts, opts, res⟩ => itemsErrs s items ++ (allRanges res).flatMap rangeErrs ++
      ((allExtRanges exts).flatMap fun x => extRangeErrs x.1 x.2) ++ optsErrs opts
def itemsErrs (s : Syntax') : List MessageItem → List ParseErrorKind
  | [] => []
  | x :: xs => itemErrs s x ++ itemsErrs s xs
def itemErrs (s : Syntax') : MessageItem → List ParseErrorKind
  | .field f => fieldErrs s .message f
  | .enum e => enumErrs e
  | .message x => messageErrs s x
  | .extend e => extendErrs s e
  | .oneof o => oneofErrs s o
def extendErrs (s : Syntax') : Extend → List ParseErrorKind
  | ⟨_, fields, _, _⟩ => fieldsErrs s .extend fields
def oneofErrs (s : Syntax') : Oneof → List ParseErrorKind
  | ⟨_, options, fields, _, sp⟩ => optsErrs options ++ (if fields.isEmpty then [.emptyOneof sp] else []) ++
      fieldsErrs s .oneof fields
def fieldsErrs (s : Syntax') (scope : FieldScope) : List Field → List ParseErrorKind
  | [] => []
  | f :: fs => fieldErrs s scope f ++ fieldsErrs s scope fs
def fieldErrs (s : Syntax') (scope : FieldScope) : Field → List ParseErrorKind
  | ⟨label, _, kind, number, options, _, span⟩ => messageNumberErrs number ++
      defaultCheckErrs s label (isMap kind) (dfltOf options) ++
      kindErrs s scope label span (dfltOf options) kind ++ tailErrs options
def kindErrs (s : Syntax') (scope : FieldScope) (label : Option (FieldLabel × Span)) (span : Span)
    (dflt : Option OptionBody) : FieldKind → List ParseErrorKind
  | .normal ty _ => labelErrs s scope label span ++ scalarDfltErrs ty dflt
  | .group _ body => groupErrs s scope label span dflt ++ bodyErrs s body
  | .map _ k ksp _ _ => mapScopeErrs label span scope ++ if validKey k then [] else [.invalidMapFieldKeyType ksp]
def messageErrs (s : Syntax') : Message → List ParseErrorKind
  | ⟨_, body, _, _⟩ => bodyErrs s body
end

/-! ### Locations -/

/-- How many elements of each kind a message has so far. -/
structure Cnt where
  field : Nat := 0
  ext : Nat := 0
  nested : Nat := 0
  enum : Nat := 0
  oneof : Nat := 0

/-- How many nested messages a field makes. -/
def nestedCount (f : Field) : Nat :=
  match f.kind with
  | .normal .. => 0
  | _ => 1

def nestedCounts : List Field → Nat
  | [] => 0
  | f :: fs => nestedCount f + nestedCounts fs

def Cnt.next (c : Cnt) : MessageItem → Cnt
  | .field f => { c with field := c.field + 1, nested := c.nested + nestedCount f }
  | .enum _ => { c with enum := c.enum + 1 }
  | .message _ => { c with nested := c.nested + 1 }
  | .extend e => { c with ext := c.ext + e.fields.length, nested := c.nested + nestedCounts e.fields }
  | .oneof o => { c with field := c.field + o.fields.length, nested := c.nested + nestedCounts o.fields,
                         oneof := c.oneof + 1 }

def oneofMarks (o : Oneof) : List Mark :=
  ⟨[], o.span, o.comments⟩ :: ⟨[Tag.oneofName], o.name.span, {}⟩ :: under [Tag.oneofOptions] (optsMarks 0 o.options)

def bodyTailMarks (exts : List Extensions) (opts : List Opt) (res : List Reserved) : List Mark :=
  reservedMarks Tag.messageReservedRange Tag.messageReservedName 0 0 res ++
    under [Tag.messageExtensionRange] (extensionsMarks 0 exts) ++ under [Tag.messageOptions] (optsMarks 0 opts)

mutual
def bodyMarks (s : Syntax') : MessageBody → List Mark
  | ⟨items, exts, opts, res⟩ => itemsMarks s {} items ++ bodyTailMarks exts opts res
def itemsMarks (s : Syntax') : Cnt → List MessageItem → List Mark
  | _, [] => []
  | c, x :: xs => itemMarks s c x ++ itemsMarks s (c.next x) xs
def itemMarks (s : Syntax') (c : Cnt) : MessageItem → List Mark
  | .field f => fieldMarks s .message Tag.messageField Tag.messageNestedType c.field c.nested f
  | .enum e => under [Tag.messageEnumType, (c.enum : Int)] (enumMarks e)
  | .message x => under [Tag.messageNestedType, (c.nested : Int)] (messageMarks s x)
  | .extend e => extendMarks s Tag.messageExtension Tag.messageNestedType c.ext c.nested e
  | .oneof o => oneofAllMarks s c o
def oneofAllMarks (s : Syntax') (c : Cnt) : Oneof → List Mark
  | ⟨name, options, fields, comments, span⟩ =>
    under [Tag.messageOneofDecl, (c.oneof : Int)] (oneofMarks ⟨name, options, fields, comments, span⟩) ++
      oneofFieldsMarks s c.field c.nested fields
def extendMarks (s : Syntax') (et mt : Int) (i k : Nat) : Extend → List Mark
  | ⟨t, fields, comments, span⟩ => ⟨[et], span, comments⟩ :: extFieldsMarks s t et mt i k fields
def oneofFieldsMarks (s : Syntax') : Nat → Nat → List Field → List Mark
  | _, _, [] => []
  | i, k, f :: fs => fieldMarks s .oneof Tag.messageField Tag.messageNestedType i k f ++
      oneofFieldsMarks s (i + 1) (k + nestedCount f) fs
def extFieldsMarks (s : Syntax') (t : TypeName) (et mt : Int) : Nat → Nat → List Field → List Mark
  | _, _, [] => []
  | i, k, f :: fs => ⟨[et, (i : Int), Tag.fieldExtendee], tspan t, {}⟩ :: fieldMarks s .extend et mt i k f ++
      extFieldsMarks s t et mt (i + 1) (k + nestedCount f) fs
def fieldMarks (s : Syntax') (scope : FieldScope) (ft mt : Int) (i k : Nat) : Field → List Mark
  | ⟨label, name, kind, number, options, comments, span⟩ =>
    under [ft, (i : Int)] (headMarks name number) ++
      kindMarks s scope ft mt i k label name span comments (dfltOf options) kind ++
      under [ft, (i : Int)] (tailMarks options)
def kindMarks (s : Syntax') (scope : FieldScope) (ft mt : Int) (i k : Nat) (label : Option (FieldLabel × Span))
    (name : Ident) (span : Span) (comments : Comments) (dflt : Option OptionBody) : FieldKind → List Mark
  | .normal (.named t) _ => under [ft, (i : Int)] (namedMarks s scope label span comments t dflt)
  | .normal _ tySpan => under [ft, (i : Int)] (scalarMarks s scope label span comments tySpan dflt)
  | .group tySpan body => under [ft, (i : Int)] (groupFieldMarks s scope label span tySpan name) ++
      under [mt, (k : Int)] (groupMsgMarks span comments name ++ bodyMarks s body)
  | .map tySpan _ _ _ _ => under [ft, (i : Int)] (mapMarks span comments tySpan)
def messageMarks (s : Syntax') : Message → List Mark
  | ⟨name, body, comments, span⟩ => ⟨[], span, comments⟩ :: ⟨[Tag.messageName], name.span, {}⟩ :: bodyMarks s body
end

/-! ### Sizes -/

/-- An upper bound on how many elements of any kind an item adds to its message. -/
def itemW : MessageItem → Nat
  | .extend e => e.fields.length
  | .oneof o => 1 + o.fields.length
  | _ => 1

def itemsW : List MessageItem → Nat
  | [] => 0
  | x :: xs => itemW x + itemsW xs

mutual
def bodySmall (n : Nat) : MessageBody → Prop
  | ⟨items, exts, opts, res⟩ => itemsW items ≤ n ∧ itemsSmall n items ∧ (∀ e ∈ exts, optListSmall n e.options) ∧
      (allExtRanges exts).length ≤ n ∧ opts.length ≤ n ∧ (allRanges res).length ≤ n ∧ (allNames res).length ≤ n
def itemsSmall (n : Nat) : List MessageItem → Prop
  | [] => True
  | x :: xs => itemSmall n x ∧ itemsSmall n xs
def itemSmall (n : Nat) : MessageItem → Prop
  | .field f => fieldSmall n f
  | .enum e => enumSmall n e
  | .message x => messageSmall n x
  | .extend e => extendSmall n e
  | .oneof o => oneofSmall n o
def extendSmall (n : Nat) : Extend → Prop
  | ⟨_, fields, _, _⟩ => fieldsSmall n fields
def oneofSmall (n : Nat) : Oneof → Prop
  | ⟨_, options, fields, _, _⟩ => options.length ≤ n ∧ fieldsSmall n fields
def fieldsSmall (n : Nat) : List Field → Prop
  | [] => True
  | f :: fs => fieldSmall n f ∧ fieldsSmall n fs
def fieldSmall (n : Nat) : Field → Prop
  | ⟨_, _, kind, _, options, _, _⟩ => optListSmall n options ∧ kindSmall n kind
def kindSmall (n : Nat) : FieldKind → Prop
  | .group _ body => bodySmall n body
  | _ => True
def messageSmall (n : Nat) : Message → Prop
  | ⟨_, body, _, _⟩ => bodySmall n body
end

theorem kindNested_length [FloatFmt] (s name) (f : Field) : (kindNested s name f.kind).length = nestedCount f := by
  unfold nestedCount; cases f.kind <;> simp [kindNested]

theorem fieldNested_length [FloatFmt] (s) (f : Field) : (fieldNested s f).length = nestedCount f := by
  rcases f with ⟨_, name, kind, _, _, _, _⟩
  simp only [fieldNested]; exact kindNested_length s name.value ⟨_, name, kind, _, _, _, _⟩

theorem nestedCount_le (f : Field) : nestedCount f ≤ 1 := by
  unfold nestedCount; split <;> simp

theorem countOneofs_le : ∀ xs : List MessageItem, countOneofs xs ≤ itemsW xs
  | [] => Nat.le_refl _
  | x :: xs => by
    have := countOneofs_le xs
    cases x <;> simp only [countOneofs, itemsW, itemW] <;> omega

section
variable [FloatFmt] {src : Bytes} {env : Env}

theorem genBodyTail_runs (he : EnvOk src env) (p) {exts : List Extensions} {opts : List Opt} {res : List Reserved}
    (acc : BodyAcc) (h1 : ∀ e ∈ exts, e.In 0 src.length) (h2 : ∀ o ∈ opts, o.In 0 src.length)
    (h3 : ∀ r ∈ res, r.In 0 src.length) (s1 : ∀ e ∈ exts, optListSmall 2147483647 e.options)
    (s2 : (allExtRanges exts).length ≤ 2147483647) (s3 : opts.length ≤ 2147483647)
    (s4 : (allRanges res).length ≤ 2147483647) (s5 : (allNames res).length ≤ 2147483647) :
    Runs src env (genBodyTail exts opts res acc) p
      { name := none
        field := acc.field
        extension := acc.extension
        nestedType := acc.nestedType
        enumType := acc.enumType
        extensionRange := (allExtRanges exts).map fun x => extRangeDesc (isMessageSet opts) x.1 x.2
        oneofDecl := acc.oneofDecl
        options := (nonEmpty (optsDesc opts)).map fun us => { uninterpretedOption := us }
        reservedRange := (allRanges res).map (rangeDesc (isMessageSet opts))
        reservedName := (allNames res).map (·.value) }
      ((allRanges res).flatMap rangeErrs ++ ((allExtRanges exts).flatMap fun x => extRangeErrs x.1 x.2) ++ optsErrs opts)
      (under p (bodyTailMarks exts opts res)) p := by
  refine Runs.conv (Runs.bind (genReserved_runs he _ p res [] [] h3 (by simpa using s4) (by simpa using s5)) <|
    Runs.bind (Runs.extend _ _) <| Runs.bind (genExtensions_runs he _ _ exts [] h1 s1 (by simpa using s2)) <|
    Runs.bind (Runs.pop _ _) <| Runs.bind (Runs.extend _ _) <| Runs.bind (genOptions_runs he _ h2 s3) <|
    Runs.bind (Runs.pop _ _) <| Runs.pure _ _) ?_ ?_ ?_ rfl
  · rfl
  · simp
  · simp [bodyTailMarks]

theorem genOneofHead_runs (he : EnvOk src env) (p) {o : Oneof} {r : Nat} (h1 : SpIn 0 src.length o.name.span)
    (h2 : ∀ x ∈ o.options, x.In 0 src.length) (h3 : SpIn 0 src.length o.span) (hr : r ≤ 2147483647)
    (hs : o.options.length ≤ 2147483647) :
    Runs src env (genOneofHead o r) p (oneofDesc o) (optsErrs o.options)
      (under p (under [Tag.messageOneofDecl, (r : Int)] (oneofMarks o))) p := by
  refine Runs.conv (Runs.bind (Runs.index hr _) <| Runs.bind (Runs.extend _ _) <|
    Runs.bind (Runs.addComments he h3 _ _) <| Runs.bind (Runs.addSpanFor he _ h1 _) <| Runs.bind (Runs.extend _ _) <|
    Runs.bind (genOptions_runs he _ h2 hs) <| Runs.bind (Runs.pop _ _) <| Runs.bind (Runs.popPath _ _ rfl) <|
    Runs.pure _ _) ?_ ?_ ?_ rfl
  · rfl
  · simp
  · simp [oneofMarks]

theorem genOneofCheck_runs (p) {o : Oneof} (h : SpIn 0 src.length o.span) :
    Runs src env (genOneofCheck o) p () (if o.fields.isEmpty then [.emptyOneof o.span] else []) [] p := by
  unfold genOneofCheck
  cases o.fields.isEmpty
  · exact Runs.pure _ _
  · exact Runs.err _ _ (by exact one h)

theorem genExtendHead_runs (he : EnvOk src env) (p tag cm) {span : Span} (h : SpIn 0 src.length span) :
    Runs src env (genExtendHead tag span cm) p () [] (under p [⟨[tag], span, cm⟩]) p := by
  exact Runs.conv (Runs.bind (Runs.extend _ _) <| Runs.bind (Runs.addComments he h _ _) <| Runs.pop _ _) rfl rfl rfl rfl

theorem genExtendee_runs (he : EnvOk src env) (p) {t : TypeName} {tag : Int} {n : Nat} (h : t.In 0 src.length)
    (hn : n ≤ 2147483647) :
    Runs src env (genExtendee t tag n) p () [] (under p [⟨[tag, (n : Int), Tag.fieldExtendee], tspan t, {}⟩]) p := by
  have := typeName_span' h
  refine Runs.conv (Runs.bind (Runs.index hn _) <| Runs.bind (Runs.extend _ _) <| Runs.bind (Runs.unwrap this.1 _) <|
    Runs.bind (Runs.addSpanFor he _ this.2 _) <| Runs.popPath _ _ rfl) rfl rfl ?_ rfl
  simp

/-- The accumulated vectors after the items. -/
def accAfter (s : Syntax') (acc : BodyAcc) (done S : List OneofDescriptorProto) (xs : List MessageItem) : BodyAcc :=
  ⟨acc.field ++ itemsFields s done.length (done.length + countOneofs xs + S.length) xs, acc.extension ++ itemsExts s xs,
    acc.nestedType ++ itemsNested s xs, acc.enumType ++ itemsEnums xs,
    done ++ itemsOneofs xs ++ (S ++ itemsSynth s xs), done.length + countOneofs xs⟩

/-- What holds of the accumulated vectors before the items. -/
structure AccOk (acc : BodyAcc) (done S : List OneofDescriptorProto) (c : Cnt) (xs : List MessageItem) : Prop where
  decl : acc.oneofDecl = done ++ List.replicate (countOneofs xs) (⟨none, none⟩ : OneofDescriptorProto) ++ S
  idx : acc.realOneofIndex = done.length
  c1 : c.field = acc.field.length
  c2 : c.ext = acc.extension.length
  c3 : c.nested = acc.nestedType.length
  c4 : c.enum = acc.enumType.length
  c5 : c.oneof = done.length
  l1 : acc.field.length + itemsW xs ≤ 2147483647
  l2 : acc.extension.length + itemsW xs ≤ 2147483647
  l3 : acc.nestedType.length + itemsW xs ≤ 2147483647
  l4 : acc.enumType.length + itemsW xs ≤ 2147483647
  l5 : done.length + S.length + itemsW xs ≤ 2147483647

theorem set_mid {α} (a b : List α) (x y : α) : (a ++ x :: b).set a.length y = a ++ y :: b := by
  simp

theorem accAfter_cons_enum (s acc done S e xs) :
    accAfter s { acc with enumType := acc.enumType ++ [enumDesc e] } done S xs = accAfter s acc done S (.enum e :: xs) := by
  simp [accAfter, itemsFields, itemsExts, itemsNested, itemNested, itemsEnums, itemsOneofs, itemsSynth, countOneofs]

theorem accAfter_cons_message (s acc done S x xs) :
    accAfter s { acc with nestedType := acc.nestedType ++ [messageDesc s x] } done S xs =
      accAfter s acc done S (.message x :: xs) := by
  simp [accAfter, itemsFields, itemsExts, itemsNested, itemNested, itemsEnums, itemsOneofs, itemsSynth, countOneofs]

theorem accAfter_cons_extend (s acc done S e xs) :
    accAfter s { acc with extension := acc.extension ++ e.fields.map (extFieldDesc s e.extendee),
                          nestedType := acc.nestedType ++ fieldsNested s e.fields } done S xs =
      accAfter s acc done S (.extend e :: xs) := by
  rcases e with ⟨t, fs, c, sp⟩
  simp [accAfter, itemsFields, itemsExts, itemsNested, itemNested, itemsEnums, itemsOneofs, itemsSynth, countOneofs,
    extendNested]

theorem accAfter_cons_oneof (s acc) (done S : List OneofDescriptorProto) (o xs) (l : List OneofDescriptorProto) (i : Nat) :
    accAfter s { acc with field := acc.field ++ o.fields.map (fieldDesc s .oneof (some (done.length : Int))),
                          nestedType := acc.nestedType ++ fieldsNested s o.fields, oneofDecl := l,
                          realOneofIndex := i } (done ++ [oneofDesc o]) S xs =
      accAfter s acc done S (.oneof o :: xs) := by
  rcases o with ⟨t, os, fs, c, sp⟩
  simp [accAfter, itemsFields, itemsExts, itemsNested, itemNested, itemsEnums, itemsOneofs, itemsSynth, countOneofs,
    oneofNested, Nat.add_assoc, Nat.add_comm, Nat.add_left_comm]

theorem accAfter_cons_field (s acc) (done S : List OneofDescriptorProto) (f xs) (l : List OneofDescriptorProto) (oi : Option Int)
    (hoi : oi = if isP3 s f.label then some ((done.length + countOneofs xs + S.length : Nat) : Int) else none) :
    accAfter s { acc with field := acc.field ++ [fieldDesc s .message oi f],
                          nestedType := acc.nestedType ++ fieldNested s f, oneofDecl := l } done
        (S ++ if isP3 s f.label then [⟨some (synthName f.name.value), none⟩] else []) xs =
      accAfter s acc done S (.field f :: xs) := by
  subst hoi
  cases h : isP3 s f.label <;>
  simp [accAfter, itemsFields, itemsExts, itemsNested, itemNested, itemsEnums, itemsOneofs, itemsSynth, countOneofs, h,
    Nat.add_assoc]

theorem fieldsNested_length (s) : ∀ fs : List Field, (fieldsNested s fs).length = nestedCounts fs
  | [] => rfl
  | f :: fs => by simp [fieldsNested, nestedCounts, fieldsNested_length s fs, fieldNested_length]

theorem nestedCounts_le : ∀ fs : List Field, nestedCounts fs ≤ fs.length
  | [] => Nat.le_refl _
  | f :: fs => by
    have := nestedCounts_le fs; have := nestedCount_le f
    simp only [nestedCounts, List.length_cons]; omega

mutual
theorem genBody_runs (he : EnvOk src env) : ∀ (b : MessageBody) (p : List Int), b.In 0 src.length →
    bodySmall 2147483647 b →
    Runs src env (genBody b) p (bodyDesc env.syn b) (bodyErrs env.syn b) (under p (bodyMarks env.syn b)) p
  | ⟨items, exts, opts, res⟩, p, h, hs => by
    simp only [MessageBody.In] at h
    simp only [bodySmall] at hs
    obtain ⟨h1, h2, h3, h4⟩ := h
    obtain ⟨s1, s2, s3, s4, s5, s6, s7⟩ := hs
    unfold genBody
    refine Runs.conv (Runs.bind (genItems_runs he items _ p [] [] {} h1 s2 ?_) <|
      genBodyTail_runs he p _ h2 h3 h4 s3 s4 s5 s6 s7) ?_ ?_ ?_ rfl
    · exact ⟨by simp, rfl, rfl, rfl, rfl, rfl, rfl, by simpa using s1, by simpa using s1, by simpa using s1,
        by simpa using s1, by simpa using s1⟩
    · simp [bodyDesc, accAfter]
    · simp [bodyErrs]
    · simp [bodyMarks]
theorem genItems_runs (he : EnvOk src env) : ∀ (xs : List MessageItem) (acc : BodyAcc) (p : List Int)
    (done S : List OneofDescriptorProto) (c : Cnt), itemsIn 0 src.length xs → itemsSmall 2147483647 xs →
    AccOk acc done S c xs →
    Runs src env (genItems xs acc) p (accAfter env.syn acc done S xs) (itemsErrs env.syn xs)
      (under p (itemsMarks env.syn c xs)) p
  | [], acc, p, done, S, c, _, _, ha => by
    unfold genItems
    refine Runs.conv (Runs.pure _ _) ?_ (by simp [itemsErrs]) (by simp [itemsMarks]) rfl
    rcases acc with ⟨_, _, _, _, d, r⟩
    have h1 := ha.decl; have h2 := ha.idx
    simp only [countOneofs, List.replicate_zero, List.append_nil] at h1 h2
    subst h1 h2
    simp [accAfter, itemsFields, itemsExts, itemsNested, itemsEnums, itemsOneofs, itemsSynth, countOneofs]
  | x :: xs, acc, p, done, S, c, h, hs, ha => by
    simp only [itemsIn] at h
    simp only [itemsSmall] at hs
    unfold genItems
    obtain ⟨acc', done', S', r1, r2, r3⟩ := genItem_runs he x xs acc p done S c h.1 hs.1 ha
    refine Runs.conv (Runs.bind r1 <| genItems_runs he xs acc' p done' S' _ h.2 hs.2 r2) r3 ?_ ?_ rfl
    · simp [itemsErrs]
    · simp [itemsMarks]
theorem genItem_runs (he : EnvOk src env) : ∀ (x : MessageItem) (xs : List MessageItem) (acc : BodyAcc) (p : List Int)
    (done S : List OneofDescriptorProto) (c : Cnt), x.In 0 src.length → itemSmall 2147483647 x →
    AccOk acc done S c (x :: xs) → ∃ acc' done' S',
    Runs src env (genItem x acc) p acc' (itemErrs env.syn x) (under p (itemMarks env.syn c x)) p ∧
      AccOk acc' done' S' (c.next x) xs ∧ accAfter env.syn acc' done' S' xs = accAfter env.syn acc done S (x :: xs)
  | .field f, xs, acc, p, done, S, c, h, hs, ha => by
    simp only [MessageItem.In] at h
    simp only [itemSmall] at hs
    obtain ⟨d1, d2, c1, c2, c3, c4, c5, l1, l2, l3, l4, l5⟩ := ha
    have hc := countOneofs_le xs
    simp only [itemsW, itemW, countOneofs] at d1 l1 l2 l3 l4 l5
    have hr := genField_runs he f acc.field.length p Tag.messageField Tag.messageNestedType acc.nestedType
      (some Tag.messageOneofDecl) acc.oneofDecl .message h hs rfl (by omega) (by omega)
      (by rw [d1]; simp only [List.length_append, List.length_replicate]; omega)
    refine ⟨_, done, S ++ if isP3 env.syn f.label then [⟨some (synthName f.name.value), none⟩] else [], ?_, ?_,
      accAfter_cons_field _ _ _ _ _ _ (acc.oneofDecl ++ if isP3 env.syn f.label && (some Tag.messageOneofDecl).isSome then
        [⟨some (synthName f.name.value), none⟩] else [])
        (if isP3 env.syn f.label && (some Tag.messageOneofDecl).isSome then some (acc.oneofDecl.length : Int) else none) ?_⟩
    · unfold genItem
      refine Runs.conv (Runs.bind hr <| Runs.pure _ _) rfl ?_ ?_ rfl
      · simp [itemErrs]
      · simp [itemMarks, c1, c3]
    · have := nestedCount_le f
      refine ⟨?_, d2, ?_, c2, ?_, c4, c5, ?_, (show acc.extension.length + _ ≤ _ by omega), ?_, (show acc.enumType.length + _ ≤ _ by omega), ?_⟩
      · simp [d1]
      · simp [Cnt.next, c1]
      · simp [Cnt.next, c3, fieldNested_length]
      · simp only [List.length_append, List.length_singleton]; omega
      · simp only [List.length_append, fieldNested_length]; omega
      · simp only [List.length_append]; split <;> simp <;> omega
    · simp only [Option.isSome_some, Bool.and_true, d1, List.length_append, List.length_replicate]
  | .enum e, xs, acc, p, done, S, c, h, hs, ha => by
    simp only [MessageItem.In] at h
    simp only [itemSmall] at hs
    obtain ⟨d1, d2, c1, c2, c3, c4, c5, l1, l2, l3, l4, l5⟩ := ha
    simp only [itemsW, itemW, countOneofs] at d1 l1 l2 l3 l4 l5
    refine ⟨_, done, S, ?_, ?_, accAfter_cons_enum _ _ _ _ _ _⟩
    · unfold genItem
      refine Runs.conv (Runs.bind (Runs.index (by omega) _) <| Runs.bind (Runs.extend _ _) <|
        Runs.bind (genEnum_runs he _ h hs) <| Runs.bind (Runs.popPath _ _ rfl) <| Runs.pure _ _) rfl ?_ ?_ rfl
      · simp [itemErrs]
      · simp [itemMarks, c4]
    · refine ⟨d1, d2, c1, c2, c3, ?_, c5, ?_, ?_, ?_, ?_, ?_⟩ <;> (try simp only [Cnt.next, c4, List.length_append, List.length_map, List.length_singleton]) <;> omega
  | .message x, xs, acc, p, done, S, c, h, hs, ha => by
    simp only [MessageItem.In] at h
    simp only [itemSmall] at hs
    obtain ⟨d1, d2, c1, c2, c3, c4, c5, l1, l2, l3, l4, l5⟩ := ha
    simp only [itemsW, itemW, countOneofs] at d1 l1 l2 l3 l4 l5
    refine ⟨_, done, S, ?_, ?_, accAfter_cons_message _ _ _ _ _ _⟩
    · unfold genItem
      refine Runs.conv (Runs.bind (Runs.index (by omega) _) <| Runs.bind (Runs.extend _ _) <|
        Runs.bind (genMessage_runs he x _ h hs) <| Runs.bind (Runs.popPath _ _ rfl) <| Runs.pure _ _) rfl ?_ ?_ rfl
      · simp [itemErrs]
      · simp [itemMarks, c3]
    · refine ⟨d1, d2, c1, c2, ?_, c4, c5, ?_, ?_, ?_, ?_, ?_⟩ <;> (try simp only [Cnt.next, c3, List.length_append, List.length_map, List.length_singleton]) <;> omega
  | .extend ⟨t, fields, comments, span⟩, xs, acc, p, done, S, c, h, hs, ha => by
    simp only [MessageItem.In, Extend.In] at h
    simp only [itemSmall, extendSmall] at hs
    obtain ⟨d1, d2, c1, c2, c3, c4, c5, l1, l2, l3, l4, l5⟩ := ha
    simp only [itemsW, itemW, countOneofs] at d1 l1 l2 l3 l4 l5
    have := nestedCounts_le fields
    refine ⟨_, done, S, ?_, ?_, accAfter_cons_extend _ _ _ _ ⟨t, fields, comments, span⟩ _⟩
    · unfold genItem
      refine Runs.conv (Runs.bind (genExtendHead_runs he _ _ _ h.2.2) <|
        Runs.bind (genExtendFields_runs he fields t _ _ acc.extension acc.nestedType p h.1 h.2.1 hs (by omega) (by omega)) <|
        Runs.pure _ _) rfl ?_ ?_ rfl
      · simp [itemErrs, extendErrs]
      · simp [itemMarks, extendMarks, c2, c3]
    · refine ⟨d1, d2, c1, ?_, ?_, c4, c5, ?_, ?_, ?_, ?_, ?_⟩ <;> (try simp only [Cnt.next, c2, c3, fieldsNested_length, List.length_append, List.length_map, List.length_singleton]) <;> omega
  | .oneof ⟨name, options, fields, comments, span⟩, xs, acc, p, done, S, c, h, hs, ha => by
    simp only [MessageItem.In, Oneof.In] at h
    simp only [itemSmall, oneofSmall] at hs
    obtain ⟨d1, d2, c1, c2, c3, c4, c5, l1, l2, l3, l4, l5⟩ := ha
    simp only [itemsW, itemW, countOneofs] at d1 l1 l2 l3 l4 l5
    have := nestedCounts_le fields
    have hset : (if acc.realOneofIndex < acc.oneofDecl.length then
        some (acc.oneofDecl.set acc.realOneofIndex (oneofDesc ⟨name, options, fields, comments, span⟩)) else none) =
        some ((done ++ [oneofDesc ⟨name, options, fields, comments, span⟩]) ++
          List.replicate (countOneofs xs) (⟨none, none⟩ : OneofDescriptorProto) ++ S) := by
      rw [d1, d2, if_pos (by simp; omega)]
      simp [List.replicate_succ]
    refine ⟨_, done ++ [oneofDesc ⟨name, options, fields, comments, span⟩], S, ?_, ?_,
      accAfter_cons_oneof _ _ _ _ ⟨name, options, fields, comments, span⟩ _
        ((done ++ [oneofDesc ⟨name, options, fields, comments, span⟩]) ++
          List.replicate (countOneofs xs) (⟨none, none⟩ : OneofDescriptorProto) ++ S) (done.length + 1)⟩
    · unfold genItem
      refine Runs.conv (Runs.bind (genOneofHead_runs he p (o := ⟨name, options, fields, comments, span⟩) h.1 h.2.1 h.2.2.2
        (by omega) hs.1) <| Runs.bind (genOneofCheck_runs _ h.2.2.2) <|
        Runs.bind (genOneofFields_runs he fields acc.realOneofIndex acc.field acc.nestedType p h.2.2.1 hs.2 (by omega)
          (by omega) (by omega)) <| Runs.bind (Runs.unwrap hset _) <| Runs.pure _ _) ?_ ?_ ?_ rfl
      · simp [d2]
      · simp [itemErrs, oneofErrs]
      · simp [itemMarks, oneofAllMarks, c1, c3, c5, d2]
    · refine ⟨rfl, ?_, ?_, c2, ?_, c4, ?_, ?_, ?_, ?_, ?_, ?_⟩ <;> (try simp only [Cnt.next, c1, c3, c5, fieldsNested_length, List.length_append, List.length_map, List.length_singleton]) <;> omega
theorem genOneofFields_runs (he : EnvOk src env) : ∀ (fields : List Field) (r : Nat) (fs : List FieldDescriptorProto)
    (ms : List DescriptorProto) (p : List Int), fieldsIn 0 src.length fields → fieldsSmall 2147483647 fields →
    r ≤ 2147483647 → fs.length + fields.length ≤ 2147483647 → ms.length + fields.length ≤ 2147483647 →
    Runs src env (genOneofFields r fields fs ms) p
      (fs ++ fields.map (fieldDesc env.syn .oneof (some (r : Int))), ms ++ fieldsNested env.syn fields)
      (fieldsErrs env.syn .oneof fields) (under p (oneofFieldsMarks env.syn fs.length ms.length fields)) p
  | [], r, fs, ms, p, _, _, _, _, _ => by
    unfold genOneofFields
    exact Runs.conv (Runs.pure _ _) (by simp [fieldsNested]) (by simp [fieldsErrs]) (by simp [oneofFieldsMarks]) rfl
  | f :: rest, r, fs, ms, p, h, hs, hr, h1, h2 => by
    simp only [fieldsIn] at h
    simp only [fieldsSmall] at hs
    simp only [List.length_cons] at h1 h2
    have := nestedCount_le f
    unfold genOneofFields
    refine Runs.conv (Runs.bind (Runs.index hr _) <|
      Runs.bind (genField_runs he f fs.length p _ _ ms none [] .oneof h.1 hs.1 rfl (by omega) (by omega) (by simp)) <|
      genOneofFields_runs he rest r _ _ p h.2 hs.2 hr (by simp only [List.length_append, List.length_singleton]; omega)
        (by simp only [List.length_append, fieldNested_length]; omega)) ?_ ?_ ?_ rfl
    · simp [fieldsNested, fieldDesc, mkField]
    · simp [fieldsErrs]
    · simp [oneofFieldsMarks, fieldNested_length]
theorem genExtendFields_runs (he : EnvOk src env) : ∀ (fields : List Field) (t : TypeName) (et mt : Int)
    (fs : List FieldDescriptorProto) (ms : List DescriptorProto) (p : List Int), t.In 0 src.length →
    fieldsIn 0 src.length fields → fieldsSmall 2147483647 fields →
    fs.length + fields.length ≤ 2147483647 → ms.length + fields.length ≤ 2147483647 →
    Runs src env (genExtendFields t et mt fields fs ms) p
      (fs ++ fields.map (extFieldDesc env.syn t), ms ++ fieldsNested env.syn fields)
      (fieldsErrs env.syn .extend fields) (under p (extFieldsMarks env.syn t et mt fs.length ms.length fields)) p
  | [], t, et, mt, fs, ms, p, _, _, _, _, _ => by
    unfold genExtendFields
    exact Runs.conv (Runs.pure _ _) (by simp [fieldsNested]) (by simp [fieldsErrs]) (by simp [extFieldsMarks]) rfl
  | f :: rest, t, et, mt, fs, ms, p, ht, h, hs, h1, h2 => by
    simp only [fieldsIn] at h
    simp only [fieldsSmall] at hs
    simp only [List.length_cons] at h1 h2
    have := nestedCount_le f
    unfold genExtendFields
    refine Runs.conv (Runs.bind (genExtendee_runs he _ ht (by omega)) <| Runs.bind (Runs.unwrap (typeName_display ht) _) <|
      Runs.bind (genField_runs he f fs.length p _ _ ms none [] .extend h.1 hs.1 rfl (by omega) (by omega) (by simp)) <|
      genExtendFields_runs he rest t et mt _ _ p ht h.2 hs.2 (by simp only [List.length_append, List.length_singleton]; omega)
        (by simp only [List.length_append, fieldNested_length]; omega)) ?_ ?_ ?_ rfl
    · simp [fieldsNested, extFieldDesc]
    · simp [fieldsErrs]
    · simp [extFieldsMarks, fieldNested_length]
theorem genMessage_runs (he : EnvOk src env) : ∀ (m : Message) (p : List Int), m.In 0 src.length →
    messageSmall 2147483647 m →
    Runs src env (genMessage m) p (messageDesc env.syn m) (messageErrs env.syn m) (under p (messageMarks env.syn m)) p
  | ⟨name, body, comments, span⟩, p, h, hs => by
    simp only [Message.In] at h
    simp only [messageSmall] at hs
    unfold genMessage
    refine Runs.conv (Runs.bind (Runs.addComments he h.2.2 _ _) <| Runs.bind (Runs.addSpanFor he _ h.1 _) <|
      Runs.bind (genBody_runs he body _ h.2.1 hs) <| Runs.pure _ _) ?_ ?_ ?_ rfl
    · simp [messageDesc]
    · simp [messageErrs]
    · simp [messageMarks]
theorem genField_runs (he : EnvOk src env) : ∀ (f : Field) (i : Nat) (p : List Int) (ft mt : Int)
    (ms : List DescriptorProto) (otag : Option Int) (oneofs : List OneofDescriptorProto) (scope : FieldScope),
    f.In 0 src.length → fieldSmall 2147483647 f → otag.isSome = (scope == .message) → i ≤ 2147483647 →
    ms.length ≤ 2147483647 → oneofs.length ≤ 2147483647 →
    Runs src env (genField f i ft mt ms otag oneofs scope) p
      (fieldDesc env.syn scope (if isP3 env.syn f.label && otag.isSome then some (oneofs.length : Int) else none) f,
        ms ++ fieldNested env.syn f,
        oneofs ++ if isP3 env.syn f.label && otag.isSome then [⟨some (synthName f.name.value), none⟩] else [])
      (fieldErrs env.syn scope f) (under p (fieldMarks env.syn scope ft mt i ms.length f)) p
  | ⟨label, name, kind, number, options, comments, span⟩, i, p, ft, mt, ms, otag, oneofs, scope, h, hs, ho, hi, hm, hl => by
    simp only [Field.In] at h
    simp only [fieldSmall] at hs
    obtain ⟨h1, h2, h3, h4, h5, h6⟩ := h
    unfold genField
    refine Runs.conv (Runs.bind (genFieldHead_runs he p h2 h4 hi) <|
      Runs.bind (genProto3Optional_runs _ _ _ _ hl) <|
      Runs.bind (genDefaultCheck_runs _ _ _ fun o ho => pick_in h5 ho) <|
      Runs.bind (genKind_runs he kind name label span comments (dfltOf options) ft i mt ms scope p h1 h2 h3 h6
        (fun o ho => pick_in h5 ho) hs.2 hi hm) <|
      Runs.bind (genFieldTail_runs he p h5 hs.1) <| Runs.pure _ _) ?_ ?_ ?_ rfl
    · simp [fieldDesc, fieldNested, mkField]
    · simp only [fieldErrs, List.append_assoc, List.append_nil, List.nil_append]; rfl
    · simp only [fieldMarks, under_append, under_under, List.append_assoc, List.append_nil, List.nil_append]
theorem genKind_runs (he : EnvOk src env) : ∀ (kind : FieldKind) (name : Ident) (label : Option (FieldLabel × Span))
    (span : Span) (comments : Comments) (dflt : Option OptionBody) (ft : Int) (i : Nat) (mt : Int)
    (ms : List DescriptorProto) (scope : FieldScope) (p : List Int),
    labelIn 0 src.length label → name.In 0 src.length → kind.In 0 src.length → SpIn 0 src.length span →
    (∀ o, dflt = some o → o.In 0 src.length) → kindSmall 2147483647 kind → i ≤ 2147483647 → ms.length ≤ 2147483647 →
    Runs src env (genKind kind name label span comments dflt ft i mt ms scope) (p ++ [ft, (i : Int)])
      ⟨kindName kind name.value, kindLabel env.syn scope label kind, kindType kind, kindTypeName kind name.value,
        kindDefault kind dflt, ms ++ kindNested env.syn name.value kind⟩
      (kindErrs env.syn scope label span dflt kind)
      (under p (kindMarks env.syn scope ft mt i ms.length label name span comments dflt kind)) (p ++ [ft, (i : Int)])
  | .group tySpan body, name, label, span, comments, dflt, ft, i, mt, ms, scope, p, h1, h2, h3, h4, h5, hs, hi, hm => by
    simp only [FieldKind.In] at h3
    simp only [kindSmall] at hs
    unfold genKind
    refine Runs.conv (Runs.bind (genGroupHead_runs he p h1 h4 h2 h3.1 h5 hm) <| Runs.bind (genBody_runs he body _ h3.2 hs) <|
      Runs.bind (Runs.popPath _ _ rfl) <| Runs.bind (Runs.index hi _) <| Runs.bind (Runs.extend _ _) <| Runs.pure _ _) ?_ ?_ ?_ rfl
    · simp [kindName, kindLabel, kindType, kindTypeName, kindDefault, kindNested]
    · simp [kindErrs]
    · simp [kindMarks]
  | .map sp k ksp v vsp, name, label, span, comments, dflt, ft, i, mt, ms, scope, p, h1, h2, h3, h4, h5, hs, hi, hm => by
    simp only [FieldKind.In] at h3
    unfold genKind
    refine Runs.conv (genMapKind_runs he _ h1 h3.2.2.1 h4 h3.1 h3.2.2.2.1) ?_ ?_ ?_ rfl
    · simp [kindName, kindLabel, kindType, kindTypeName, kindDefault, kindNested]
    · simp [kindErrs]
    · simp [kindMarks]
  | .normal ty sp, name, label, span, comments, dflt, ft, i, mt, ms, scope, p, h1, h2, h3, h4, h5, hs, hi, hm => by
    simp only [FieldKind.In] at h3
    by_cases ht : ∃ t, ty = .named t
    · obtain ⟨t, rfl⟩ := ht
      unfold genKind
      refine Runs.conv (genNamedKind_runs he _ h1 h4 h3.1 h5) ?_ ?_ ?_ rfl
      · cases dflt <;> simp [kindName, kindLabel, kindType, kindTypeName, kindDefault, kindNested, Ty.protoTy]
      · cases dflt <;> simp [kindErrs, scalarDfltErrs, scalarErrs]
      · simp [kindMarks]
    · have hty : ∀ t, ty ≠ .named t := fun t h => ht ⟨t, h⟩
      have e1 : genKind (.normal ty sp) name label span comments dflt ft i mt ms scope =
          genScalarKind name label span comments ty sp dflt scope ms := by
        cases ty <;> first | exact absurd rfl (hty _) | (unfold genKind; rfl)
      rw [e1]
      refine Runs.conv (genScalarKind_runs he _ h1 h4 hty h3.2 h5) ?_ ?_ ?_ rfl
      · cases ty <;> first | exact absurd rfl (hty _) |
          (cases dflt <;> simp [kindName, kindLabel, kindType, kindTypeName, kindDefault, kindNested])
      · simp [kindErrs]
      · cases ty <;> first | exact absurd rfl (hty _) | simp [kindMarks]
end

end
end Verif.Gen
