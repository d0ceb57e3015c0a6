import Verif.Proofs.Gen4
import Verif.Proofs.Snd7
/-!
Running the generator: files.
-/
namespace Verif.Gen
open Verif.Ast Verif.Spec

/-- Indices of the imports of a kind; `k` is the index of the first one. -/
def importIdx (kind : ImportKind) : Nat → List Import → List Int
  | _, [] => []
  | k, x :: xs => if x.kind.map (·.1) = some kind then (k : Int) :: importIdx kind (k + 1) xs else importIdx kind (k + 1) xs

def importMarks : Nat → Nat → Nat → List Import → List Mark
  | _, _, _, [] => []
  | i, j, k, x :: xs => ⟨[Tag.fileDependency, (i : Int)], x.span, x.comments⟩ :: match x.kind with
    | some (.publ, sp) => ⟨[Tag.filePublicDependency, (j : Int)], sp, {}⟩ :: importMarks (i + 1) (j + 1) k xs
    | some (.weak, sp) => ⟨[Tag.fileWeakDependency, (k : Int)], sp, {}⟩ :: importMarks (i + 1) j (k + 1) xs
    | none => importMarks (i + 1) j k xs

def itemsMsgs [FloatFmt] (s : Syntax') : List FileItem → List DescriptorProto
  | [] => []
  | .message x :: xs => messageDesc s x :: itemsMsgs s xs
  | .extend e :: xs => fieldsNested s e.fields ++ itemsMsgs s xs
  | _ :: xs => itemsMsgs s xs

def fileEnums : List FileItem → List EnumDescriptorProto
  | [] => []
  | .enum e :: xs => enumDesc e :: fileEnums xs
  | _ :: xs => fileEnums xs

def fileServices : List FileItem → List ServiceDescriptorProto
  | [] => []
  | .service e :: xs => serviceDesc e :: fileServices xs
  | _ :: xs => fileServices xs

def fileExts [FloatFmt] (s : Syntax') : List FileItem → List FieldDescriptorProto
  | [] => []
  | .extend e :: xs => e.fields.map (extFieldDesc s e.extendee) ++ fileExts s xs
  | _ :: xs => fileExts s xs

/-- The descriptor of a file, without source locations. -/
def fileDesc [FloatFmt] (name : Bytes) (f : File) : FileDescriptorProto := {
  name := some name
  package := f.package.map fun p => p.name.display.getD []
  dependency := f.imports.map (·.value)
  publicDependency := importIdx .publ 0 f.imports
  weakDependency := importIdx .weak 0 f.imports
  messageType := itemsMsgs f.syntax' f.items
  enumType := fileEnums f.items
  service := fileServices f.items
  extension := fileExts f.syntax' f.items
  options := nonEmpty (optsDesc f.options)
  sourceCodeInfo := none
  syntax' := if f.syntax' = .proto2 then none else some f.syntax'.display }

def fileItemErrs (s : Syntax') : FileItem → List ParseErrorKind
  | .message x => messageErrs s x
  | .enum e => enumErrs e
  | .service x => serviceErrs x
  | .extend e => extendErrs s e

def fileErrs (f : File) : List ParseErrorKind := f.items.flatMap (fileItemErrs f.syntax') ++ optsErrs f.options

structure FCnt where
  msg : Nat := 0
  enum : Nat := 0
  service : Nat := 0
  ext : Nat := 0

def FCnt.next (c : FCnt) : FileItem → FCnt
  | .message _ => { c with msg := c.msg + 1 }
  | .enum _ => { c with enum := c.enum + 1 }
  | .service _ => { c with service := c.service + 1 }
  | .extend e => { c with ext := c.ext + e.fields.length, msg := c.msg + nestedCounts e.fields }

def fileItemMarks (s : Syntax') (c : FCnt) : FileItem → List Mark
  | .message x => under [Tag.fileMessageType, (c.msg : Int)] (messageMarks s x)
  | .enum e => under [Tag.fileEnumType, (c.enum : Int)] (enumMarks e)
  | .service x => under [Tag.fileService, (c.service : Int)] (serviceMarks x)
  | .extend e => extendMarks s Tag.fileExtension Tag.fileMessageType c.ext c.msg e

def fileItemsMarks (s : Syntax') : FCnt → List FileItem → List Mark
  | _, [] => []
  | c, x :: xs => fileItemMarks s c x ++ fileItemsMarks s (c.next x) xs

def packageMarks (p : Option Package) : List Mark :=
  match p with
  | none => []
  | some p => [⟨[Tag.filePackage], p.span, p.comments⟩]

def syntaxMarks (s : Option (Span × Comments)) : List Mark :=
  match s with
  | none => []
  | some (sp, cm) => [⟨[Tag.fileSyntax], sp, cm⟩]

/-- The source locations of a file, except that of the whole file, in the order in which they are recorded. -/
def restMarks (f : File) : List Mark :=
  packageMarks f.package ++ importMarks 0 0 0 f.imports ++ fileItemsMarks f.syntax' {} f.items ++
    under [Tag.fileOptions] (optsMarks 0 f.options) ++ syntaxMarks f.syntaxSpan

/-- The source locations of a file. -/
def fileMarks (f : File) : List Mark := ⟨[], f.span, {}⟩ :: restMarks f

def fileItemW : FileItem → Nat
  | .extend e => e.fields.length
  | _ => 1

def fileItemsW : List FileItem → Nat
  | [] => 0
  | x :: xs => fileItemW x + fileItemsW xs

def fileItemSmall (n : Nat) : FileItem → Prop
  | .message x => messageSmall n x
  | .enum e => enumSmall n e
  | .service x => serviceSmall n x
  | .extend e => extendSmall n e

def fileSmall (n : Nat) (f : File) : Prop :=
  f.imports.length ≤ n ∧ f.options.length ≤ n ∧ fileItemsW f.items ≤ n ∧ ∀ x ∈ f.items, fileItemSmall n x

section
variable [FloatFmt] {src : Bytes} {env : Env}

omit [FloatFmt] in
theorem genImports_runs (he : EnvOk src env) (p) : ∀ (xs : List Import) (acc : ImportAcc),
    (∀ x ∈ xs, x.In 0 src.length) → acc.dependency.length + xs.length ≤ 2147483647 →
    acc.publicDependency.length + xs.length ≤ 2147483647 → acc.weakDependency.length + xs.length ≤ 2147483647 →
    Runs src env (genImports xs acc) p
      ⟨acc.dependency ++ xs.map (·.value), acc.publicDependency ++ importIdx .publ acc.dependency.length xs,
        acc.weakDependency ++ importIdx .weak acc.dependency.length xs⟩ []
      (under p (importMarks acc.dependency.length acc.publicDependency.length acc.weakDependency.length xs)) p
  | [], acc, _, _, _, _ => (Runs.pure _ _).conv (by simp [importIdx]) rfl rfl rfl
  | x :: xs, acc, h, l1, l2, l3 => by
    have h0 := h x (.head _)
    simp only [List.length_cons] at l1 l2 l3
    have hx : ∀ y ∈ xs, y.In 0 src.length := fun y hy => h y (.tail _ hy)
    unfold genImports
    rcases hk : x.kind with _ | ⟨k, sp⟩
    · refine Runs.conv (Runs.bind (Runs.index (by omega) _) <| Runs.bind (Runs.addCommentsFor he _ h0.2.2 _ _) <|
        genImports_runs he p xs { acc with dependency := acc.dependency ++ [x.value] } hx
        (by simp only [List.length_append, List.length_singleton]; omega)
        (by simp only; omega) (by simp only; omega)) ?_ ?_ ?_ rfl
      · simp [importIdx, hk]
      · simp
      · simp [importMarks, hk]
    · have hsp := h0.1 _ hk
      cases k with
      | publ =>
        refine Runs.conv (Runs.bind (Runs.index (by omega) _) <| Runs.bind (Runs.addCommentsFor he _ h0.2.2 _ _) <|
          Runs.bind (Runs.index (by simp only; omega) _) <| Runs.bind (Runs.addSpanFor he _ hsp _) <|
          genImports_runs he p xs ⟨acc.dependency ++ [x.value], acc.publicDependency ++ [(acc.dependency.length : Int)],
            acc.weakDependency⟩ hx
          (by simp only [List.length_append, List.length_singleton]; omega)
          (by simp only [List.length_append, List.length_singleton]; omega) (by simp only; omega)) ?_ ?_ ?_ rfl
        · simp [importIdx, hk]
        · simp
        · simp [importMarks, hk]
      | weak =>
        refine Runs.conv (Runs.bind (Runs.index (by omega) _) <| Runs.bind (Runs.addCommentsFor he _ h0.2.2 _ _) <|
          Runs.bind (Runs.index (by simp only; omega) _) <| Runs.bind (Runs.addSpanFor he _ hsp _) <|
          genImports_runs he p xs ⟨acc.dependency ++ [x.value], acc.publicDependency,
            acc.weakDependency ++ [(acc.dependency.length : Int)]⟩ hx
          (by simp only [List.length_append, List.length_singleton]; omega)
          (by simp only; omega) (by simp only [List.length_append, List.length_singleton]; omega)) ?_ ?_ ?_ rfl
        · simp [importIdx, hk]
        · simp
        · simp [importMarks, hk]

theorem genFileItems_runs (he : EnvOk src env) (p) : ∀ (xs : List FileItem) (acc : FileAcc),
    (∀ x ∈ xs, x.In 0 src.length) → (∀ x ∈ xs, fileItemSmall 2147483647 x) →
    acc.messageType.length + fileItemsW xs ≤ 2147483647 → acc.enumType.length + fileItemsW xs ≤ 2147483647 →
    acc.service.length + fileItemsW xs ≤ 2147483647 → acc.extension.length + fileItemsW xs ≤ 2147483647 →
    Runs src env (genFileItems xs acc) p
      ⟨acc.messageType ++ itemsMsgs env.syn xs, acc.enumType ++ fileEnums xs, acc.service ++ fileServices xs,
        acc.extension ++ fileExts env.syn xs⟩ (xs.flatMap (fileItemErrs env.syn))
      (under p (fileItemsMarks env.syn ⟨acc.messageType.length, acc.enumType.length, acc.service.length,
        acc.extension.length⟩ xs)) p
  | [], acc, _, _, _, _, _, _ => (Runs.pure _ _).conv (by simp [itemsMsgs, fileEnums, fileServices, fileExts]) rfl rfl rfl
  | .message x :: xs, acc, h, hs, l1, l2, l3, l4 => by
    have h0 := h _ (.head _); have s0 := hs _ (.head _)
    simp only [fileItemsW, fileItemW] at l1 l2 l3 l4
    refine Runs.conv (Runs.bind (Runs.bind (Runs.index (by omega) _) <| Runs.bind (Runs.extend _ _) <|
      Runs.bind (genMessage_runs he x _ h0 s0) <| Runs.bind (Runs.popPath _ _ rfl) <| Runs.pure _ _) <|
      genFileItems_runs he p xs _ (fun y hy => h y (.tail _ hy)) (fun y hy => hs y (.tail _ hy))
        (by simp only [List.length_append, List.length_singleton]; omega) (by simp only; omega) (by simp only; omega)
        (by simp only; omega)) ?_ ?_ ?_ rfl
    · simp [itemsMsgs, fileEnums, fileServices, fileExts]
    · simp [fileItemErrs]
    · simp [fileItemsMarks, fileItemMarks, FCnt.next]
  | .enum x :: xs, acc, h, hs, l1, l2, l3, l4 => by
    have h0 := h _ (.head _); have s0 := hs _ (.head _)
    simp only [fileItemsW, fileItemW] at l1 l2 l3 l4
    refine Runs.conv (Runs.bind (Runs.bind (Runs.index (by omega) _) <| Runs.bind (Runs.extend _ _) <|
      Runs.bind (genEnum_runs he _ h0 s0) <| Runs.bind (Runs.popPath _ _ rfl) <| Runs.pure _ _) <|
      genFileItems_runs he p xs _ (fun y hy => h y (.tail _ hy)) (fun y hy => hs y (.tail _ hy))
        (by simp only; omega) (by simp only [List.length_append, List.length_singleton]; omega) (by simp only; omega)
        (by simp only; omega)) ?_ ?_ ?_ rfl
    · simp [itemsMsgs, fileEnums, fileServices, fileExts]
    · simp [fileItemErrs]
    · simp [fileItemsMarks, fileItemMarks, FCnt.next]
  | .service x :: xs, acc, h, hs, l1, l2, l3, l4 => by
    have h0 := h _ (.head _); have s0 := hs _ (.head _)
    simp only [fileItemsW, fileItemW] at l1 l2 l3 l4
    refine Runs.conv (Runs.bind (Runs.bind (Runs.index (by omega) _) <| Runs.bind (Runs.extend _ _) <|
      Runs.bind (genService_runs he _ h0 s0) <| Runs.bind (Runs.popPath _ _ rfl) <| Runs.pure _ _) <|
      genFileItems_runs he p xs _ (fun y hy => h y (.tail _ hy)) (fun y hy => hs y (.tail _ hy))
        (by simp only; omega) (by simp only; omega) (by simp only [List.length_append, List.length_singleton]; omega)
        (by simp only; omega)) ?_ ?_ ?_ rfl
    · simp [itemsMsgs, fileEnums, fileServices, fileExts]
    · simp [fileItemErrs]
    · simp [fileItemsMarks, fileItemMarks, FCnt.next]
  | .extend ⟨t, fields, cm, sp⟩ :: xs, acc, h, hs, l1, l2, l3, l4 => by
    have h0 := h _ (.head _); have s0 := hs _ (.head _)
    simp only [fileItemsW, fileItemW] at l1 l2 l3 l4
    simp only [FileItem.In, Extend.In] at h0
    simp only [fileItemSmall, extendSmall] at s0
    have := nestedCounts_le fields
    refine Runs.conv (Runs.bind (Runs.bind (genExtendHead_runs he _ _ _ h0.2.2) <|
      Runs.bind (genExtendFields_runs he fields t _ _ acc.extension acc.messageType p h0.1 h0.2.1 s0 (by omega) (by omega)) <|
      Runs.pure _ _) <|
      genFileItems_runs he p xs _ (fun y hy => h y (.tail _ hy)) (fun y hy => hs y (.tail _ hy))
        (by simp only [List.length_append, fieldsNested_length]; omega) (by simp only; omega) (by simp only; omega)
        (by simp only [List.length_append, List.length_map]; omega)) ?_ ?_ ?_ rfl
    · simp [itemsMsgs, fileEnums, fileServices, fileExts]
    · simp [fileItemErrs, extendErrs]
    · simp [fileItemsMarks, fileItemMarks, extendMarks, FCnt.next, fieldsNested_length]

omit [FloatFmt] in
theorem genPackage_runs (he : EnvOk src env) (p) {o : Option Package} (h : ∀ x, o = some x → x.In 0 src.length) :
    Runs src env (genPackage o) p (o.map fun x => x.name.display.getD []) [] (under p (packageMarks o)) p := by
  cases o with
  | none => exact Runs.pure _ _
  | some x =>
    have h0 := h x rfl
    exact Runs.conv (Runs.bind (Runs.addCommentsFor he _ h0.2 _ _) <| Runs.bind (Runs.unwrap (fullIdent_display h0.1) _) <|
      Runs.pure _ _) rfl rfl (by simp [packageMarks]) rfl

omit [FloatFmt] in
theorem genSyntaxSpan_runs (he : EnvOk src env) (p) {o : Option (Span × Comments)}
    (h : ∀ x, o = some x → SpIn 0 src.length x.1) :
    Runs src env (genSyntaxSpan o) p () [] (under p (syntaxMarks o)) p := by
  rcases o with _ | ⟨sp, cm⟩
  · exact Runs.pure _ _
  · exact Runs.addCommentsFor he _ (h _ rfl) _ _

theorem genFile_runs (he : EnvOk src env) (name : Bytes) {f : File} (h : f.In src.length)
    (hs : fileSmall 2147483647 f) (hsyn : env.syn = f.syntax') :
    ∃ g, genFile name f = (addSpan f.span >>= fun _ => g) ∧
      Runs src env g [] (fileDesc name f) (fileErrs f) (restMarks f) [] := by
  obtain ⟨s1, s2, s3, s4⟩ := hs
  refine ⟨_, rfl, Runs.conv (Runs.bind (genPackage_runs he [] h.package) <|
    Runs.bind (genImports_runs he [] f.imports ⟨[], [], []⟩ h.imports (by simpa using s1) (by simpa using s1) (by simpa using s1)) <|
    Runs.bind (genFileItems_runs he [] f.items ⟨[], [], [], []⟩ h.items s4 (by simpa using s3) (by simpa using s3)
      (by simpa using s3) (by simpa using s3)) <|
    Runs.bind (Runs.extend _ _) <| Runs.bind (genOptions_runs he _ h.options s2) <| Runs.bind (Runs.pop _ _) <|
    Runs.bind (genSyntaxSpan_runs he _ h.syntaxSpan) <| Runs.pure _ _) ?_ ?_ ?_ rfl⟩
  · simp [fileDesc, hsyn]
  · simp [fileErrs, hsyn]
  · simp [restMarks, hsyn]

theorem envOk {src : Bytes} (hlen : src.length ≤ 2147483647) :
    ∃ lines, Lines.new src = some lines ∧ ∀ s, EnvOk src ⟨s, lines⟩ := by
  obtain ⟨lines, h1, h2⟩ := C30_span_encoding src hlen
  exact ⟨lines, h1, fun _ sp ha hb => h2 sp.start sp.stop ha hb⟩

/-- What the generator makes of a syntax tree. -/
theorem generateFile_eq [LocSort] (name : Bytes) {f : File} (hlen : src.length ≤ 2147483647) (h : f.In src.length)
    (hsp : f.span.start ≤ src.length ∧ f.span.stop ≤ src.length) (hs : fileSmall 2147483647 f) :
    generateFile f name src = some (if fileErrs f = [] then
        .ok { fileDesc name f with sourceCodeInfo := some (LocSort.sort ((fileMarks f).map (Mark.loc src))) }
      else .error (fileErrs f)) ∧
    (∀ e ∈ fileErrs f, ∀ s ∈ e.spans, SpIn 0 src.length s) ∧ ∀ x ∈ restMarks f, SpIn 0 src.length x.span := by
  obtain ⟨lines, h1, h2⟩ := envOk hlen
  obtain ⟨g, h3, h4, h5, h6⟩ := genFile_runs (h2 f.syntax') name h hs rfl
  refine ⟨?_, h5, h6⟩
  unfold generateFile
  rw [h1]
  have hg : genFile name f ⟨f.syntax', lines⟩ ⟨[], [], []⟩ =
      some (fileDesc name f, ⟨[], fileErrs f, (fileMarks f).map (Mark.loc src)⟩) := by
    rw [h3]
    simp only [Bind.bind, addSpan, h2 f.syntax' f.span hsp.1 hsp.2]
    rw [h4]
    simp [fileMarks, Mark.loc]
  simp only [hg]
  split <;> rfl

end
end Verif.Gen
