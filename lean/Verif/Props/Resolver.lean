import Verif.Model.Resolver
/-!
Properties C16, C17, C18, C25 and the `File::open` half of C26.
-/
namespace Verif

/-- A resolver says that there is no such file. -/
def Missing (x : Except Error File) : Prop := ∃ e, x = .error e ∧ e.isFileNotFound = true

/-- C16/C17: the answer of a chain is the answer — file or error — of the first resolver that does not say
not-found; what follows it is irrelevant. -/
theorem C16_first_hit (pre post : List PureResolver) (r : PureResolver) (name : Bytes)
    (hpre : ∀ q ∈ pre, Missing (q.openFile name)) (hr : ¬ Missing (r.openFile name)) :
    (chain (pre ++ r :: post)).openFile name = r.openFile name := by
  show chainOpen _ _ = _
  induction pre with
  | nil =>
    simp only [List.nil_append, chainOpen]
    cases h : r.openFile name with
    | ok f => rfl
    | error e =>
      have : e.isFileNotFound = false := by
        cases he : e.isFileNotFound with
        | false => rfl
        | true => exact absurd ⟨e, h, he⟩ hr
      simp [this]
  | cons q pre ih =>
    obtain ⟨e, h, he⟩ := hpre q (by simp)
    simp only [List.cons_append, chainOpen, h, he, if_true]
    exact ih (fun q hq => hpre q (by simp [hq]))

/-- C16: `resolve_path` gives the first `Some`. -/
theorem C16_resolve_first (pre post : List PureResolver) (r : PureResolver) (p n : Bytes)
    (hpre : ∀ q ∈ pre, q.resolvePath p = none) (hr : r.resolvePath p = some n) :
    (chain (pre ++ r :: post)).resolvePath p = some n := by
  show chainResolve _ _ = _
  induction pre with
  | nil => simp [chainResolve, hr]
  | cons q pre ih =>
    simp only [List.cons_append, chainResolve, hpre q (by simp)]
    exact ih (fun q hq => hpre q (by simp [hq]))

/-- C16: `resolve_path` of a chain is `None` exactly if every member says so. -/
theorem C16_resolve_none (rs : List PureResolver) (p : Bytes) :
    (chain rs).resolvePath p = none ↔ ∀ q ∈ rs, q.resolvePath p = none := by
  show chainResolve _ _ = _ ↔ _
  induction rs with
  | nil => simp [chainResolve]
  | cons q rs ih =>
    simp only [chainResolve, List.mem_cons, forall_eq_or_imp]
    cases h : q.resolvePath p with
    | some n => simp
    | none => simpa using ih

/-- C17: an error that is not not-found ends the search and is returned as it is, although a later resolver
may have the file. -/
theorem C17_error_not_masked (pre post : List PureResolver) (r : PureResolver) (name : Bytes) (e : Error)
    (hpre : ∀ q ∈ pre, Missing (q.openFile name)) (hr : r.openFile name = .error e)
    (he : e.isFileNotFound = false) : (chain (pre ++ r :: post)).openFile name = .error e := by
  rw [C16_first_hit pre post r name hpre, hr]
  rintro ⟨e', h, h'⟩
  rw [hr] at h; cases h; rw [he] at h'; cases h'

/-- C17: if all say not-found (in particular for the empty chain), so does the chain, for the requested name. -/
theorem C17_all_missing (rs : List PureResolver) (name : Bytes) (h : ∀ q ∈ rs, Missing (q.openFile name)) :
    (chain rs).openFile name = .error (.fileNotFound name) := by
  show chainOpen _ _ = _
  induction rs with
  | nil => rfl
  | cons q rs ih =>
    obtain ⟨e, h1, h2⟩ := h q (by simp)
    simp only [chainOpen, h1, h2, if_true]
    exact ih (fun q hq => h q (by simp [hq]))

/-- C17: a chain says not-found only if every member does. -/
theorem C17_missing_only_if_all (rs : List PureResolver) (name : Bytes) :
    Missing ((chain rs).openFile name) ↔ ∀ q ∈ rs, Missing (q.openFile name) := by
  constructor
  · show Missing (chainOpen _ _) → _
    induction rs with
    | nil => simp
    | cons q rs ih =>
      intro h
      simp only [chainOpen] at h
      cases hq : q.openFile name with
      | ok f => rw [hq] at h; obtain ⟨e, h1, _⟩ := h; cases h1
      | error e =>
        rw [hq] at h
        by_cases he : e.isFileNotFound = true
        · simp only [he, if_true] at h
          intro x hx
          rcases List.mem_cons.1 hx with rfl | hx
          · exact ⟨e, hq, he⟩
          · exact ih h x hx
        · simp only [he] at h
          obtain ⟨e', h1, h2⟩ := h
          simp at h1
          subst h1
          exact absurd h2 he
  · intro h
    exact ⟨_, C17_all_missing rs name h, rfl⟩

/-- An include directory has no file of this name: the operating system reports not-found for the path. -/
def NotIn (fs : Bytes → FsEntry) (incl name : Bytes) : Prop :=
  fs (Path.includeTarget incl name) = .err .notFound

/-- The operating system finds something there (whether or not it can be opened, read or parsed). -/
def PresentIn (fs : Bytes → FsEntry) (incl name : Bytes) : Prop :=
  fs (Path.includeTarget incl name) ≠ .err .notFound ∧
  ∀ k, fs (Path.includeTarget incl name) ≠ .file k (.error .notFound)

theorem notIn_missing {parse : ParseFn} {fs : Bytes → FsEntry} {incl name : Bytes} (h : NotIn fs incl name) :
    Missing ((includeResolver parse fs incl).openFile name) :=
  ⟨.fileNotFound name, by simp [includeResolver, fileOpen, show fs _ = _ from h, mapIoErr], rfl⟩

theorem mapIoErr_notFound {name path : Bytes} {e : IoError} (h : (mapIoErr name path e).isFileNotFound = true) :
    e = .notFound := by
  cases e <;> simp_all [mapIoErr, Error.isFileNotFound]

theorem presentIn_not_missing {parse : ParseFn} {fs : Bytes → FsEntry} {incl name : Bytes}
    (h : PresentIn fs incl name) : ¬ Missing ((includeResolver parse fs incl).openFile name) := by
  rintro ⟨e, he, hnf⟩
  obtain ⟨h1, h2⟩ := h
  simp only [includeResolver, fileOpen] at he
  cases hfs : fs (Path.includeTarget incl name) with
  | err io =>
    rw [hfs] at he h1
    simp only [Except.error.injEq] at he
    subst he
    rw [mapIoErr_notFound hnf] at h1
    exact h1 rfl
  | file k content =>
    rw [hfs] at he
    simp only at he
    split at he
    · cases he; cases hnf
    · split at he
      · rename_i e' 
        cases he
        rw [mapIoErr_notFound hnf] at hfs
        exact h2 k hfs
      · split at he
        · split at he
          · cases he; cases hnf
          · cases he
        · cases he; cases hnf

/-- C18: the first include directory that has the name decides, before the later ones and before the bundled
files; a file that is there but cannot be read or parsed is an error, not skipped. -/
theorem C18_first_include (parse : ParseFn) (fs : Bytes → FsEntry) (text : Bytes → Bytes)
    (pre post : List Bytes) (incl name : Bytes)
    (hpre : ∀ i ∈ pre, NotIn fs i name) (hin : PresentIn fs incl name) :
    (defaultResolver parse fs text (pre ++ incl :: post)).openFile name =
      fileOpen parse fs name (Path.includeTarget incl name) := by
  have := C16_first_hit (pre.map (includeResolver parse fs)) (post.map (includeResolver parse fs) ++ [googleResolver parse text])
    (includeResolver parse fs incl) name ?_ (presentIn_not_missing hin)
  · simpa [defaultResolver, includeResolver] using this
  · intro q hq
    obtain ⟨i, hi, rfl⟩ := List.mem_map.1 hq
    exact notIn_missing (hpre i hi)

/-- C18: if no include directory has the name, one of the bundled names gives the bundled text, parsed, with no
path. Any other name is not found. -/
theorem C18_fallback (parse : ParseFn) (fs : Bytes → FsEntry) (text : Bytes → Bytes)
    (includes : List Bytes) (name : Bytes) (hno : ∀ i ∈ includes, NotIn fs i name) :
    (name ∈ googleNames → (defaultResolver parse fs text includes).openFile name =
      match parse name (text name) with
      | .ok d => .ok { path := none, source := some (text name), descriptor := d, encoded := none }
      | .error e => .error (.parse e)) ∧
    (name ∉ googleNames → (defaultResolver parse fs text includes).openFile name = .error (.fileNotFound name)) := by
  have hmiss : ∀ q ∈ includes.map (includeResolver parse fs), Missing (q.openFile name) := by
    intro q hq
    obtain ⟨i, hi, rfl⟩ := List.mem_map.1 hq
    exact notIn_missing (hno i hi)
  constructor
  · intro hg
    have hgo : (googleResolver parse text).openFile name = fromSource parse name (text name) := by
      simp [googleResolver, googleOpen, hg]
    have hnm : ¬ Missing ((googleResolver parse text).openFile name) := by
      rw [hgo]
      rintro ⟨e, he, hnf⟩
      unfold fromSource at he
      split at he
      · cases he; cases hnf
      · cases he
    have := C16_first_hit _ [] (googleResolver parse text) name hmiss hnm
    rw [show defaultResolver parse fs text includes = chain (includes.map (includeResolver parse fs) ++ googleResolver parse text :: []) from rfl,
      this, hgo]
    unfold fromSource
    cases parse name (text name) <;> rfl
  · intro hg
    rw [defaultResolver]
    apply C17_all_missing
    intro q hq
    rcases List.mem_append.1 hq with hq | hq
    · exact hmiss q hq
    · simp at hq; subst hq
      exact ⟨.fileNotFound name, by simp [googleResolver, googleOpen, hg], rfl⟩

/-- C18: the bundled names are twelve different names (their spelling is in `googleNames`). -/
theorem C18_twelve : googleNames.length = 12 ∧ googleNames.Nodup := by decide

/-- C18: `resolve_path` of the default resolver only consults the include directories, in order. -/
theorem C18_resolve (parse : ParseFn) (fs : Bytes → FsEntry) (text : Bytes → Bytes) (includes : List Bytes) (p : Bytes) :
    (defaultResolver parse fs text includes).resolvePath p = includes.findSome? (Path.includeResolve · p) := by
  show chainResolve _ _ = _
  induction includes with
  | nil => simp [chainResolve, googleResolver]
  | cons i is ih =>
    simp only [List.map_cons, List.cons_append, chainResolve, List.findSome?_cons]
    cases h : (includeResolver parse fs i).resolvePath p with
    | some n => simp only [includeResolver] at h; rw [h]
    | none => simp only [includeResolver] at h; rw [h]; exact ih

/-- C25: a descriptor set answers with its first descriptor of that name, with the original bytes, no path and
no source; if there is none, with not-found for the requested name. -/
theorem C25_lookup (set : List (FileDescriptorProto × Option Bytes)) (name : Bytes) :
    (∀ pre fd enc post, set = pre ++ (fd, enc) :: post → fd.getName = name → (∀ x ∈ pre, x.1.getName ≠ name) →
      (setResolver set).openFile name =
        .ok { path := none, source := none, descriptor := fd, encoded := enc }) ∧
    ((∀ x ∈ set, x.1.getName ≠ name) ↔ (setResolver set).openFile name = .error (.fileNotFound name)) := by
  refine ⟨?_, ?_⟩
  · intro pre fd enc post hset hname hpre
    subst hset
    show setOpen _ _ = _
    induction pre with
    | nil => simp [setOpen, hname]
    | cons x pre ih =>
      obtain ⟨a, b⟩ := x
      have := hpre (a, b) (by simp)
      simp only [List.cons_append, setOpen, if_neg this]
      exact ih (fun x hx => hpre x (by simp [hx]))
  · show _ ↔ setOpen _ _ = _
    induction set with
    | nil => simp [setOpen]
    | cons x set ih =>
      obtain ⟨a, b⟩ := x
      simp only [setOpen, List.mem_cons, forall_eq_or_imp]
      by_cases h : a.getName = name
      · simp [h]
      · simp [h, ← ih]

/-- C26: `File::open` yields a file only if the reported length and the text read are at most 2147483647
bytes, and the text is then valid UTF-8; a longer file is rejected with an error of the parse class. -/
theorem C26_open_bounded (parse : ParseFn) (fs : Bytes → FsEntry) (name path : Bytes) :
    (∀ f, fileOpen parse fs name path = .ok f → ∃ k content, fs path = .file k (.ok content) ∧ k ≤ 2147483647 ∧
      ∃ src, f.source = some src ∧ src.length ≤ 2147483647 ∧ utf8Valid src = true ∧ f.path = some path ∧
        parse name src = .ok f.descriptor) ∧
    (∀ k content, fs path = .file k content → k > 2147483647 →
      fileOpen parse fs name path = .error (.fileTooLarge name) ∧ (Error.fileTooLarge name).isParse = true) := by
  refine ⟨?_, ?_⟩
  · intro f hf
    unfold fileOpen at hf
    split at hf
    · cases hf
    · rename_i k content hfs
      split at hf
      · cases hf
      · rename_i hk
        split at hf
        · cases hf
        · rename_i bytes
          simp only at hf
          split at hf
          · rename_i hu
            split at hf
            · cases hf
            · rename_i d hd
              cases hf
              refine ⟨k, bytes, hfs, ?_, _, rfl, ?_, hu, rfl, hd⟩
              · simp only [maxFileLen] at hk; omega
              · simp only [maxFileLen, List.length_take]; omega
          · cases hf
  · intro k content hfs hk
    refine ⟨?_, rfl⟩
    unfold fileOpen
    rw [hfs]
    simp [maxFileLen, hk]

/-! ### Concrete cases -/
namespace ResolverDemo
def f1 : File := ⟨none, none, { name := some b!"a" }, none⟩
def r1 : PureResolver := ⟨fun p => if p = b!"/x/a" then some b!"a" else none,
  fun n => if n = b!"a" then .ok f1 else .error (.fileNotFound n)⟩
def r2 : PureResolver := ⟨fun _ => none, fun n => .error (if n = b!"b" then .custom true 3 else .fileNotIncluded n)⟩

example : Missing (r2.openFile b!"a") ∧ ¬ Missing (r1.openFile b!"a") ∧ ¬ Missing (r2.openFile b!"b") ∧
    (chain [r2, r1]).openFile b!"a" = .ok f1 ∧ (chain [r2, r1]).openFile b!"b" = .error (.custom true 3) := by
  refine ⟨⟨_, rfl, rfl⟩, ?_, ?_, rfl, rfl⟩
  · rintro ⟨e, h, _⟩; cases h
  · rintro ⟨e, h, h2⟩
    have : e = .custom true 3 := by
      simp [r2] at h; exact h.symm
    subst this; cases h2

def fs : Bytes → FsEntry := fun p =>
  if p = b!"i2/google/protobuf/any.proto" then .file 3 (.ok b!"abc")
  else if p = b!"big" then .file 2147483648 (.ok []) else .err .notFound

example : NotIn fs b!"i1" b!"google/protobuf/any.proto" ∧ PresentIn fs b!"i2" b!"google/protobuf/any.proto" := by
  have h : fs (Path.includeTarget b!"i2" b!"google/protobuf/any.proto") = .file 3 (.ok b!"abc") := by
    unfold fs; rw [if_pos (by decide)]
  refine ⟨?_, ?_, ?_⟩
  · unfold NotIn fs
    rw [if_neg (by decide), if_neg (by decide)]
  · rw [h]; intro h; cases h
  · intro k; rw [h]; intro h; cases h

end ResolverDemo
end Verif
