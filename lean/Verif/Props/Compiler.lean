import Verif.Proofs.Compiler4
import Verif.Proofs.Path2
/-!
Properties C01–C05, C10–C12, C15, C21 of the compiler, for every history of calls and every resolver
(resolvers may change their answers over time).
-/
namespace Verif.Compiler
variable {R : Resolver} {link : Linker}

/-- C01: in the emitted set every file comes after each of its imports that is emitted, and with
`include_imports(true)` after each of its imports. -/
theorem C01_topological (hwn : R.WellNamed) (hlaw : link.Lawful) {s : Compiler} (h : Reachable R link s)
    {out : List FileDescriptorProto} (hout : fileDescriptorSet s = some out) :
    ∀ pre d post, out = pre ++ d :: post → ∀ dep ∈ d.dependency,
      (dep ∈ fileNames out → dep ∈ fileNames pre) ∧
      (s.includeImports = true → dep ∈ fileNames pre) := by
  have hs := reachable_inv hwn hlaw h
  have he := fileDescriptorSet_some hout
  intro pre d post hsplit dep hdep
  rw [he] at hsplit
  obtain ⟨p1, p2, hp, h1, h2⟩ := List.map_eq_append_iff.1 hsplit
  obtain ⟨d', p3, hp2, h3, h4⟩ := List.map_eq_cons_iff.1 h2
  subst hp2
  rw [← h3, strip_deps] at hdep
  have key := topo_filter hs.topo hs.nodup _ p1 d' p3 hp dep hdep
  rw [← h1, fileNames_strip]
  refine ⟨fun hm => key (by rw [he, fileNames_strip] at hm; exact hm), fun himp => key ?_⟩
  have hall : s.pool.filter (fun f => s.emitted f == some true) = s.pool := by
    rw [List.filter_eq_self]; intro f _; simp [Compiler.emitted, himp]
  rw [hall]
  rw [hall] at hp
  have := hs.topo _ _ _ hp dep hdep
  rw [hp, fileNames, List.map_append, List.mem_append]
  exact Or.inl this

/-- C01: `files()` and `file_descriptor_set()` list the files in the same order: with
`include_imports(true)` their names agree position by position. -/
theorem C01_files_same_order (hwn : R.WellNamed) (hlaw : link.Lawful) {s : Compiler} (h : Reachable R link s)
    {ms : List FileMetadata} (hms : filesOut s = some ms) :
    ms.map (·.name) = fileNames s.pool ∧
    (s.includeImports = true → ∀ out, fileDescriptorSet s = some out → fileNames out = ms.map (·.name)) := by
  have hs := reachable_inv hwn hlaw h
  have key : ∀ (l : List FileDescriptorProto) ms, l.mapM (fun f => s.files f.getName) = some ms →
      ms.map (·.name) = fileNames l := by
    intro l
    induction l with
    | nil => intro ms hm; simp at hm; subst hm; rfl
    | cons a l ih =>
      intro ms hm
      obtain ⟨b, r', h1, h2, rfl⟩ := mapM_cons_some hm
      simp only [List.map_cons, fileNames]
      rw [ih r' h2, hs.meta_name _ _ h1]; rfl
  have hnames := key _ _ hms
  refine ⟨hnames, fun himp out hout => ?_⟩
  rw [fileDescriptorSet_some hout, fileNames_strip, hnames]
  have hall : s.pool.filter (fun f => s.emitted f == some true) = s.pool := by
    rw [List.filter_eq_self]; intro f _; simp [Compiler.emitted, himp]
  rw [hall]

/-- C02: no name is emitted twice, neither by `files()` nor by `file_descriptor_set()`. -/
theorem C02_no_duplicates (hwn : R.WellNamed) (hlaw : link.Lawful) {s : Compiler} (h : Reachable R link s) :
    (∀ ms, filesOut s = some ms → (ms.map (·.name)).Nodup) ∧
    (∀ out, fileDescriptorSet s = some out → (fileNames out).Nodup) := by
  have hs := reachable_inv hwn hlaw h
  refine ⟨fun ms hms => ?_, fun out hout => ?_⟩
  · rw [(C01_files_same_order hwn hlaw h hms).1]; exact hs.nodup
  · rw [fileDescriptorSet_some hout, fileNames_strip]
    exact hs.nodup.sublist (List.filter_sublist.map _)

/-- C03: the held files are closed under imports; with `include_imports(true)` so is the output. -/
theorem C03_closed (hwn : R.WellNamed) (hlaw : link.Lawful) {s : Compiler} (h : Reachable R link s) :
    (∀ d ∈ s.pool, ∀ dep ∈ d.dependency, dep ∈ fileNames s.pool ∧ (s.files dep).isSome) ∧
    (s.includeImports = true → ∀ out, fileDescriptorSet s = some out →
      ∀ d ∈ out, ∀ dep ∈ d.dependency, dep ∈ fileNames out) := by
  have hs := reachable_inv hwn hlaw h
  refine ⟨fun d hd dep hdep => ?_, fun himp out hout d hd dep hdep => ?_⟩
  · obtain ⟨pre, post, hp⟩ := List.append_of_mem hd
    have := hs.topo _ _ _ hp dep hdep
    have hm : dep ∈ fileNames s.pool := by
      rw [hp, fileNames, List.map_append, List.mem_append]; exact Or.inl this
    exact ⟨hm, (hs.held_iff dep).2 hm⟩
  · obtain ⟨pre, post, hp⟩ := List.append_of_mem hd
    have := (C01_topological hwn hlaw h hout pre d post hp dep hdep).2 himp
    rw [hp, fileNames, List.map_append, List.mem_append]; exact Or.inl this

/-- C04: with `include_imports(false)` the output consists of the non-import files of `files()`, in the same
order; with `include_imports(true)` of all of them. -/
theorem C04_selection (hwn : R.WellNamed) (hlaw : link.Lawful) {s : Compiler} (h : Reachable R link s)
    {ms : List FileMetadata} (hms : filesOut s = some ms)
    {out : List FileDescriptorProto} (hout : fileDescriptorSet s = some out) :
    fileNames out = (ms.filter (fun m => s.includeImports || !m.isImport)).map (·.name) := by
  have hs := reachable_inv hwn hlaw h
  rw [fileDescriptorSet_some hout, fileNames_strip]
  have key : ∀ (l : List FileDescriptorProto) ms, l.mapM (fun f => s.files f.getName) = some ms →
      fileNames (l.filter (fun f => s.emitted f == some true))
        = (ms.filter (fun m => s.includeImports || !m.isImport)).map (·.name) := by
    intro l
    induction l with
    | nil => intro ms hm; simp at hm; subst hm; rfl
    | cons a l ih =>
      intro ms hm
      obtain ⟨b, r', h1, h2, rfl⟩ := mapM_cons_some hm
      have hb := hs.meta_name _ _ h1
      rw [List.filter_cons, List.filter_cons]
      have hem : (s.emitted a == some true) = (s.includeImports || !b.isImport) := by
        unfold Compiler.emitted
        by_cases hi : s.includeImports = true
        · simp [hi]
        · simp [hi, h1]
      rw [hem]
      by_cases hc : (s.includeImports || !b.isImport) = true
      · rw [if_pos hc, if_pos hc]
        simp only [List.map_cons, fileNames, ← hb] at ih ⊢
        rw [ih r' h2]
      · rw [if_neg hc, if_neg hc]
        exact ih r' h2
  exact key _ _ hms

/-- C04: a held file is not an import iff some successful `open_file` call resolved to its name; every
successfully opened name is held. (Any resolver and linker.) -/
theorem C04_is_import_iff {s : Compiler} {ns : List Bytes} (h : History R link s ns) :
    (∀ n m, s.files n = some m → (m.isImport = false ↔ n ∈ ns)) ∧ ∀ n ∈ ns, (s.files n).isSome := by
  induction h with
  | init => simp [Compiler.init]
  | setImports b _ ih => exact ih
  | setInfo b _ ih => exact ih
  | @openOk s ns fuel p n b _ hres hok ih =>
    have hc := openFile_cases (R := R) (link := link) fuel s p
    generalize openFile R link fuel s p = r at hc hok
    have hset : ∀ (m' : FileMetadata) (s2 : Compiler), m'.isImport = false →
        (∀ k m, s2.files k = some m → k ≠ n → (m.isImport = false ↔ k ∈ ns)) →
        (∀ k ∈ ns, (s2.files k).isSome ∨ k = n) →
        (∀ k m, (s2.setFile n m').files k = some m → (m.isImport = false ↔ k ∈ n :: ns)) ∧
        ∀ k ∈ n :: ns, ((s2.setFile n m').files k).isSome := by
      intro m' s2 hm' h1 h2
      refine ⟨fun k m hk => ?_, fun k hk => ?_⟩
      · simp only [setFile] at hk
        by_cases hkn : k = n
        · rw [if_pos hkn] at hk; cases hk; simp [hkn, hm']
        · rw [if_neg hkn] at hk; rw [h1 k m hk hkn]; simp [hkn]
      · simp only [setFile]
        by_cases hkn : k = n
        · simp [hkn]
        · rw [if_neg hkn]
          have hk' : k ∈ ns := by simpa [hkn] using hk
          rcases h2 k hk' with h | h
          · exact h
          · exact absurd h hkn
    cases hc with
    | noName | heldShadow | openErr | shadow => cases hok
    | held name res m hn hm hsh =>
      rw [hres] at hn; cases hn
      exact hset _ _ rfl (fun k m hk _ => ih.1 k m hk) (fun k hk => Or.inl (ih.2 k hk))
    | importFail _ _ _ _ _ _ _ hno => exact absurd hok hno
    | finish name res f s2 hn hm hf hsh h2 =>
      rw [hres] at hn; cases hn
      have hfr := imports_frame (R := R) (link := link) fuel [n] f (s.addTrace [.resolve p, .openF n])
      rw [h2] at hfr
      obtain ⟨pool', hp, he⟩ := finish_ok (s' := (Compiler.finish link s2 n f false).2) (by rw [← hok])
      rw [he]
      refine hset _ _ rfl (fun k m hk hkn => ?_) (fun k hk => Or.inl (hfr.1.held (ih.2 k hk)))
      cases hk0 : s.files k with
      | some m0 =>
        have := hfr.1.keep k m0 hk0
        simp only at this hk
        rw [this] at hk; cases hk
        exact ih.1 k m hk0
      | none =>
        have := hfr.1.fresh k m hk0 hk
        simp only [this, Bool.true_eq_false, false_iff]
        intro hk'
        have := ih.2 k hk'
        rw [hk0] at this; cases this
  | @openFail s ns fuel p _ hno ih =>
    have hext : Ext s (openFile R link fuel s p).2 := by
      have hc := openFile_cases (R := R) (link := link) fuel s p
      generalize openFile R link fuel s p = r at hc hno
      cases hc with
      | noName | heldShadow | openErr | shadow => exact Ext.addTrace _ _
      | held => exact absurd rfl hno
      | importFail name res f hn hm hf hsh hno =>
        exact (Ext.addTrace _ _).trans (imports_frame _ _ _ _).1
      | finish name res f s2 hn hm hf hsh h2 =>
        obtain ⟨e, _, he⟩ := finish_not_ok hno
        rw [he]
        have hfr := imports_frame (R := R) (link := link) fuel [name] f (s.addTrace [.resolve p, .openF name])
        rw [h2] at hfr
        exact (Ext.addTrace _ _).trans hfr.1
    refine ⟨fun k m hk => ?_, fun k hk => hext.held (ih.2 k hk)⟩
    cases hk0 : s.files k with
    | some m0 =>
      have := hext.keep k m0 hk0
      rw [this] at hk; cases hk
      exact ih.1 k m hk0
    | none =>
      have := hext.fresh k m hk0 hk
      simp only [this, Bool.true_eq_false, false_iff]
      intro hk'
      have := ih.2 k hk'
      rw [hk0] at this; cases this

/-- C05: `include_source_info` only decides whether `source_code_info` is present. -/
theorem C05_source_info (s : Compiler) :
    fileDescriptorSet { s with includeSourceInfo := false }
      = (fileDescriptorSet { s with includeSourceInfo := true }).map
          (fun out => out.map (fun f => { f with sourceCodeInfo := none })) ∧
    (∀ out, fileDescriptorSet { s with includeSourceInfo := false } = some out →
      ∀ f ∈ out, f.sourceCodeInfo = none) := by
  have h1 : fileDescriptorSet { s with includeSourceInfo := false }
      = (fileDescriptorSet { s with includeSourceInfo := true }).map
          (fun out => out.map (fun f => { f with sourceCodeInfo := none })) := by
    have he : ({ s with includeSourceInfo := false } : Compiler).emitted
        = ({ s with includeSourceInfo := true } : Compiler).emitted := rfl
    simp only [fileDescriptorSet, he]
    cases filterP ({ s with includeSourceInfo := true } : Compiler).emitted s.pool <;> simp
  refine ⟨h1, fun out hout f hf => ?_⟩
  rw [h1] at hout
  obtain ⟨o, _, rfl⟩ := Option.map_eq_some_iff.1 hout
  obtain ⟨g, _, rfl⟩ := List.mem_map.1 hf
  rfl

/-- C10: opening a path whose name is already held asks the resolver only to resolve the path, keeps the
files and their order, and at most clears the import flag of that file. -/
theorem C10_reopen (fuel : Nat) (s : Compiler) (p n : Bytes) (b : Bool) (m : FileMetadata)
    (hres : resolveName R s p = some (n, b)) (hm : s.files n = some m) :
    let r := openFile R link fuel s p
    r.2.trace = s.trace ++ [.resolve p] ∧ r.2.pool = s.pool ∧
    (∀ k, k ≠ n → r.2.files k = s.files k) ∧
    r.2.files n = (if r.1 = .ok then some { m with isImport := false } else some m) ∧
    (r.1 = .ok ∨ ∃ a, m.path = some a ∧ r.1 = .err (.fileShadowed n p a)) := by
  have hc := openFile_cases (R := R) (link := link) fuel s p
  generalize openFile R link fuel s p = r at hc
  cases hc with
  | noName h => rw [hres] at h; cases h
  | heldShadow name res m' e h h2 h3 =>
    rw [hres] at h; cases h
    rw [hm] at h2; cases h2
    refine ⟨rfl, rfl, fun _ _ => rfl, by simpa [addTrace] using hm, Or.inr ?_⟩
    unfold shadowError checkShadow at h3
    split at h3
    · split at h3
      · rename_i a ha
        split at h3
        · cases h3
        · cases h3; exact ⟨a, ha, rfl⟩
      · cases h3
    · cases h3
  | held name res m' h h2 h3 =>
    rw [hres] at h; cases h
    rw [hm] at h2; cases h2
    refine ⟨rfl, rfl, fun k hk => ?_, by simp [setFile], Or.inl rfl⟩
    simp [setFile, hk, addTrace]
  | openErr name _ _ h h2 => rw [hres] at h; cases h; rw [hm] at h2; cases h2
  | shadow name _ _ _ h h2 => rw [hres] at h; cases h; rw [hm] at h2; cases h2
  | importFail name _ _ h h2 => rw [hres] at h; cases h; rw [hm] at h2; cases h2
  | finish name _ _ _ h h2 => rw [hres] at h; cases h; rw [hm] at h2; cases h2

/-- C10: for a resolver with fixed answers, repeating a successful call succeeds and changes nothing. -/
theorem C10_idempotent (r : PureResolver) (fuel fuel' : Nat) (s s' : Compiler) (p : Bytes)
    (h : openFile r.toResolver link fuel s p = (.ok, s')) :
    (openFile r.toResolver link fuel' s' p).1 = .ok ∧
    (openFile r.toResolver link fuel' s' p).2.pool = s'.pool ∧
    (openFile r.toResolver link fuel' s' p).2.files = s'.files := by
  have hres : ∀ t : Compiler, resolveName r.toResolver t p = resolveName r.toResolver s p := fun _ => rfl
  have main : ∀ n b m, resolveName r.toResolver s p = some (n, b) → s'.files n = some m →
      m.isImport = false → shadowError b n m.path p = none →
      (openFile r.toResolver link fuel' s' p).1 = .ok ∧
      (openFile r.toResolver link fuel' s' p).2.pool = s'.pool ∧
      (openFile r.toResolver link fuel' s' p).2.files = s'.files := by
    intro n b m hn hm himp hsh
    rw [openFile]
    simp only [hres, hn, hm, hsh]
    refine ⟨trivial, rfl, ?_⟩
    funext k
    simp only [setFile]
    by_cases hk : k = n
    · subst hk; rw [if_pos rfl, hm, ← himp]
    · rw [if_neg hk]
  have hc := openFile_cases (R := r.toResolver) (link := link) fuel s p
  rw [h] at hc
  generalize hx : (Out.ok, s') = x at hc
  cases hc with
  | noName | heldShadow | openErr | shadow => cases hx
  | held name res m hn hm hsh =>
    cases hx
    exact main name res { m with isImport := false } hn (by simp [setFile]) rfl hsh
  | importFail _ _ _ _ _ _ _ hno => rw [← hx] at hno; exact absurd rfl hno
  | finish name res f s2 hn hm hf hsh h2 =>
    obtain ⟨pool', hp, he⟩ := finish_ok hx.symm
    exact main name res ⟨name, f.path, false⟩ hn (by rw [he]; simp [setFile]) rfl hsh

/-- C11: a failed `open_file` (any resolver and linker) loses nothing: the old files are still there in the
same order with unchanged descriptors, paths and flags, and newly held files are imports. -/
theorem C11_failure_keeps (fuel : Nat) (s : Compiler) (p : Bytes)
    (hno : (openFile R link fuel s p).1 ≠ .ok) :
    let s' := (openFile R link fuel s p).2
    (∃ new, s'.pool = s.pool ++ new) ∧
    (∀ n m, s.files n = some m → s'.files n = some m) ∧
    (∀ n m, s.files n = none → s'.files n = some m → m.isImport = true) ∧
    s'.includeImports = s.includeImports ∧ s'.includeSourceInfo = s.includeSourceInfo := by
  have hext : Ext s (openFile R link fuel s p).2 := by
    have hc := openFile_cases (R := R) (link := link) fuel s p
    generalize openFile R link fuel s p = r at hc hno
    cases hc with
    | noName | heldShadow | openErr | shadow => exact Ext.addTrace _ _
    | held => exact absurd rfl hno
    | importFail name res f hn hm hf hsh hno =>
      exact (Ext.addTrace _ _).trans (imports_frame _ _ _ _).1
    | finish name res f s2 hn hm hf hsh h2 =>
      obtain ⟨e, _, he⟩ := finish_not_ok hno
      rw [he]
      have hfr := imports_frame (R := R) (link := link) fuel [name] f (s.addTrace [.resolve p, .openF name])
      rw [h2] at hfr
      exact (Ext.addTrace _ _).trans hfr.1
  exact ⟨hext.pool, hext.keep, hext.fresh, hext.imports, hext.info⟩

/-- C12: with a well-named resolver the queries never panic, after any history. -/
theorem C12_no_panic (hwn : R.WellNamed) (hlaw : link.Lawful) {s : Compiler} (h : Reachable R link s) :
    (∃ ms, filesOut s = some ms ∧ ms.length = s.pool.length) ∧ (∃ out, fileDescriptorSet s = some out) := by
  have hs := reachable_inv hwn hlaw h
  constructor
  · apply mapM_some_of
    intro f hf
    exact (hs.held_iff _).2 (by rw [fileNames, List.mem_map]; exact ⟨f, hf, rfl⟩)
  · have := filterP_total (p := s.emitted) (l := s.pool) (fun f hf => hs.emitted hf)
    unfold fileDescriptorSet
    split
    · rename_i h; exact absurd h this
    · exact ⟨_, rfl⟩

/-- C15: `open_files` on a concatenation. -/
theorem C15_open_files_append (fuel : Nat) (s : Compiler) (ps qs : List Bytes) :
    openFiles R link fuel s (ps ++ qs) =
      (if (openFiles R link fuel s ps).1 = .ok then openFiles R link fuel (openFiles R link fuel s ps).2 qs
       else openFiles R link fuel s ps) := by
  induction ps generalizing s with
  | nil => simp [openFiles]
  | cons p ps ih =>
    have hcons : ∀ l, openFiles R link fuel s (p :: l) =
        if (openFile R link fuel s p).1 = .ok then openFiles R link fuel (openFile R link fuel s p).2 l
        else openFile R link fuel s p := by
      intro l
      rw [openFiles]
      split
      · rename_i s' h; simp [h]
      · rename_i r hne
        rw [if_neg]
        intro h
        exact hne _ (Prod.ext h rfl)
    rw [List.cons_append, hcons, hcons]
    by_cases h : (openFile R link fuel s p).1 = .ok
    · simp only [h, if_true]; exact ih _
    · simp only [h, if_false]

/-- C15: `open_files` is the sequence of `open_file` calls and stops at the first failing one. -/
theorem C15_open_files_first_error (fuel : Nat) (s : Compiler) (ps : List Bytes) (p : Bytes) (qs : List Bytes)
    (hok : (openFiles R link fuel s ps).1 = .ok)
    (herr : (openFile R link fuel (openFiles R link fuel s ps).2 p).1 ≠ .ok) :
    openFiles R link fuel s (ps ++ p :: qs) = openFile R link fuel (openFiles R link fuel s ps).2 p := by
  rw [C15_open_files_append, if_pos hok, openFiles]
  split
  · rename_i s' h; rw [h] at herr; exact absurd rfl herr
  · rfl

/-- C21: after a successful `open_file` of a path that the resolver mapped to a name, the held file of that
name has no path, or its path is the given one up to `.` components. -/
theorem C21_not_shadowed (fuel : Nat) (s : Compiler) (p n : Bytes)
    (hres : R.resolvePath s.trace p = some n) (hok : (openFile R link fuel s p).1 = .ok) :
    ∃ m, (openFile R link fuel s p).2.files n = some m ∧
      (m.path = none ∨ ∃ a, m.path = some a ∧
        Path.noCur (Path.components a) = Path.noCur (Path.components p)) := by
  have hrn : resolveName R s p = some (n, true) := by simp [resolveName, hres]
  have key : ∀ path, shadowError true n path p = none →
      (path = none ∨ ∃ a, path = some a ∧
        Path.noCur (Path.components a) = Path.noCur (Path.components p)) := by
    intro path h
    cases path with
    | none => exact Or.inl rfl
    | some a =>
      right; refine ⟨a, rfl, ?_⟩
      simp only [shadowError, checkShadow, if_true] at h
      split at h
      · rename_i hpe; exact (Path.pathEq_iff _ _).1 hpe
      · cases h
  have hc := openFile_cases (R := R) (link := link) fuel s p
  generalize openFile R link fuel s p = r at hc hok
  cases hc with
  | noName | heldShadow | openErr | shadow => cases hok
  | held name res m hn hm hsh =>
    rw [hrn] at hn; cases hn
    exact ⟨{ m with isImport := false }, by simp [setFile], key _ hsh⟩
  | importFail _ _ _ _ _ _ _ hno => exact absurd hok hno
  | finish name res f s2 hn hm hf hsh h2 =>
    rw [hrn] at hn; cases hn
    obtain ⟨pool', hp, he⟩ := finish_ok (s' := (Compiler.finish link s2 n f false).2) (by rw [← hok])
    exact ⟨⟨n, f.path, false⟩, by rw [he]; simp [setFile], key _ hsh⟩

/-- C21: if the file found (or already held) for the name lies at a different path, `open_file` returns the
shadowed error with both paths. -/
theorem C21_shadow_reported (fuel : Nat) (s : Compiler) (p n a : Bytes)
    (hres : R.resolvePath s.trace p = some n)
    (hfile : (∃ m, s.files n = some m ∧ m.path = some a) ∨
      (s.files n = none ∧ ∃ f, R.openFile (s.trace ++ [.resolve p]) n = .ok f ∧ f.path = some a))
    (hne' : Path.noCur (Path.components a) ≠ Path.noCur (Path.components p)) :
    (openFile R link fuel s p).1 = .err (.fileShadowed n p a) := by
  have hrn : resolveName R s p = some (n, true) := by simp [resolveName, hres]
  have hne : Path.pathEq (Path.components a) (Path.components p) = false := by
    rw [← Bool.not_eq_true, Path.pathEq_iff]; exact hne'
  rw [openFile]
  simp only [hrn]
  rcases hfile with ⟨m, hm, hp⟩ | ⟨hm, f, hf, hp⟩
  · simp [hm, shadowError, checkShadow, hp, hne]
  · simp [hm, hf, shadowError, checkShadow, hp, hne]

end Verif.Compiler
