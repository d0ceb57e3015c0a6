import Verif.Proofs.Builtin
import Verif.Proofs.Demo
/-!
C54: `protox::compile` from the file system to the descriptor set.  C57: what its errors mean.
-/
namespace Verif
open Verif.Spec
open Compiler PureResolver
section
variable [FloatFmt] [LocSort] {link : Linker}

/-- `compile(files, includes)` on a file system that may change while it runs. -/
abbrev compileOn (link : Linker) (fs : List Call → Bytes → FsEntry) (text : Bytes → Bytes) (includes files : List Bytes)
    (fuel : Nat) : Res (List FileDescriptorProto) :=
  compile (defaultResolverOn parseFn fs text includes) link fuel files

/-- The state before the files are opened. -/
theorem compile_start (R : Resolver) (link : Linker) :
    Reachable R link { Compiler.init with includeSourceInfo := true, includeImports := true } := by
  have h1 := Reachable.step (R := R) (link := link) 0 .init (.setIncludeSourceInfo true) .init
  exact .step 0 _ (.setIncludeImports true) h1

theorem compile_history (R : Resolver) (link : Linker) :
    History R link { Compiler.init with includeSourceInfo := true, includeImports := true } [] :=
  .setImports true (.setInfo true .init)

/-- C54: whatever the file system says, and however it changes while `compile` runs, there is no panic. -/
theorem C54_no_panic (hlaw : link.Lawful) (fs : List Call → Bytes → FsEntry) (text : Bytes → Bytes)
    (includes files : List Bytes) (fuel : Nat) : compileOn link fs text includes files fuel ≠ .panic := by
  have hwn := default_wellNamed fs text includes
  have hsp := default_spansOk fs text includes
  intro h
  unfold compileOn compile at h
  simp only at h
  have h1 := openFiles_ne_panic (link := link) hsp fuel files { Compiler.init with includeSourceInfo := true, includeImports := true }
  have h2 := Reachable.step (R := defaultResolverOn parseFn fs text includes) fuel _ (.openFiles files)
    (compile_start _ link)
  simp only [step] at h2
  cases hx : openFiles (defaultResolverOn parseFn fs text includes) link fuel
      { Compiler.init with includeSourceInfo := true, includeImports := true } files with
  | mk o s =>
    rw [hx] at h h1 h2
    cases o with
    | ok =>
      obtain ⟨-, out, ho⟩ := C12_no_panic hwn hlaw h2
      simp only [finally', ho] at h
      cases h
    | err e => cases h
    | panic => exact h1 rfl
    | oof => cases h

/-- C54: if the texts in the file system are finitely many, `compile` terminates: from some recursion depth on the
outcome is always the same one and no longer "depth exceeded". -/
theorem C54_terminates (fs : List Call → Bytes → FsEntry) (text : Bytes → Bytes)
    (includes files : List Bytes) (texts : List Bytes)
    (hT : ∀ calls path k content, fs calls path = .file k (.ok content) → content ∈ texts) :
    ∃ res bound, res ≠ .oof ∧ ∀ fuel, bound ≤ fuel → compileOn link fs text includes files fuel = res := by
  let impOf : Bytes → List Bytes := fun src => match Parse.parseFile src with
    | .ok (.ok f) => f.imports.map (·.value)
    | _ => []
  let U : List Bytes := files.filterMap (nameOf (defaultResolver parseFn (fs []) text includes)) ++
    (texts.flatMap (fun t => impOf (t.take 2147483647)) ++ googleNames.flatMap (fun n => impOf (text n)))
  have hdeps : ∀ n src fd, parseFn n src = .ok fd → fd.dependency = impOf src := by
    intro n src fd h
    obtain ⟨f, ts, hp⟩ := Gen.parsed_of_ok (name := n) (src := src) (fd := fd) (by rw [C27_parseFn, h])
    simp only [impOf, hp.run, hp.desc]; rfl
  have hU : ∀ h n f, n ∈ U → (defaultResolverOn parseFn fs text includes).openFile h n = .ok f →
      ∀ d ∈ f.descriptor.dependency, d ∈ U := by
    intro h n f _ hf d hd
    obtain ⟨src, _, hp, hsrc⟩ := default_ok hf
    rw [hdeps n src _ hp] at hd
    refine List.mem_append_right _ ?_
    rcases hsrc with ⟨hg, rfl⟩ | ⟨incl, k, bytes, _, _, rfl, hfs⟩
    · exact List.mem_append_right _ (List.mem_flatMap.2 ⟨n, hg, hd⟩)
    · exact List.mem_append_left _ (List.mem_flatMap.2 ⟨bytes, hT _ _ _ _ hfs, hd⟩)
  have hn : ∀ p ∈ files, ∀ s n b, resolveName (defaultResolverOn parseFn fs text includes) s p = some (n, b) → n ∈ U := by
    intro p hp s n b hr
    refine List.mem_append_left _ (List.mem_filterMap.2 ⟨p, hp, ?_⟩)
    unfold nameOf
    unfold resolveName defaultResolverOn at hr
    simp only [C18_resolve] at hr ⊢
    split at hr
    · rename_i m hm; cases hr; rw [hm]
    · rename_i hm
      rw [hm]
      split at hr
      · rename_i m hm'; cases hr; exact hm'
      · cases hr
  have hterm := fun fuel hfuel => openFiles_terminates (link := link) U hU fuel hfuel files hn
    { Compiler.init with includeSourceInfo := true, includeImports := true }
  have hsame : ∀ fuel, U.length ≤ fuel → compileOn link fs text includes files fuel =
      compileOn link fs text includes files U.length := by
    intro fuel hf
    obtain ⟨k, rfl⟩ := Nat.exists_eq_add_of_le hf
    simp only [compileOn, compile]
    rw [openFiles_fuel_mono U.length k files _ (hterm _ (Nat.le_refl _))]
  refine ⟨_, U.length, ?_, hsame⟩
  have h1 := hterm _ (Nat.le_refl _)
  unfold compileOn compile
  simp only
  generalize openFiles (defaultResolverOn parseFn fs text includes) link U.length _ files = x at h1
  obtain ⟨o, s⟩ := x
  cases o with
  | ok => simp only [finally']; split <;> exact nofun
  | err e => exact nofun
  | panic => exact nofun
  | oof => exact absurd rfl h1

/-- C54: if `compile` succeeds, its output lists each file once, each after everything that it imports; it has exactly
the files that the arguments name and those that they import, directly or not; each is what the linker makes of the
parsed file, given the files before it. -/
theorem C54_success (hlaw : link.Lawful) (fs : Bytes → FsEntry) (text : Bytes → Bytes) (includes files : List Bytes)
    (fuel : Nat) {out} (h : compileOn link (fun _ => fs) text includes files fuel = .ok out) :
    (fileNames out).Nodup ∧ TopoSorted out ∧
    (∀ p ∈ files, ∃ n, (defaultResolver parseFn fs text includes).nameOf p = some n ∧ n ∈ fileNames out) ∧
    (∀ n, n ∈ fileNames out ↔ ∃ p ∈ files, ∃ m, (defaultResolver parseFn fs text includes).nameOf p = some m ∧
      Reach (defaultResolver parseFn fs text includes) m n) ∧
    (∀ pre d post, out = pre ++ d :: post → ∃ f,
      Opens parseFn fs text includes d.getName (.ok f) ∧ f.descriptor.dependency.Nodup ∧ link pre f = .ok d) := by
  have hwn : (defaultResolver parseFn fs text includes).toResolver.WellNamed := default_wellNamed (fun _ => fs) text includes
  unfold compileOn compile at h
  have hx : ∃ s, openFiles (defaultResolver parseFn fs text includes).toResolver link fuel
      { Compiler.init with includeSourceInfo := true, includeImports := true } files = (.ok, s) ∧
      fileDescriptorSet s = some out := by
    change finally' fileDescriptorSet (openFiles (defaultResolver parseFn fs text includes).toResolver link fuel
      { Compiler.init with includeSourceInfo := true, includeImports := true } files) = .ok out at h
    generalize openFiles _ link fuel _ files = x at h
    obtain ⟨o, s⟩ := x
    cases o with
    | ok =>
      refine ⟨s, rfl, ?_⟩
      simp only [finally'] at h
      split at h
      · rename_i a ha; cases h; exact ha
      · cases h
    | err e => cases h
    | panic => cases h
    | oof => cases h
  obtain ⟨s, hx, hout⟩ := hx
  have hflags : s.includeImports = true ∧ s.includeSourceInfo = true := by
    have := openFiles_flags (R := (defaultResolver parseFn fs text includes).toResolver) (link := link) fuel files
      { Compiler.init with includeSourceInfo := true, includeImports := true }
    rw [hx] at this
    exact this
  obtain ⟨hi, hp, ⟨ns, hh, hns⟩, hheld⟩ := openFiles_char hwn hlaw fuel files _ s []
    (reachable_inv hwn hlaw (compile_start _ link)) (reachable_pinv hwn hlaw (compile_start _ link))
    (compile_history _ link) hx
  have hpool : out = s.pool := by
    rw [fileDescriptorSet_some hout, hflags.2, List.filter_eq_self.2]
    · show s.pool.map (fun f => f) = s.pool
      exact List.map_id' _
    · intro f _; simp [emitted, hflags.1]
  subst hpool
  have hmem : ∀ n, n ∈ fileNames s.pool ↔ ∃ p ∈ files, ∃ m,
      (defaultResolver parseFn fs text includes).nameOf p = some m ∧
      Reach (defaultResolver parseFn fs text includes) m n := by
    intro n
    rw [← hi.held_iff, hheld]
    simp [Compiler.init]
  refine ⟨hi.nodup, hi.topo, fun p hpf => ?_, hmem, fun pre d post hsplit => ?_⟩
  · obtain ⟨n, hn⟩ := openFiles_names (link := link) fuel files _ (by rw [hx]) p hpf
    exact ⟨n, hn, (hmem n).2 ⟨p, hpf, n, hn, .refl _⟩⟩
  · have hd : d.getName ∈ fileNames s.pool := by rw [hsplit, fileNames]; simp
    obtain ⟨m, hm⟩ := Option.isSome_iff_exists.1 ((hi.held_iff _).2 hd)
    obtain ⟨f, pre', d', post', h1, h2, _, h4, h5, h6⟩ := hp _ m hm
    obtain ⟨rfl, rfl⟩ := split_unique (·.getName) (hsplit.symm.trans h4) (by rw [← hsplit]; exact hi.nodup) h6.symm
    refine ⟨f, ?_, h2, h5⟩
    have := opens_default parseFn fs text includes d.getName
    rw [h1] at this
    exact this

/-- C54: if the names given and all their imports are found, form no cycle, list no import twice and link, and no file
given is shadowed by another one, `compile` succeeds. -/
theorem C54_accepts (hlaw : link.Lawful) (fs : Bytes → FsEntry) (text : Bytes → Bytes) (includes files : List Bytes)
    (U : List Bytes) (hg : ValidGraph (defaultResolver parseFn fs text includes) link U)
    (hn : ∀ p ∈ files, ∃ n ∈ U, (defaultResolver parseFn fs text includes).nameOf p = some n)
    (hsh : ∀ p ∈ files, ∀ n f a, (defaultResolver parseFn fs text includes).resolvePath p = some n →
      Opens parseFn fs text includes n (.ok f) → f.path = some a → Path.pathEq (Path.components a) (Path.components p) = true)
    (fuel : Nat) (hfuel : U.length ≤ fuel) :
    ∃ out, compileOn link (fun _ => fs) text includes files fuel = .ok out := by
  have hwn : (defaultResolver parseFn fs text includes).toResolver.WellNamed := default_wellNamed (fun _ => fs) text includes
  have key : ∀ (ps : List Bytes) (s : Compiler), (∀ p ∈ ps, p ∈ files) →
      Reachable (defaultResolver parseFn fs text includes).toResolver link s →
      (openFiles (defaultResolver parseFn fs text includes).toResolver link fuel s ps).1 = .ok := by
    intro ps
    induction ps with
    | nil => intro s _ _; rfl
    | cons p ps ih =>
      intro s hps hs
      obtain ⟨n, hnU, hname⟩ := hn p (hps p (.head _))
      have hr := resolveName_nameOf (r := defaultResolver parseFn fs text includes) s p
      rw [hname] at hr
      obtain ⟨x, hx, hx1⟩ := Option.map_eq_some_iff.1 hr
      obtain ⟨n', b⟩ := x
      simp only at hx1
      subst hx1
      have h1 := (C13_valid_accepted hwn hlaw hs U hg p n' b hx hnU (by
        rintro rfl f hf
        have hres := (resolveName_nameOf' hx).2 rfl
        unfold checkShadow
        cases hp : f.path with
        | none => rfl
        | some a =>
          have ho := opens_default parseFn fs text includes n'
          rw [hf] at ho
          simp only [hsh p (hps p (.head _)) n' f a hres ho hp, if_true]) fuel hfuel).1
      rw [openFiles]
      have h2 := Reachable.step (R := (defaultResolver parseFn fs text includes).toResolver) (link := link) fuel s (.openFile p) hs
      simp only [step] at h2
      cases hy : openFile (defaultResolver parseFn fs text includes).toResolver link fuel s p with
      | mk o s' =>
        rw [hy] at h1 h2
        simp only at h1
        subst h1
        exact ih s' (fun q hq => hps q (.tail _ hq)) h2
  have h1 := key files _ (fun _ h => h) (compile_start _ link)
  have h2 := Reachable.step (R := (defaultResolver parseFn fs text includes).toResolver) (link := link) fuel _
    (.openFiles files) (compile_start _ link)
  obtain ⟨-, out, ho⟩ := C12_no_panic hwn hlaw h2
  refine ⟨out, ?_⟩
  show finally' fileDescriptorSet (openFiles (defaultResolver parseFn fs text includes).toResolver link fuel
      { Compiler.init with includeSourceInfo := true, includeImports := true } files) = .ok out
  simp only [step] at ho
  generalize openFiles (defaultResolver parseFn fs text includes).toResolver link fuel
    { Compiler.init with includeSourceInfo := true, includeImports := true } files = y at h1 ho
  obtain ⟨o, s⟩ := y
  simp only at h1 ho
  subst h1
  simp only [finally', ho]

/-- C57: an error of `compile` is about one of the arguments, and what it says is the case (`OpenError` and `Justified`,
Spec/Errors.lean). -/
theorem C57_justified (hlaw : link.Lawful) (fs : Bytes → FsEntry) (text : Bytes → Bytes) (includes files : List Bytes)
    (fuel : Nat) {e} (h : compileOn link (fun _ => fs) text includes files fuel = .err e) :
    ∃ p ∈ files, OpenError (defaultResolver parseFn fs text includes) link p e := by
  have hwn : (defaultResolver parseFn fs text includes).toResolver.WellNamed := default_wellNamed (fun _ => fs) text includes
  refine openFiles_just hwn hlaw fuel files (s := { Compiler.init with includeSourceInfo := true, includeImports := true })
    (reachable_inv hwn hlaw (compile_start _ link)) (reachable_pinv hwn hlaw (compile_start _ link)) ?_
  change finally' fileDescriptorSet (openFiles (defaultResolver parseFn fs text includes).toResolver link fuel
      { Compiler.init with includeSourceInfo := true, includeImports := true } files) = .err e at h
  generalize openFiles _ link fuel _ files = x at h ⊢
  obtain ⟨o, s⟩ := x
  cases o with
  | ok => simp only [finally'] at h; split at h <;> cases h
  | err e' => cases h; rfl
  | panic => cases h
  | oof => cases h

/-- C57: what the default resolver says about a name is what the file system says (`Opens`, Spec/Opening.lean): the
answer is unique, and it is the resolver's. -/
theorem C57_opens (fs : Bytes → FsEntry) (text : Bytes → Bytes) (includes : List Bytes) (name : Bytes) (r : Except Error File) :
    (defaultResolver parseFn fs text includes).openFile name = r ↔ Opens parseFn fs text includes name r := by
  constructor
  · rintro rfl; exact opens_default _ _ _ _ _
  · intro h; exact (opens_default _ _ _ _ _).unique h

omit [FloatFmt] [LocSort] in
/-- C57: whatever the resolver (it may even change its answers), `open_file` never returns the bare "file not found"
with which resolvers say that they do not have a name: a missing file is reported as "not included" if it was asked for and
as "import not found" if it was imported. -/
theorem C57_wrapped (R : Resolver) (link : Linker) (fuel : Nat) (s : Compiler) (p : Bytes) (k : Bytes) :
    (openFile R link fuel s p).1 ≠ .err (.fileNotFound k) := by
  intro h
  have hc := openFile_cases (R := R) (link := link) fuel s p
  generalize openFile R link fuel s p = x at hc h
  cases hc with
  | noName => cases h
  | heldShadow name res m e' hn hm he =>
    cases h
    obtain ⟨_, _, _, _, h⟩ := shadowError_some he
    cases h
  | held => cases h
  | openErr name res e' hn hm he =>
    cases hx : e'.isFileNotFound with
    | true => rw [hx] at h; cases h
    | false => rw [hx] at h; cases h; cases hx
  | shadow name res f e' hn hm hf he =>
    cases h
    obtain ⟨_, _, _, _, h⟩ := shadowError_some he
    cases h
  | importFail name res f hn hm hf hsh hno =>
    have hloop := importLoop_rule (addImport R link fuel [name]) f (fun _ _ => True)
      f.descriptor.dependency 0 [] (s.addTrace [.resolve p, .openF name]) trivial (by simp)
    simp only at hloop
    rcases hloop with ⟨h', _⟩ | ⟨_, pre, d, post, s1, hds, hs1, _, h' | h'⟩
    · rw [imports, h'] at h; cases h
    · rw [imports, h'.2] at h
      obtain ⟨_, _, h1⟩ := dupOut_err h
      cases h1
    · rw [imports, h'.2.2] at h
      obtain ⟨e0, _, ⟨_, _, _, _, h1⟩ | ⟨h1, h2⟩⟩ := mapOut_err h
      · cases h1
      · exact h1 k h2.symm
  | finish name res f s2 hn hm hf hsh h2 =>
    obtain ⟨c, _, _, h1⟩ := finish_err h
    cases h1

omit [FloatFmt] [LocSort] in
/-- C57: the three classes of errors exclude each other; "not found" errors, "shadowed" and the like are in the
stated classes only. -/
theorem C57_classes (e : Error) :
    ¬ (e.isFileNotFound = true ∧ e.isParse = true) ∧ ¬ (e.isFileNotFound = true ∧ e.isIo = true) ∧
    ¬ (e.isParse = true ∧ e.isIo = true) := by
  cases e <;> simp [Error.isFileNotFound, Error.isParse, Error.isIo]

/-- C57: an error of the parse or input/output class tells of a file that was asked for or imported, directly or not: the
file system has it, but it cannot be read, is too large, is not text or does not parse (`Opens`); the error names the file. -/
theorem C57_parse_io (hlaw : link.Lawful) (fs : Bytes → FsEntry) (text : Bytes → Bytes) (includes files : List Bytes)
    (fuel : Nat) {e} (h : compileOn link (fun _ => fs) text includes files fuel = .err e)
    (hc : e.isParse = true ∨ e.isIo = true) :
    ∃ p ∈ files, ∃ m n, (defaultResolver parseFn fs text includes).nameOf p = some m ∧
      Reach (defaultResolver parseFn fs text includes) m n ∧ Opens parseFn fs text includes n (.error e) ∧ e.file? = some n := by
  have hfile : ∀ n, (defaultResolver parseFn fs text includes).openFile n = .error e →
      Opens parseFn fs text includes n (.error e) ∧ e.file? = some n := by
    intro n hn
    have ho := (C57_opens fs text includes n _).1 hn
    refine ⟨ho, ?_⟩
    have hparse : ∀ {src pe}, parseFn n src = .error pe → pe.file = n := by
      intro src pe hp
      exact ((C28_at_least_one_error n src).1 pe (by rw [C27_parseFn, hp])).2
    cases ho with
    | included _ _ hf =>
      cases hf <;> try rfl
      rename_i hp
      exact congrArg some (hparse hp)
    | bundledBad _ _ hp => exact congrArg some (hparse hp)
    | nowhere => rfl
  obtain ⟨p, hp, ho⟩ := C57_justified hlaw fs text includes files fuel h
  refine ⟨p, hp, ?_⟩
  cases ho with
  | noName | notThere | shadowed => simp [Error.isParse, Error.isIo] at hc
  | cannotOpen hn he _ => exact ⟨_, _, hn, .refl _, hfile _ he⟩
  | inside hn _ hj =>
    cases hj with
    | cannotOpen hr he _ => exact ⟨_, _, hn, hr, hfile _ he⟩
    | importNotFound | duplicateImport | cycle | check => simp [Error.isParse, Error.isIo] at hc

/-- C57: an error of the not-found class tells of a file that is missing: either one of the arguments, which has no name
below the include directories or a name that is in none of them and not bundled; or an import of a file that was asked
for or imported, directly or not, which is in none of them and not bundled. -/
theorem C57_not_found (hlaw : link.Lawful) (fs : Bytes → FsEntry) (text : Bytes → Bytes) (includes files : List Bytes)
    (fuel : Nat) {e} (h : compileOn link (fun _ => fs) text includes files fuel = .err e)
    (hc : e.isFileNotFound = true) :
    (∃ p ∈ files, e = .fileNotIncluded p ∧ ∀ n, (defaultResolver parseFn fs text includes).nameOf p = some n →
      n ∉ googleNames ∧ ∀ i ∈ includes, SaysNotFound fs (Path.includeTarget i n)) ∨
    (∃ p ∈ files, ∃ m n f d span, (defaultResolver parseFn fs text includes).nameOf p = some m ∧
      Reach (defaultResolver parseFn fs text includes) m n ∧ Opens parseFn fs text includes n (.ok f) ∧
      d ∈ f.descriptor.dependency ∧ e = .importNotFound span n (f.source.getD []) d ∧
      d ∉ googleNames ∧ ∀ i ∈ includes, SaysNotFound fs (Path.includeTarget i d)) := by
  have hnf : ∀ n e', (defaultResolver parseFn fs text includes).openFile n = .error e' → e'.isFileNotFound = true →
      e' = .fileNotFound n ∧ n ∉ googleNames ∧ ∀ i ∈ includes, SaysNotFound fs (Path.includeTarget i n) := by
    intro n e' he hx
    have ho := (C57_opens fs text includes n _).1 he
    cases ho with
    | included _ _ hf => exact absurd hx (by rw [hf.not_missing]; simp)
    | bundledBad => cases hx
    | nowhere ha hn => exact ⟨rfl, hn, ha⟩
  obtain ⟨p, hp, ho⟩ := C57_justified hlaw fs text includes files fuel h
  cases ho with
  | noName hn => exact .inl ⟨p, hp, rfl, fun n hn' => by rw [hn] at hn'; cases hn'⟩
  | notThere hn he hx =>
    refine .inl ⟨p, hp, rfl, fun n hn' => ?_⟩
    rw [hn] at hn'; cases hn'
    exact (hnf _ _ he hx).2
  | shadowed => cases hc
  | cannotOpen _ _ hx => rw [hx] at hc; cases hc
  | inside hn hf hj =>
    cases hj with
    | cannotOpen _ he hne => exact absurd (hnf _ _ he hc).1 (hne _)
    | @importNotFound n f pre d post k span hr hf' hd he hs =>
      right
      obtain ⟨h1, h2, h3⟩ := hnf _ _ he rfl
      cases h1
      have hnm : f.name = n := default_wellNamed (fun _ => fs) text includes [] n f hf'
      exact ⟨p, hp, _, n, f, d, span, hn, hr, (C57_opens _ _ _ _ _).1 hf', by rw [hd]; simp, by rw [hnm], h2, h3⟩
    | duplicateImport | cycle | check => cases hc

end

/-! ### Concrete cases -/
namespace CompileDemo
open Verif.Demo

/-- A linker that accepts a file if its imports are there, and leaves it unchanged. -/
def lk : Linker := fun pool f =>
  if f.descriptor.dependency.all (fun d => d ∈ fileNames pool) then .ok f.descriptor else .error 1

theorem lk_lawful : lk.Lawful := by
  constructor <;> intro pool f d h <;> unfold lk at h <;> split at h <;> cases h <;> rfl

/-- The files of the example of protox/src/lib.rs:116-127, and files with errors. -/
def table : List (Bytes × Bytes) :=
  [(b!"./bar.proto", b!"\n    message Bar { }\n"),
   (b!"./root.proto", b!"\n    import 'bar.proto';\n\n    message Foo {\n        optional Bar bar = 1;\n    }\n"),
   (b!"./bad.proto", b!"message {"),
   (b!"./usesbad.proto", b!"import \"bar.proto\"; import \"bad.proto\";"),
   (b!"./missing.proto", b!"import \"nowhere.proto\";"),
   (b!"./a.proto", b!"import \"b.proto\";"),
   (b!"./b.proto", b!"import \"a.proto\";")]

def fs : Bytes → FsEntry := fun p =>
  if p = b!"./locked.proto" then .err (.other 13)
  else match table.find? (fun e => e.1 == p) with
    | some (_, t) => .file t.length (.ok t)
    | none => .err .notFound

def run (files : List Bytes) : Res (List FileDescriptorProto) := compileOn lk (fun _ => fs) (fun _ => []) [b!"."] files 20

/-- The names of the files in the output. -/
def names : Res (List FileDescriptorProto) → Option (List Bytes)
  | .ok out => some (fileNames out)
  | _ => none

def error : Res (List FileDescriptorProto) → Option Error
  | .err e => some e
  | _ => none

/-- The locations of the files in the output. -/
def locs : Res (List FileDescriptorProto) → List (List (List Int × List Int))
  | .ok out => out.map fun fd => (fd.sourceCodeInfo.getD []).map fun l => (l.path, l.span)
  | _ => []

/-- The example of protox/src/lib.rs:116-175: files in order, with the locations listed there. -/
example : names (run [b!"root.proto"]) = some [b!"bar.proto", b!"root.proto"] ∧
    locs (run [b!"root.proto"]) =
      [[([], [1, 4, 19]), ([4, 0], [1, 4, 19]), ([4, 0, 1], [1, 12, 15])],
       [([], [1, 4, 5, 5]), ([3, 0], [1, 4, 23]), ([4, 0], [3, 4, 5, 5]), ([4, 0, 1], [3, 12, 15]),
        ([4, 0, 2, 0], [4, 8, 29]), ([4, 0, 2, 0, 1], [4, 21, 24]), ([4, 0, 2, 0, 3], [4, 27, 28]),
        ([4, 0, 2, 0, 4], [4, 8, 16]), ([4, 0, 2, 0, 6], [4, 17, 20])]] := by decide +kernel

/-- Parse and input/output errors, in an argument or an import. -/
example : (error (run [b!"root.proto", b!"bad.proto"])).map (fun e => (e.isParse, e.file?)) = some (true, some b!"bad.proto") ∧
    (error (run [b!"usesbad.proto"])).map (fun e => (e.isParse, e.file?)) = some (true, some b!"bad.proto") ∧
    error (run [b!"locked.proto"]) = some (.openFile b!"locked.proto" b!"./locked.proto" (.other 13)) := by decide +kernel

/-- Missing files. -/
example : error (run [b!"none.proto"]) = some (.fileNotIncluded b!"none.proto") ∧
    error (run [b!"../x.proto"]) = some (.fileNotIncluded b!"../x.proto") ∧
    error (run [b!"missing.proto"]) =
      some (.importNotFound (some (0, 23)) b!"missing.proto" b!"import \"nowhere.proto\";" b!"nowhere.proto") := by
  decide +kernel

/-- A cycle. -/
example : error (run [b!"a.proto"]) = some (.circularImport b!"a.proto" b!"a.proto -> b.proto -> a.proto") := by
  decide +kernel

/-- The hypothesis of C54_terminates is met. -/
example (calls : List Call) (path : Bytes) (k : Nat) (content : Bytes)
    (h : (fun _ => fs : List Call → Bytes → FsEntry) calls path = .file k (.ok content)) : content ∈ table.map (·.2) := by
  simp only [fs] at h
  split at h
  · cases h
  · split at h
    · rename_i hm
      cases h
      exact List.mem_map.2 ⟨_, List.mem_of_find?_eq_some hm, rfl⟩
    · cases h

abbrev res : PureResolver := defaultResolver parseFn fs (fun _ => []) [b!"."]

/-- The imports and the path of a file. -/
def look (n : Bytes) : Option (List Bytes × Option Bytes) := match res.openFile n with
  | .ok f => some (f.descriptor.dependency, f.path)
  | .error _ => none

theorem look_ok {n : Bytes} {x} (h : look n = some x) : ∃ f, res.openFile n = .ok f ∧ (f.descriptor.dependency, f.path) = x := by
  unfold look at h
  split at h
  · rename_i f hf; cases h; exact ⟨f, hf, rfl⟩
  · cases h

theorem look_bar : look b!"bar.proto" = some ([], some b!"./bar.proto") := by decide +kernel
theorem look_root : look b!"root.proto" = some ([b!"bar.proto"], some b!"./root.proto") := by decide +kernel

theorem edge_look {a b : Bytes} {x} (h : look a = some x) (he : Edge res a b) : b ∈ x.1 := by
  obtain ⟨f, hf, hd⟩ := he
  obtain ⟨g, hg, rfl⟩ := look_ok h
  rw [hf] at hg; cases hg; exact hd

/-- The hypotheses of C54_accepts are met by the example. -/
theorem example_valid : ValidGraph res lk [b!"bar.proto", b!"root.proto"] := by
  have hbar : ∀ b, ¬ Edge res b!"bar.proto" b := fun b h => by have := edge_look look_bar h; cases this
  refine ⟨?_, ?_, ?_⟩
  · intro a ha
    simp only [List.mem_cons, List.not_mem_nil, or_false] at ha
    rcases ha with rfl | rfl
    · obtain ⟨f, hf, hx⟩ := look_ok look_bar
      simp only [Prod.mk.injEq] at hx
      exact ⟨f, hf, by rw [hx.1]; simp, by rw [hx.1]; exact nofun⟩
    · obtain ⟨f, hf, hx⟩ := look_ok look_root
      simp only [Prod.mk.injEq] at hx
      exact ⟨f, hf, by rw [hx.1]; simp, by rw [hx.1]; simp⟩
  · rintro a ha ⟨b, he, hr⟩
    simp only [List.mem_cons, List.not_mem_nil, or_false] at ha
    rcases ha with rfl | rfl
    · exact hbar b he
    · have := edge_look look_root he
      simp only [List.mem_cons, List.not_mem_nil, or_false] at this
      subst this
      generalize hx : b!"root.proto" = x at hr
      cases hr with
      | refl => exact absurd hx (by decide)
      | step he' _ => exact hbar _ he'
  · intro a _ f _ pool _ _ hd
    refine ⟨f.descriptor, ?_⟩
    unfold lk
    rw [if_pos]
    simpa using hd

example : ∃ out, compileOn lk (fun _ => fs) (fun _ => []) [b!"."] [b!"root.proto"] 2 = .ok out := by
  refine C54_accepts lk_lawful fs _ _ _ _ example_valid ?_ ?_ 2 (by decide)
  · intro p hp
    simp only [List.mem_cons, List.not_mem_nil, or_false] at hp
    subst hp
    exact ⟨b!"root.proto", by decide, by decide +kernel⟩
  · intro p hp n f a hn ho hf
    simp only [List.mem_cons, List.not_mem_nil, or_false] at hp
    subst hp
    have hn' : res.resolvePath b!"root.proto" = some b!"root.proto" := by decide +kernel
    rw [hn'] at hn; cases hn
    have ho' := (C57_opens _ _ _ _ _).2 ho
    obtain ⟨g, hg, hx⟩ := look_ok look_root
    rw [ho'] at hg; cases hg
    simp only [Prod.mk.injEq] at hx
    rw [hx.2] at hf; cases hf
    decide +kernel

end CompileDemo
end Verif
