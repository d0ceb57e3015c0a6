import Verif.Model.Encode
import Verif.Props.Compile
import Verif.Props.Wire
import Verif.Proofs.Flags
import Verif.Proofs.Reload
/-!
C55: the encoded descriptor set.  C58: the command line tool.
-/
namespace Verif
open Verif.Spec
open Compiler PureResolver Wire
section
variable {link : Linker} {R : Resolver} {c : Codec}

theorem encodeFiles_entries (bs : List Bytes) : encodeFiles bs = (bs.map Entry.file).flatMap Entry.enc := by
  unfold encodeFiles
  rw [List.flatMap_map]
  rfl

theorem entry_files (bs : List Bytes) : Entry.files (bs.map Entry.file) = bs := by
  induction bs with
  | nil => rfl
  | cons b bs ih => simp only [List.map_cons, Entry.files, ih]

theorem mapM_some {α β : Type} {f : α → Option β} {g : α → β} : ∀ {l : List α}, (∀ a ∈ l, f a = some (g a)) →
    l.mapM f = some (l.map g)
  | [], _ => rfl
  | a :: l, h => by
    rw [List.mapM_cons, h a (.head _), mapM_some fun b hb => h b (.tail _ hb)]
    rfl

/-- Decoding the encoding of files that decode to `fds`. -/
theorem decode_encodeFiles {dec : Bytes → Option FileDescriptorProto} {bs : List Bytes} {fds : List FileDescriptorProto}
    (hl : ∀ b ∈ bs, b.length < 2 ^ 64) (hd : bs.mapM dec = some fds) :
    decodeSet dec (encodeFiles bs) = .ok (fds.zip (bs.map some)) [] := by
  rw [encodeFiles_entries]
  have h := C23_decode_exact dec (bs.map Entry.file) fds (by
    intro e he
    obtain ⟨b, hb, rfl⟩ := List.mem_map.1 he
    exact hl b hb) (by rw [entry_files]; exact hd)
  rw [entry_files] at h
  exact h

/-- C55: the bytes of `encode_file_descriptor_set` are a descriptor set of exactly the files that `file_descriptor_set`
returns, in this order, with or without the source info as asked for: `DescriptorSetFileResolver::decode` reads them back.
If one of the two panics, so does the other. -/
theorem C55_encodes (s : Compiler) (hc : ∀ d ∈ s.pool, c.Faithful d) :
    (∀ out, fileDescriptorSet s = some out → ∃ bytes files, encodeFileDescriptorSet c s = some bytes ∧
      decodeSet c.dec bytes = .ok files [] ∧ files.map (·.1) = out) ∧
    (fileDescriptorSet s = none → s.includeImports = false ∧ encodeFileDescriptorSet c s = none) := by
  have hzip : ∀ {bs : List Bytes} {fds : List FileDescriptorProto}, bs.mapM c.dec = some fds →
      (fds.zip (bs.map some)).map (·.1) = fds := by
    intro bs
    induction bs with
    | nil => intro fds h; simp at h; subst h; rfl
    | cons b bs ih =>
      intro fds h
      rw [List.mapM_cons] at h
      cases hb : c.dec b with
      | none => rw [hb] at h; cases h
      | some d =>
        cases hm : bs.mapM c.dec with
        | none => rw [hb, hm] at h; cases h
        | some ds =>
          rw [hb, hm] at h
          cases h
          simp [ih hm]
  constructor
  · intro out hout
    unfold fileDescriptorSet at hout
    cases hf : filterP s.emitted s.pool with
    | none => rw [hf] at hout; cases hout
    | some fs =>
      rw [hf] at hout
      simp only [Option.some.injEq] at hout
      unfold encodeFileDescriptorSet
      split
      · rename_i hflags
        rw [Bool.and_eq_true] at hflags
        have hfs : fs = s.pool := by
          rw [(filterP_some hf).2, List.filter_eq_self.2]
          intro f _; simp [emitted, hflags.1]
        have hm : (s.pool.map c.raw).mapM c.dec = some s.pool := by
          rw [List.mapM_map, mapM_some (f := c.dec ∘ c.raw) (g := fun d => d) (fun d hd => (hc d hd).raw_dec)]
          simp
        refine ⟨_, _, rfl, decode_encodeFiles ?_ hm, ?_⟩
        · intro b hb; obtain ⟨d, hd, rfl⟩ := List.mem_map.1 hb; exact (hc d hd).raw_len
        · rw [hzip hm, ← hout, hfs, hflags.2]
          simp
      · rw [hf]
        simp only
        let g : FileDescriptorProto → Bytes := fun d => (c.redact s.includeSourceInfo (c.raw d)).getD []
        have hsub : ∀ d ∈ fs, d ∈ s.pool := by
          intro d hd
          rw [(filterP_some hf).2] at hd
          exact (List.mem_filter.1 hd).1
        have hg : ∀ d ∈ fs, c.redact s.includeSourceInfo (c.raw d) = some (g d) ∧
            c.dec (g d) = some (if s.includeSourceInfo then d else { d with sourceCodeInfo := none }) ∧
            (g d).length < 2 ^ 64 := by
          intro d hd
          obtain ⟨b, h1, h2, h3⟩ := (hc d (hsub d hd)).redact_dec s.includeSourceInfo
          have : g d = b := by simp only [g, h1, Option.getD_some]
          rw [this]; exact ⟨h1, h2, h3⟩
        rw [mapM_some (g := g) (fun d hd => (hg d hd).1)]
        have hm : (fs.map g).mapM c.dec = some out := by
          rw [List.mapM_map, mapM_some (f := c.dec ∘ g) (g := fun d => if s.includeSourceInfo then d else { d with sourceCodeInfo := none })
            (fun d hd => (hg d hd).2.1), hout]
        refine ⟨_, _, rfl, decode_encodeFiles ?_ hm, hzip hm⟩
        intro b hb; obtain ⟨d, hd, rfl⟩ := List.mem_map.1 hb; exact (hg d hd).2.2
  · intro hn
    unfold fileDescriptorSet at hn
    cases hf : filterP s.emitted s.pool with
    | some fs => rw [hf] at hn; cases hn
    | none =>
      have hi : s.includeImports = false := by
        cases hi : s.includeImports with
        | false => rfl
        | true =>
          exfalso
          refine filterP_total (p := s.emitted) (l := s.pool) ?_ hf
          intro f _
          simp [emitted, hi]
      refine ⟨hi, ?_⟩
      unfold encodeFileDescriptorSet
      rw [hi, hf]
      rfl

end

section
variable [FloatFmt] [LocSort] {link : Linker} {c : Codec}

/-- The compiler state behind a successful `compile`. -/
theorem compile_ok_state (hlaw : link.Lawful) {fs : Bytes → FsEntry} {text : Bytes → Bytes} {includes files : List Bytes}
    {fuel : Nat} {out} (h : compileOn link (fun _ => fs) text includes files fuel = .ok out) :
    ∃ s ns, openFiles (defaultResolver parseFn fs text includes).toResolver link fuel
        { Compiler.init with includeSourceInfo := true, includeImports := true } files = (.ok, s) ∧
      s.pool = out ∧ Inv s ∧ History (defaultResolver parseFn fs text includes).toResolver link s ns ∧
      ∀ n, n ∈ ns ↔ ∃ p ∈ files, (defaultResolver parseFn fs text includes).nameOf p = some n := by
  have hwn : (defaultResolver parseFn fs text includes).toResolver.WellNamed := default_wellNamed (fun _ => fs) text includes
  unfold compileOn compile at h
  change finally' fileDescriptorSet (openFiles (defaultResolver parseFn fs text includes).toResolver link fuel
      { Compiler.init with includeSourceInfo := true, includeImports := true } files) = .ok out at h
  cases hx : openFiles (defaultResolver parseFn fs text includes).toResolver link fuel
      { Compiler.init with includeSourceInfo := true, includeImports := true } files with
  | mk o s =>
    rw [hx] at h
    cases o with
    | err e => cases h
    | panic => cases h
    | oof => cases h
    | ok =>
      have hout : fileDescriptorSet s = some out := by
        simp only [finally'] at h
        split at h
        · rename_i a ha; cases h; exact ha
        · cases h
      have hflags := openFiles_flags (R := (defaultResolver parseFn fs text includes).toResolver) (link := link) fuel files
        { Compiler.init with includeSourceInfo := true, includeImports := true }
      rw [hx] at hflags
      simp only at hflags
      obtain ⟨hi, -, ⟨ns, hh, hns⟩, -⟩ := openFiles_char hwn hlaw fuel files _ s []
        (reachable_inv hwn hlaw (compile_start _ link)) (reachable_pinv hwn hlaw (compile_start _ link))
        (compile_history _ link) hx
      refine ⟨s, ns, rfl, ?_, hi, hh, by simpa using hns⟩
      rw [fileDescriptorSet_some hout, hflags.2, List.filter_eq_self.2]
      · show s.pool = s.pool.map (fun f => f)
        exact (List.map_id' _).symm
      · intro f _; simp [emitted, hflags.1]

/-- The tool on a file system that may change while it runs. -/
abbrev toolOn (link : Linker) (fs : List Call → Bytes → FsEntry) (text : Bytes → Bytes) (c : Codec) (fuel : Nat) (args : Args) : Tool :=
  tool (defaultResolverOn parseFn fs text args.includes) link c fuel args

/-- What is written of a file: all of it, or all but the source info. -/
def written (keep : Bool) (d : FileDescriptorProto) : FileDescriptorProto :=
  if keep then d else { d with sourceCodeInfo := none }

open Classical in
/-- C58: the tool fails with the error that `compile` would return for the same files and include paths. If `compile`
would succeed, the tool writes exactly one file, if and where it was told to: a descriptor set which decodes to the files
of `compile`'s output in the same order, all of them with `--include_imports` and else only the files named on the command
line, with their source info if this was asked for, and otherwise unchanged. It never panics. -/
theorem C58_tool (hlaw : link.Lawful) (fs : Bytes → FsEntry) (text : Bytes → Bytes) (args : Args) (fuel : Nat)
    (hc : ∀ full, compileOn link (fun _ => fs) text args.includes args.files fuel = .ok full → ∀ d ∈ full, c.Faithful d) :
    match compileOn link (fun _ => fs) text args.includes args.files fuel with
    | .ok full => match args.output with
      | none => toolOn link (fun _ => fs) text c fuel args = .done
      | some path => ∃ bytes files, toolOn link (fun _ => fs) text c fuel args = .write path bytes ∧
        decodeSet c.dec bytes = .ok files [] ∧
        files.map (·.1) = (full.filter fun d => args.includeImports ||
          decide (∃ p ∈ args.files, (defaultResolver parseFn fs text args.includes).nameOf p = some d.getName)).map
            (written args.includeSourceInfo)
    | .err e => toolOn link (fun _ => fs) text c fuel args = .fail e
    | .panic => False
    | .oof => toolOn link (fun _ => fs) text c fuel args = .oof := by
  have hnp := C54_no_panic hlaw (fun _ => fs) text args.includes args.files fuel
  have ht : toolOn link (fun _ => fs) text c fuel args =
      match openFiles (defaultResolver parseFn fs text args.includes).toResolver link fuel
        { Compiler.init with includeSourceInfo := true, includeImports := true } args.files with
      | (.ok, s) => match args.output with
        | none => .done
        | some path => match encodeFileDescriptorSet c (s.withFlags args.includeImports args.includeSourceInfo) with
          | none => .panic
          | some bytes => .write path bytes
      | (.err e, _) => .fail e
      | (.panic, _) => .panic
      | (.oof, _) => .oof := by
    have h := openFiles_flagged (R := (defaultResolver parseFn fs text args.includes).toResolver) (link := link)
      args.includeImports args.includeSourceInfo fuel args.files
      { Compiler.init with includeSourceInfo := true, includeImports := true }
    unfold toolOn tool
    change (match openFiles (defaultResolver parseFn fs text args.includes).toResolver link fuel
      (Compiler.withFlags args.includeImports args.includeSourceInfo
        { Compiler.init with includeSourceInfo := true, includeImports := true }) args.files with
      | (.ok, s) => match args.output with
        | none => Tool.done
        | some path => match encodeFileDescriptorSet c s with
          | none => .panic
          | some bytes => .write path bytes
      | (.err e, _) => .fail e
      | (.panic, _) => .panic
      | (.oof, _) => .oof) = _
    rw [h]
    generalize openFiles _ link fuel _ args.files = x
    obtain ⟨o, s⟩ := x
    cases o <;> rfl
  cases hx : compileOn link (fun _ => fs) text args.includes args.files fuel with
  | panic => exact hnp hx
  | err e =>
    simp only
    rw [ht]
    unfold compileOn compile at hx
    change finally' fileDescriptorSet (openFiles (defaultResolver parseFn fs text args.includes).toResolver link fuel
      { Compiler.init with includeSourceInfo := true, includeImports := true } args.files) = .err e at hx
    generalize openFiles _ link fuel _ args.files = x at hx
    obtain ⟨o, s⟩ := x
    cases o with
    | ok => simp only [finally'] at hx; split at hx <;> cases hx
    | err e' => cases hx; rfl
    | panic => cases hx
    | oof => cases hx
  | oof =>
    simp only
    rw [ht]
    unfold compileOn compile at hx
    change finally' fileDescriptorSet (openFiles (defaultResolver parseFn fs text args.includes).toResolver link fuel
      { Compiler.init with includeSourceInfo := true, includeImports := true } args.files) = .oof at hx
    generalize openFiles _ link fuel _ args.files = x at hx
    obtain ⟨o, s⟩ := x
    cases o with
    | ok => simp only [finally'] at hx; split at hx <;> cases hx
    | err e' => cases hx
    | panic => cases hx
    | oof => rfl
  | ok full =>
    simp only
    obtain ⟨s, ns, hs, hpool, hi, hh, hns⟩ := compile_ok_state hlaw hx
    rw [ht, hs]
    cases args.output with
    | none => rfl
    | some path =>
      simp only
      have hem : ∀ d ∈ s.pool, (s.withFlags args.includeImports args.includeSourceInfo).emitted d = some (args.includeImports ||
          decide (∃ p ∈ args.files, (defaultResolver parseFn fs text args.includes).nameOf p = some d.getName)) := by
        intro d hd
        unfold emitted
        have h1 : (s.withFlags args.includeImports args.includeSourceInfo).includeImports = args.includeImports := rfl
        rw [h1]
        cases args.includeImports with
        | true => rfl
        | false =>
          obtain ⟨m, hm⟩ := Option.isSome_iff_exists.1 ((hi.held_iff _).2 (List.mem_map_of_mem (f := (·.getName)) hd))
          have hm' : (s.withFlags false args.includeSourceInfo).files d.getName = some m := hm
          rw [hm']
          have hiff := (C04_is_import_iff hh).1 _ _ hm
          rw [hns] at hiff
          simp only [Bool.false_eq_true, if_false, Bool.false_or, Option.some.injEq]
          cases hb : m.isImport with
          | false => simp only [Bool.not_false]; exact (decide_eq_true (hiff.1 hb)).symm
          | true =>
            simp only [Bool.not_true]
            refine (decide_eq_false fun h => ?_).symm
            rw [hiff.2 h] at hb
            cases hb
      have hf : ∃ out, fileDescriptorSet (s.withFlags args.includeImports args.includeSourceInfo) = some out := by
        unfold fileDescriptorSet
        cases hf : filterP (s.withFlags args.includeImports args.includeSourceInfo).emitted
            (s.withFlags args.includeImports args.includeSourceInfo).pool with
        | some fs => exact ⟨_, rfl⟩
        | none =>
          exfalso
          refine filterP_total ?_ hf
          intro d hd
          rw [hem d hd]
          exact nofun
      obtain ⟨out, hout⟩ := hf
      obtain ⟨bytes, dfs, h1, h2, h3⟩ := (C55_encodes (c := c) (s.withFlags args.includeImports args.includeSourceInfo) (by
        intro d hd; exact hc full hx d (hpool ▸ hd))).1 out hout
      refine ⟨bytes, dfs, by rw [h1], h2, ?_⟩
      rw [h3, fileDescriptorSet_some hout]
      show (s.pool.filter _).map (written args.includeSourceInfo) = _
      rw [hpool] at hem ⊢
      congr 1
      apply List.filter_congr
      intro d hd
      have : (s.withFlags args.includeImports args.includeSourceInfo).emitted d = _ := hem d hd
      rw [this]
      cases (args.includeImports || _) <;> rfl

/-- C58: with `--include_imports` the descriptor set that the tool writes is self-contained: a compiler which has nothing
but this set (`DescriptorSetFileResolver`) can compile any of the files in it, provided that the descriptor pool accepts
the files again once their imports are there. It opens these files and those that they import. -/
theorem C58_self_contained (hlaw : link.Lawful) (fs : Bytes → FsEntry) (text : Bytes → Bytes) (args : Args) (fuel : Nat)
    (himp : args.includeImports = true)
    (hc : ∀ full, compileOn link (fun _ => fs) text args.includes args.files fuel = .ok full → ∀ d ∈ full, c.Faithful d)
    (hlink : ∀ full, compileOn link (fun _ => fs) text args.includes args.files fuel = .ok full → ∀ d ∈ full, ∀ enc pool,
      TopoSorted pool → d.getName ∉ fileNames pool → (∀ e ∈ d.dependency, e ∈ fileNames pool) →
      ∃ d', link pool ⟨none, none, written args.includeSourceInfo d, enc⟩ = .ok d')
    {path bytes : Bytes} (hw : toolOn link (fun _ => fs) text c fuel args = .write path bytes) :
    ∃ set, decodeSet c.dec bytes = .ok set [] ∧
      ∀ ps, (∀ p ∈ ps, p ∈ fileNames (set.map (·.1))) → ∀ fuel', set.length ≤ fuel' →
        ∃ out, compile (setResolver set).toResolver link fuel' ps = .ok out ∧
          ∀ n, n ∈ fileNames out ↔ ∃ p ∈ ps, Reach (setResolver set) p n := by
  have ht := C58_tool (c := c) hlaw fs text args fuel hc
  cases hx : compileOn link (fun _ => fs) text args.includes args.files fuel with
  | panic => rw [hx] at ht; exact ht.elim
  | err e => rw [hx] at ht; simp only at ht; rw [ht] at hw; cases hw
  | oof => rw [hx] at ht; simp only at ht; rw [ht] at hw; cases hw
  | ok full =>
    rw [hx] at ht
    simp only at ht
    cases ho : args.output with
    | none => rw [ho] at ht; simp only at ht; rw [ht] at hw; cases hw
    | some path' =>
      rw [ho] at ht
      simp only at ht
      obtain ⟨bytes', set, h1, h2, h3⟩ := ht
      rw [h1] at hw
      cases hw
      refine ⟨set, h2, ?_⟩
      have hall : set.map (·.1) = full.map (written args.includeSourceInfo) := by
        rw [h3, List.filter_eq_self.2]
        intro d _
        rw [himp]; rfl
      have hname : ∀ d, (written args.includeSourceInfo d).getName = d.getName := by
        intro d; unfold written; split <;> rfl
      have hdeps : ∀ d, (written args.includeSourceInfo d).dependency = d.dependency := by
        intro d; unfold written; split <;> rfl
      have hfn : ∀ l : List FileDescriptorProto, fileNames (l.map (written args.includeSourceInfo)) = fileNames l := by
        intro l
        unfold fileNames
        rw [List.map_map]
        exact List.map_congr_left fun d _ => hname d
      obtain ⟨hnd, htopo, -, -, hmade⟩ := C54_success hlaw fs text args.includes args.files fuel hx
      have hcan := C59_names hlaw fs text args.includes args.files fuel hx
      have hmem : ∀ x ∈ set, ∃ d ∈ full, x.1 = written args.includeSourceInfo d := by
        intro x hx'
        have : x.1 ∈ full.map (written args.includeSourceInfo) := hall ▸ List.mem_map_of_mem hx'
        obtain ⟨d, hd, he⟩ := List.mem_map.1 this
        exact ⟨d, hd, he.symm⟩
      have hg : ValidGraph (setResolver set) link (fileNames (set.map (·.1))) := by
        refine set_valid ?_ ?_ ?_ ?_
        · rw [hall, hfn]; exact hnd
        · intro pre d post hsplit dep hdep
          rw [hall] at hsplit
          obtain ⟨l1, l2, rfl, rfl, h6⟩ := List.map_eq_append_iff.1 hsplit
          obtain ⟨a, l3, rfl, rfl, rfl⟩ := List.map_eq_cons_iff.1 h6
          rw [hfn]
          rw [hdeps] at hdep
          exact htopo _ _ _ rfl dep hdep
        · intro x hx'
          obtain ⟨d, hd, he⟩ := hmem x hx'
          rw [he, hdeps]
          obtain ⟨pre, post, hs⟩ := List.append_of_mem hd
          obtain ⟨f, _, hf, hl⟩ := hmade pre d post hs
          rw [hlaw.deps_eq _ _ _ hl]
          exact hf
        · intro x hx' pool h1 h2 h3
          obtain ⟨d, hd, he⟩ := hmem x hx'
          rw [he, hname] at h2
          rw [he, hdeps] at h3
          rw [he]
          exact hlink full hx d hd x.2 pool h1 h2 h3
      intro ps hps fuel' hfuel
      have hnm : ∀ p ∈ ps, (setResolver set).nameOf p = some p := by
        intro p hp
        have hp' := hps p hp
        rw [hall, hfn] at hp'
        show pathToFileName p = some p
        exact (hcan p hp').2
      obtain ⟨out, hout, hiff⟩ := compile_pure (set_wellNamed set) hlaw _ hg ps (fun _ _ => rfl)
        (fun p hp => ⟨p, hps p hp, hnm p hp⟩) fuel' (by simpa [fileNames] using hfuel)
      refine ⟨out, hout, fun n => ?_⟩
      rw [hiff]
      constructor
      · rintro ⟨p, hp, m, hm, hr⟩
        rw [hnm p hp] at hm
        cases hm
        exact ⟨p, hp, hr⟩
      · rintro ⟨p, hp, hr⟩
        exact ⟨p, hp, p, hnm p hp, hr⟩

/-- C58: the tool does not panic, even if the file system changes while it runs. -/
theorem C58_no_panic (hlaw : link.Lawful) (fs : List Call → Bytes → FsEntry) (text : Bytes → Bytes) (args : Args) (fuel : Nat)
    (hc : ∀ full, compileOn link fs text args.includes args.files fuel = .ok full → ∀ d ∈ full, c.Faithful d) :
    toolOn link fs text c fuel args ≠ .panic := by
  have hwn := default_wellNamed fs text args.includes
  have hsp := default_spansOk fs text args.includes
  have hstart : Reachable (defaultResolverOn parseFn fs text args.includes) link
      { Compiler.init with includeImports := args.includeImports, includeSourceInfo := args.includeSourceInfo } := by
    have h1 := Reachable.step (R := defaultResolverOn parseFn fs text args.includes) (link := link) 0 .init
      (.setIncludeSourceInfo args.includeSourceInfo) .init
    exact .step 0 _ (.setIncludeImports args.includeImports) h1
  have h1 := openFiles_ne_panic (link := link) hsp fuel args.files
    { Compiler.init with includeImports := args.includeImports, includeSourceInfo := args.includeSourceInfo }
  have h2 := Reachable.step fuel _ (.openFiles args.files) hstart
  simp only [step] at h2
  have h3 := openFiles_flagged (R := defaultResolverOn parseFn fs text args.includes) (link := link)
    true true fuel args.files
    { Compiler.init with includeImports := args.includeImports, includeSourceInfo := args.includeSourceInfo }
  intro h
  unfold toolOn tool at h
  simp only at h
  cases hx : openFiles (defaultResolverOn parseFn fs text args.includes) link fuel
    { Compiler.init with includeImports := args.includeImports, includeSourceInfo := args.includeSourceInfo } args.files with
  | mk o s =>
    rw [hx] at h h1 h2 h3
    cases o with
    | err e => cases h
    | oof => cases h
    | panic => exact h1 rfl
    | ok =>
      simp only at h
      cases ho : args.output with
      | none => rw [ho] at h; cases h
      | some path =>
        rw [ho] at h
        simp only at h
        obtain ⟨-, out, hout⟩ := C12_no_panic hwn hlaw h2
        have hfull : compileOn link fs text args.includes args.files fuel = .ok s.pool := by
          show finally' fileDescriptorSet (openFiles (defaultResolverOn parseFn fs text args.includes) link fuel
            (Compiler.withFlags true true
              { Compiler.init with includeImports := args.includeImports, includeSourceInfo := args.includeSourceInfo })
            args.files) = _
          rw [h3]
          have hem : ∀ d ∈ s.pool, (s.withFlags true true).emitted d = some true := fun _ _ => rfl
          have : fileDescriptorSet (s.withFlags true true) = some s.pool := by
            unfold fileDescriptorSet
            cases hf : filterP (s.withFlags true true).emitted (s.withFlags true true).pool with
            | none => exact absurd hf (filterP_total (fun d hd => by rw [hem d hd]; exact nofun))
            | some fs =>
              have hfs := (filterP_some hf).2
              rw [List.filter_eq_self.2] at hfs
              · rw [hfs]; exact congrArg some (List.map_id' _)
              · intro d hd; rw [hem d hd]; rfl
          simp only [flagged, finally', this]
        obtain ⟨bytes, _, h4, _⟩ := (C55_encodes (c := c) s (hc _ hfull)).1 out hout
        rw [h4] at h
        cases h

end
namespace ToolDemo
open CompileDemo

/-- The files of the example of protox/src/lib.rs:116-175. -/
def full : List FileDescriptorProto := match run [b!"root.proto"] with
  | .ok out => out
  | _ => []

theorem run_full : run [b!"root.proto"] = .ok full := by
  have h : names (run [b!"root.proto"]) ≠ none := by decide +kernel
  unfold full
  cases hx : run [b!"root.proto"] with
  | ok out => rfl
  | err e => rw [hx] at h; exact absurd rfl h
  | panic => rw [hx] at h; exact absurd rfl h
  | oof => rw [hx] at h; exact absurd rfl h

/-- A codec for these files: their names, and whether there is source info. -/
def codec : Codec where
  raw d := (if d.sourceCodeInfo.isSome then 1 else 0) :: d.getName
  redact keep b := some (if keep then b else 0 :: b.drop 1)
  dec b := (full.find? (fun d => d.getName == b.drop 1)).map (written (b.head? == some 1))

theorem full_names : fileNames full = [b!"bar.proto", b!"root.proto"] := by decide +kernel
theorem full_info : full.map (·.sourceCodeInfo.isSome) = [true, true] := by decide +kernel

/-- The codec meets the hypothesis of C55 and C58 on the files of the example. -/
theorem codec_faithful : ∀ d ∈ full, codec.Faithful d := by
  intro d hd
  have hs : d.sourceCodeInfo.isSome = true := by
    have : d.sourceCodeInfo.isSome ∈ full.map (·.sourceCodeInfo.isSome) := List.mem_map_of_mem hd
    rw [full_info] at this
    simpa using this
  have hlen : d.getName.length ≤ 10 := by
    have : d.getName ∈ fileNames full := List.mem_map_of_mem (f := (·.getName)) hd
    rw [full_names] at this
    simp only [List.mem_cons, List.not_mem_nil, or_false] at this
    rcases this with h | h <;> rw [h] <;> decide
  have hfind : full.find? (fun x => x.getName == d.getName) = some d := by
    have hnd : (fileNames full).Nodup := by rw [full_names]; decide
    obtain ⟨pre, post, h⟩ := List.append_of_mem hd
    rw [h] at hnd ⊢
    simp only [fileNames, List.map_append, List.map_cons] at hnd
    rw [List.find?_append, List.find?_eq_none.2]
    · simp
    · intro x hx
      simp only [beq_iff_eq]
      intro he
      exact (List.nodup_append.1 hnd).2.2 _ (List.mem_map_of_mem (f := (·.getName)) hx) _ (.head _) he
  have hraw : codec.raw d = 1 :: d.getName := by simp only [codec, hs, if_true]
  refine ⟨?_, ?_, ?_⟩
  · rw [hraw]
    show (full.find? (fun x => x.getName == d.getName)).map (written true) = some d
    rw [hfind]; rfl
  · intro keep
    rw [hraw]
    cases keep with
    | true =>
      refine ⟨1 :: d.getName, rfl, ?_, ?_⟩
      · show (full.find? (fun x => x.getName == d.getName)).map (written true) = some d
        rw [hfind]; rfl
      · simp only [List.length_cons]; omega
    | false =>
      refine ⟨0 :: d.getName, rfl, ?_, ?_⟩
      · show (full.find? (fun x => x.getName == d.getName)).map (written false) = _
        rw [hfind]; rfl
      · simp only [List.length_cons]; omega
  · rw [hraw]; simp only [List.length_cons]; omega

/-- `protox root.proto -o out.bin`, perhaps with flags. -/
def args (imports info : Bool) : Args := ⟨[b!"root.proto"], [b!"."], some b!"out.bin", info, imports⟩

/-- The hypotheses of C58 are met by the example. -/
theorem args_faithful (i j : Bool) : ∀ out, compileOn lk (fun _ => fs) (fun _ => []) (args i j).includes (args i j).files 20 = .ok out →
    ∀ d ∈ out, codec.Faithful d := by
  intro out h
  have := run_full.symm.trans (show run [b!"root.proto"] = .ok out from h)
  cases this
  exact codec_faithful

/-- The path, and names and presence of source info of the files written. -/
def wrote : Tool → Option (Bytes × List (Bytes × Bool))
  | .write path bytes => match decodeSet codec.dec bytes with
    | .ok set _ => some (path, set.map fun x => (x.1.getName, x.1.sourceCodeInfo.isSome))
    | _ => none
  | _ => none

example :
    wrote (toolOn lk (fun _ => fs) (fun _ => []) codec 20 (args true true)) =
      some (b!"out.bin", [(b!"bar.proto", true), (b!"root.proto", true)]) ∧
    wrote (toolOn lk (fun _ => fs) (fun _ => []) codec 20 (args true false)) =
      some (b!"out.bin", [(b!"bar.proto", false), (b!"root.proto", false)]) ∧
    wrote (toolOn lk (fun _ => fs) (fun _ => []) codec 20 (args false true)) =
      some (b!"out.bin", [(b!"root.proto", true)]) ∧
    wrote (toolOn lk (fun _ => fs) (fun _ => []) codec 20 (args false false)) =
      some (b!"out.bin", [(b!"root.proto", false)]) := by
  refine ⟨?_, ?_, ?_, ?_⟩ <;> decide +kernel

/-- No output path: nothing is written; an error: nothing is written. -/
example :
    toolOn lk (fun _ => fs) (fun _ => []) codec 20 ⟨[b!"root.proto"], [b!"."], none, true, true⟩ = .done ∧
    toolOn lk (fun _ => fs) (fun _ => []) codec 20 ⟨[b!"root.proto", b!"none.proto"], [b!"."], some b!"out.bin", true, true⟩ =
      .fail (.fileNotIncluded b!"none.proto") := by decide +kernel

/-- C58_self_contained applies to the example. -/
example {path bytes : Bytes} (h : toolOn lk (fun _ => fs) (fun _ => []) codec 20 (args true false) = .write path bytes) :
    ∃ set, decodeSet codec.dec bytes = .ok set [] ∧
      ∀ ps, (∀ p ∈ ps, p ∈ fileNames (set.map (·.1))) → ∀ fuel', set.length ≤ fuel' →
        ∃ out, compile (setResolver set).toResolver lk fuel' ps = .ok out ∧
          ∀ n, n ∈ fileNames out ↔ ∃ p ∈ ps, Reach (setResolver set) p n := by
  refine C58_self_contained lk_lawful fs _ (args true false) 20 rfl (args_faithful true false) ?_ h
  intro out _ d _ enc pool _ _ hdep
  refine ⟨written false d, ?_⟩
  unfold lk
  rw [if_pos]
  · rfl
  · show d.dependency.all (fun e => decide (e ∈ fileNames pool)) = true
    simpa using hdep

end ToolDemo
end Verif
