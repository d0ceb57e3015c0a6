import Verif.Proofs.Order
import Verif.Proofs.Reload
import Verif.Props.Encode
/-!
C66: the output of `compile` is the depth-first walk over the imports (`Builds`, Spec/Order.lean).
-/
namespace Verif
open Verif.Spec
open Compiler PureResolver

section
variable {link : Linker}

theorem start_sound {r : PureResolver} (hwn : r.toResolver.WellNamed) (hlaw : link.Lawful) :
    Sound r link { Compiler.init with includeSourceInfo := true, includeImports := true } :=
  ⟨reachable_inv hwn hlaw (compile_start _ link), reachable_pinv hwn hlaw (compile_start _ link)⟩

/-- With both flags on, the descriptor set is everything there is. -/
theorem set_all {s : Compiler} (h1 : s.includeImports = true) (h2 : s.includeSourceInfo = true) :
    fileDescriptorSet s = some s.pool := by
  unfold fileDescriptorSet
  have hem : ∀ d ∈ s.pool, s.emitted d = some true := by intro d _; simp [emitted, h1]
  cases hf : filterP s.emitted s.pool with
  | none => exact absurd hf (filterP_total (fun d hd => by rw [hem d hd]; exact nofun))
  | some fs =>
    have hfs := (filterP_some hf).2
    rw [List.filter_eq_self.2] at hfs
    · rw [hfs, h2]
      exact congrArg some (List.map_id' _)
    · intro d hd; rw [hem d hd]; rfl

/-- `compile` is opening the files. -/
theorem compile_eq {r : PureResolver} {fuel : Nat} {ps : List Bytes} {out : List FileDescriptorProto} :
    compile r.toResolver link fuel ps = .ok out ↔ ∃ s, openFiles r.toResolver link fuel
      { Compiler.init with includeSourceInfo := true, includeImports := true } ps = (.ok, s) ∧ s.pool = out := by
  have hc : compile r.toResolver link fuel ps = finally' fileDescriptorSet (openFiles r.toResolver link fuel
    { Compiler.init with includeSourceInfo := true, includeImports := true } ps) := rfl
  have hflags := openFiles_flags (R := r.toResolver) (link := link) fuel ps
    { Compiler.init with includeSourceInfo := true, includeImports := true }
  rw [hc]
  generalize openFiles r.toResolver link fuel
    { Compiler.init with includeSourceInfo := true, includeImports := true } ps = x at hflags
  obtain ⟨o, s⟩ := x
  cases o with
  | ok =>
    simp only [finally', set_all hflags.1 hflags.2]
    constructor
    · intro h; cases h; exact ⟨s, rfl, rfl⟩
    · rintro ⟨s', h, rfl⟩; cases h; rfl
  | err e => exact ⟨nofun, nofun⟩
  | panic => exact ⟨nofun, nofun⟩
  | oof => exact ⟨nofun, nofun⟩

/-- A walk in which every name is there already. -/
theorem Builds.all_held {opens : Bytes → File → Prop} {pool : List FileDescriptorProto} :
    ∀ ns : List Bytes, (∀ n ∈ ns, n ∈ fileNames pool) → Builds opens link pool ns pool
  | [], _ => .done
  | n :: ns, h => .held (h n (.head _)) (Builds.all_held ns fun m hm => h m (.tail _ hm))

/-- The names of a walk do not depend on the linker. -/
theorem Builds.names {opens : Bytes → File → Prop} {link' : Linker} (hu : ∀ n f g, opens n f → opens n g → f = g)
    (hlaw : link.Lawful) (hlaw' : link'.Lawful)
    {p q : List FileDescriptorProto} {ns : List Bytes} (h : Builds opens link p ns q) :
    ∀ {p' q'}, fileNames p = fileNames p' → Builds opens link' p' ns q' → fileNames q = fileNames q' := by
  induction h with
  | done => intro p' q' hp h; cases h; exact hp
  | held hn _ ih =>
    intro p' q' hp h
    cases h with
    | held _ h => exact ih hp h
    | new hn' => exact absurd (hp ▸ hn) hn'
  | new hn hf hd _ hl _ ih1 ih2 =>
    intro p' q' hp h
    cases h with
    | held hn' => exact absurd (hp ▸ hn') hn
    | new _ hf' _ hb' hl' h' =>
      cases hu _ _ _ hf hf'
      refine ih2 ?_ h'
      have := ih1 hp hb'
      simp only [fileNames, List.map_append, List.map_cons, List.map_nil] at this ⊢
      rw [this, hlaw.name_eq _ _ _ hl, hlaw'.name_eq _ _ _ hl']

/-- C66, for any resolver that does not change its answers. -/
theorem C66_walk {r : PureResolver} (hwn : r.toResolver.WellNamed) (hlaw : link.Lawful) (ps : List Bytes)
    (out : List FileDescriptorProto) :
    (∃ bound, ∀ fuel, bound ≤ fuel → compile r.toResolver link fuel ps = .ok out) ↔
    ∃ ns, ps.map r.nameOf = ns.map some ∧ (∀ p ∈ ps, r.Unshadowed p) ∧
      Builds (fun n f => r.openFile n = .ok f) link [] ns out := by
  constructor
  · rintro ⟨N, h⟩
    obtain ⟨s, hs, rfl⟩ := compile_eq.1 (h N (Nat.le_refl _))
    exact openFiles_builds hwn hlaw N ps _ _ (start_sound hwn hlaw) hs
  · rintro ⟨ns, h1, h2, h3⟩
    obtain ⟨N, h⟩ := openFiles_of_builds hwn hlaw ps ns [] out h1 h2 h3
    exact ⟨N, fun fuel hf => compile_eq.2 (h fuel hf _ (start_sound hwn hlaw) rfl)⟩

/-- Any recursion depth at which `compile` succeeds will do. -/
theorem C66_depth {r : PureResolver} (hwn : r.toResolver.WellNamed) (hlaw : link.Lawful) (ps : List Bytes)
    (out : List FileDescriptorProto) {fuel : Nat} (h : compile r.toResolver link fuel ps = .ok out) :
    ∃ bound, ∀ fuel, bound ≤ fuel → compile r.toResolver link fuel ps = .ok out := by
  obtain ⟨s, hs, rfl⟩ := compile_eq.1 h
  exact (C66_walk hwn hlaw ps _).2 (openFiles_builds hwn hlaw fuel ps _ _ (start_sound hwn hlaw) hs)

/-- A file that a set of files with different names has for a name. -/
theorem setOpen_at {set : List (FileDescriptorProto × Option Bytes)} (hnd : (fileNames (set.map (·.1))).Nodup)
    {d : FileDescriptorProto} (hd : d ∈ set.map (·.1)) :
    ∃ enc, (d, enc) ∈ set ∧ setOpen set d.getName = .ok ⟨none, none, d, enc⟩ := by
  induction set with
  | nil => cases hd
  | cons x set ih =>
    obtain ⟨e, enc⟩ := x
    simp only [List.map_cons, fileNames, List.nodup_cons] at hnd
    rw [List.map_cons] at hd
    unfold setOpen
    rcases List.mem_cons.1 hd with rfl | hd
    · exact ⟨enc, .head _, by simp⟩
    · have hne : e.getName ≠ d.getName := fun he =>
        hnd.1 (he ▸ List.mem_map_of_mem (f := (·.getName)) hd)
      rw [if_neg hne]
      obtain ⟨enc', h1, h2⟩ := ih hnd.2 hd
      exact ⟨enc', .tail _ h1, h2⟩

theorem relinks_at {set : List (FileDescriptorProto × Option Bytes)} (h : Relinks link set)
    (hnd : (fileNames (set.map (·.1))).Nodup) {pre post : List FileDescriptorProto} {d : FileDescriptorProto}
    (hs : set.map (·.1) = pre ++ d :: post) :
    ∃ enc, setOpen set d.getName = .ok ⟨none, none, d, enc⟩ ∧ link pre ⟨none, none, d, enc⟩ = .ok d := by
  obtain ⟨enc, h1, h2⟩ := setOpen_at hnd (d := d) (by rw [hs]; simp)
  refine ⟨enc, h2, ?_⟩
  obtain ⟨pre', post', h3⟩ := List.append_of_mem h1
  have h4 := h _ _ _ h3
  rw [h3, List.map_append, List.map_cons] at hs
  have hnd' := hnd
  rw [h3, List.map_append, List.map_cons, hs] at hnd'
  obtain ⟨h5, -⟩ := split_unique (·.getName) hs (by rw [hs]; exact hnd') rfl
  rw [← h5]
  exact h4

/-- Walking over a set that was made by a walk gives the set. -/
theorem Builds.reload {opens : Bytes → File → Prop} (hnames : ∀ n f, opens n f → f.name = n) (hlaw : link.Lawful)
    {set : List (FileDescriptorProto × Option Bytes)} (hnd : (fileNames (set.map (·.1))).Nodup) (hr : Relinks link set)
    {p q : List FileDescriptorProto} {ns : List Bytes} (h : Builds opens link p ns q) :
    ∀ rest, set.map (·.1) = q ++ rest → Builds (fun n f => (setResolver set).openFile n = .ok f) link p ns q := by
  induction h with
  | done => intro _ _; exact .done
  | held hn _ ih => intro rest hq; exact .held hn (ih rest hq)
  | @new pool n ns f mid d out hn hf hd hb hl hb2 ih1 ih2 =>
    intro rest hq
    obtain ⟨new, rfl⟩ := hb2.grows
    have hs : set.map (·.1) = mid ++ d :: (new ++ rest) := by rw [hq]; simp
    obtain ⟨enc, h1, h2⟩ := relinks_at hr hnd hs
    have hname : d.getName = n := (hlaw.name_eq _ _ _ hl).trans (hnames _ _ hf)
    have hdeps := hlaw.deps_eq _ _ _ hl
    rw [hname] at h1
    refine .new hn (f := ⟨none, none, d, enc⟩) h1 ?_ ?_ h2 (ih2 rest hq)
    · show d.dependency.Nodup
      rw [hdeps]; exact hd
    · show Builds _ link pool d.dependency mid
      rw [hdeps]
      exact ih1 (d :: (new ++ rest)) hs

end

section
variable [FloatFmt] [LocSort] {link : Linker}

/-- C66: `compile` succeeds with exactly this output if and only if every path given has a name and is not shadowed, and
the output is the depth-first walk over the imports of these names, in the order given: a file that is there already is
passed over; before a file come its imports, in the order in which it lists them; the file is what the linker makes of what
the file system (or the bundled set) has for its name, given all files before it. -/
theorem C66_exact (hlaw : link.Lawful) (fs : Bytes → FsEntry) (text : Bytes → Bytes) (includes files : List Bytes)
    (out : List FileDescriptorProto) :
    (∃ fuel, compileOn link (fun _ => fs) text includes files fuel = .ok out) ↔
    ∃ ns, files.map (defaultResolver parseFn fs text includes).nameOf = ns.map some ∧
      (∀ p ∈ files, (defaultResolver parseFn fs text includes).Unshadowed p) ∧
      Builds (fun n f => Opens parseFn fs text includes n (.ok f)) link [] ns out := by
  have hwn : (defaultResolver parseFn fs text includes).toResolver.WellNamed := default_wellNamed (fun _ => fs) text includes
  have hopens : (fun n f => Opens parseFn fs text includes n (.ok f)) =
      fun n f => (defaultResolver parseFn fs text includes).openFile n = .ok f :=
    funext fun n => funext fun f => propext (C57_opens fs text includes n (.ok f)).symm
  rw [hopens, ← C66_walk hwn hlaw files out]
  constructor
  · rintro ⟨fuel, h⟩; exact C66_depth hwn hlaw files out h
  · rintro ⟨N, h⟩; exact ⟨N, h N (Nat.le_refl _)⟩

/-- C66: there is one such walk at most, so the output is determined by the file system, the arguments and the linker. -/
theorem C66_unique (fs : Bytes → FsEntry) (text : Bytes → Bytes) (includes : List Bytes) (ns : List Bytes)
    {out out' : List FileDescriptorProto}
    (h : Builds (fun n f => Opens parseFn fs text includes n (.ok f)) link [] ns out)
    (h' : Builds (fun n f => Opens parseFn fs text includes n (.ok f)) link [] ns out') : out = out' :=
  Builds.unique (fun _ _ _ h1 h2 => by cases h1.unique h2; rfl) h h'

/-- C66: the order of the files in the output is a matter of the imports alone: two linkers which both accept the files
give the same names in the same order. -/
theorem C66_order {link' : Linker} (hlaw : link.Lawful) (hlaw' : link'.Lawful) (fs : Bytes → FsEntry) (text : Bytes → Bytes)
    (includes files : List Bytes) {fuel fuel' : Nat} {out out' : List FileDescriptorProto}
    (h : compileOn link (fun _ => fs) text includes files fuel = .ok out)
    (h' : compileOn link' (fun _ => fs) text includes files fuel' = .ok out') : fileNames out = fileNames out' := by
  obtain ⟨ns, h1, _, h2⟩ := (C66_exact hlaw fs text includes files out).1 ⟨_, h⟩
  obtain ⟨ns', h3, _, h4⟩ := (C66_exact hlaw' fs text includes files out').1 ⟨_, h'⟩
  have : ns = ns' := by
    rw [h1] at h3
    have := congrArg (List.filterMap id) h3
    simpa using this
  subst this
  exact Builds.names (fun _ _ _ h1 h2 => by cases h1.unique h2; rfl) hlaw hlaw' h2 rfl h4

/-- C66: compiling the same names again from nothing but the output gives the output back, file by file and in the same
order; so does opening the files of the output one by one. (If the descriptor pool leaves what it made as it is.) -/
theorem C66_reload (hlaw : link.Lawful) (fs : Bytes → FsEntry) (text : Bytes → Bytes) (includes files : List Bytes)
    {fuel : Nat} {out : List FileDescriptorProto} (h : compileOn link (fun _ => fs) text includes files fuel = .ok out)
    (set : List (FileDescriptorProto × Option Bytes)) (hset : set.map (·.1) = out) (hr : Relinks link set) :
    ∃ bound, ∀ fuel', bound ≤ fuel' →
      compile (setResolver set).toResolver link fuel' (files.filterMap (defaultResolver parseFn fs text includes).nameOf) = .ok out ∧
      compile (setResolver set).toResolver link fuel' (fileNames out) = .ok out := by
  obtain ⟨hnd, htopo, hgiven, _, hmade⟩ := C54_success hlaw fs text includes files fuel h
  have hcan := C59_names hlaw fs text includes files fuel h
  obtain ⟨ns, h1, _, h2⟩ := (C66_exact hlaw fs text includes files out).1 ⟨_, h⟩
  have hns : files.filterMap (defaultResolver parseFn fs text includes).nameOf = ns := by
    have := congrArg (List.filterMap id) h1
    simpa [List.filterMap_map] using this
  rw [hns]
  have hcomp : ∀ ms : List Bytes, (∀ m ∈ ms, m ∈ fileNames out) →
      Builds (fun n f => (setResolver set).openFile n = .ok f) link [] ms out →
      ∃ bound, ∀ fuel', bound ≤ fuel' → compile (setResolver set).toResolver link fuel' ms = .ok out := by
    intro ms hms hb
    refine (C66_walk (set_wellNamed set) hlaw ms out).2 ⟨ms, ?_, ?_, hb⟩
    rotate_left
    · intro p _ n f a hp; cases hp
    apply List.map_congr_left
    intro m hm
    exact (hcan m (hms m hm)).2
  subst hset
  have hb1 := Builds.reload (fun n f hf => by
    exact default_wellNamed (fun _ => fs) text includes [] n f ((C57_opens fs text includes n (.ok f)).2 hf))
    hlaw hnd hr h2 [] (by simp)
  have hb2 : ∀ pre post : List FileDescriptorProto, set.map (·.1) = pre ++ post →
      Builds (fun n f => (setResolver set).openFile n = .ok f) link pre (fileNames post) (pre ++ post) := by
    intro pre post
    induction post generalizing pre with
    | nil => intro _; simp only [List.append_nil]; exact .done
    | cons d post ih =>
      intro hs
      obtain ⟨enc, e1, e2⟩ := relinks_at hr hnd hs
      obtain ⟨f, _, e3, e4⟩ := hmade _ _ _ hs
      have hno : d.getName ∉ fileNames pre := by
        rw [hs] at hnd
        simp only [fileNames, List.map_append, List.map_cons] at hnd
        intro hm
        exact (List.nodup_append.1 hnd).2.2 _ hm _ (.head _) rfl
      have := ih (pre ++ [d]) (by rw [hs]; simp)
      rw [show pre ++ d :: post = pre ++ [d] ++ post by simp]
      refine .new hno (f := ⟨none, none, d, enc⟩) e1 ?_ (Builds.all_held _ ?_) e2 this
      · show d.dependency.Nodup
        rw [hlaw.deps_eq _ _ _ e4]; exact e3
      · exact htopo _ _ _ hs
  obtain ⟨N1, k1⟩ := hcomp ns (by
    intro m hm
    have : some m ∈ files.map (defaultResolver parseFn fs text includes).nameOf := by
      rw [h1]; exact List.mem_map_of_mem hm
    obtain ⟨p, hp, hpm⟩ := List.mem_map.1 this
    obtain ⟨n, hn, hmem⟩ := hgiven p hp
    rw [hpm] at hn
    cases hn
    exact hmem) hb1
  obtain ⟨N2, k2⟩ := hcomp _ (fun _ h => h) (by simpa using hb2 [] _ (by simp))
  exact ⟨N1 + N2, fun fuel' hf => ⟨k1 fuel' (by omega), k2 fuel' (by omega)⟩⟩

end
namespace OrderDemo
open Verif.Demo CompileDemo

/-- Two files that share an import, below a third one. -/
def table : List (Bytes × Bytes) :=
  [(b!"./base.proto", b!"message Base {}"),
   (b!"./left.proto", b!"import \"base.proto\";"),
   (b!"./right.proto", b!"import \"base.proto\";"),
   (b!"./top.proto", b!"import \"right.proto\"; import \"left.proto\";")]

def fs : Bytes → FsEntry := fun p => match table.find? (fun e => e.1 == p) with
  | some (_, t) => .file t.length (.ok t)
  | none => .err .notFound

def run (files : List Bytes) : Res (List FileDescriptorProto) := compileOn lk (fun _ => fs) (fun _ => []) [b!"."] files 20

example : names (run [b!"top.proto"]) = some [b!"base.proto", b!"right.proto", b!"left.proto", b!"top.proto"] ∧
    names (run [b!"left.proto", b!"./top.proto"]) = some [b!"base.proto", b!"left.proto", b!"right.proto", b!"top.proto"] ∧
    names (run [b!"base.proto", b!"base.proto", b!"right.proto"]) = some [b!"base.proto", b!"right.proto"] := by decide +kernel

/-- The hypotheses of C66_exact, left to right, and of C66_reload are met. -/
theorem succeeds : ∃ out, run [b!"left.proto", b!"./top.proto"] = .ok out := by
  have h : names (run [b!"left.proto", b!"./top.proto"]) ≠ none := by decide +kernel
  cases hx : run [b!"left.proto", b!"./top.proto"] with
  | ok out => exact ⟨out, rfl⟩
  | err e => rw [hx] at h; exact absurd rfl h
  | panic => rw [hx] at h; exact absurd rfl h
  | oof => rw [hx] at h; exact absurd rfl h

theorem relinks {out : List FileDescriptorProto} (h : TopoSorted out) : Relinks lk (out.map fun d => (d, none)) := by
  intro pre x post hs
  have hs' := congrArg (List.map (·.1)) hs
  rw [List.map_map, List.map_append, List.map_cons] at hs'
  have hid : (Prod.fst ∘ fun d : FileDescriptorProto => (d, (none : Option Bytes))) = id := rfl
  rw [hid, List.map_id] at hs'
  unfold lk
  rw [if_pos]
  simpa using h _ _ _ hs'

example : ∃ out, run [b!"left.proto", b!"./top.proto"] = .ok out ∧ ∃ bound, ∀ fuel, bound ≤ fuel →
    compile (setResolver (out.map fun d => (d, none))).toResolver lk fuel [b!"left.proto", b!"top.proto"] = .ok out := by
  obtain ⟨out, h⟩ := succeeds
  have ht := (C54_success lk_lawful fs _ _ _ 20 h).2.1
  obtain ⟨N, hN⟩ := C66_reload lk_lawful fs _ _ _ h (out.map fun d => (d, none)) (by rw [List.map_map]; exact List.map_id _) (relinks ht)
  refine ⟨out, h, N, fun fuel hf => ?_⟩
  rw [← (hN fuel hf).1]
  congr 1
  decide +kernel

end OrderDemo
end Verif
