import Verif.Proofs.Failing
import Verif.Props.Order
/-!
C67: the error of `compile` is the first obstacle on the walk (`ListFails`, Spec/Failing.lean).
-/
namespace Verif
open Verif.Spec
open Compiler PureResolver

section
variable {link : Linker}

theorem compile_err {r : PureResolver} {fuel : Nat} {ps : List Bytes} {e : Error} :
    compile r.toResolver link fuel ps = .err e ↔ ∃ s, openFiles r.toResolver link fuel
      { Compiler.init with includeSourceInfo := true, includeImports := true } ps = (.err e, s) := by
  have hc : compile r.toResolver link fuel ps = finally' fileDescriptorSet (openFiles r.toResolver link fuel
    { Compiler.init with includeSourceInfo := true, includeImports := true } ps) := rfl
  have hflags := openFiles_flags (R := r.toResolver) (link := link) fuel ps
    { Compiler.init with includeSourceInfo := true, includeImports := true }
  rw [hc]
  generalize openFiles r.toResolver link fuel
    { Compiler.init with includeSourceInfo := true, includeImports := true } ps = x at hflags
  obtain ⟨o, s⟩ := x
  cases o with
  | ok =>
    simp only [finally', set_all hflags.1 hflags.2]
    exact ⟨nofun, nofun⟩
  | err e =>
    constructor
    · intro h; cases h; exact ⟨s, rfl⟩
    · rintro ⟨s', h⟩; cases h; rfl
  | panic => exact ⟨nofun, nofun⟩
  | oof => exact ⟨nofun, nofun⟩

/-- C67: `open_files` (and `open_file`, which is the case of one path) after any history of calls, successful or not: it
succeeds with the pool `q` if and only if `q` is the walk on top of what is there, and fails with the error `e` and leaves
the pool `q` if and only if `e` is the first obstacle on this walk and `q` is what is done then. (`q` is what
`descriptor_pool` shows.) -/
theorem C67_api {r : PureResolver} (hwn : r.toResolver.WellNamed) (hlaw : link.Lawful) {s : Compiler}
    (hs : Reachable r.toResolver link s) (ps : List Bytes) (q : List FileDescriptorProto) :
    ((∃ fuel s', openFiles r.toResolver link fuel s ps = (.ok, s') ∧ s'.pool = q) ↔
      ∃ ns, ps.map r.nameOf = ns.map some ∧ (∀ p ∈ ps, r.Unshadowed p) ∧
        Builds (fun n f => r.openFile n = .ok f) link s.pool ns q) ∧
    ∀ e, (∃ fuel s', openFiles r.toResolver link fuel s ps = (.err e, s') ∧ s'.pool = q) ↔ ListFails r link s.pool ps e q := by
  have hsound : Sound r link s := ⟨reachable_inv hwn hlaw hs, reachable_pinv hwn hlaw hs⟩
  refine ⟨⟨?_, ?_⟩, fun e => ⟨?_, ?_⟩⟩
  · rintro ⟨fuel, s', h, rfl⟩
    exact openFiles_builds hwn hlaw fuel ps s s' hsound h
  · rintro ⟨ns, h1, h2, h3⟩
    obtain ⟨N, h⟩ := openFiles_of_builds hwn hlaw ps ns s.pool q h1 h2 h3
    obtain ⟨s', h4⟩ := h N (Nat.le_refl _) s hsound rfl
    exact ⟨N, s', h4⟩
  · rintro ⟨fuel, s', h, rfl⟩
    exact openFiles_fails hwn hlaw fuel ps s s' e hsound h
  · intro h
    obtain ⟨N, h⟩ := openFiles_of_fails hwn hlaw h
    obtain ⟨s', h4⟩ := h N (Nat.le_refl _) s hsound rfl
    exact ⟨N, s', h4⟩

/-- C67, for any resolver that does not change its answers: at every sufficient recursion depth `compile` returns the
error `e` if and only if `e` is the first obstacle on the walk. -/
theorem C67_walk {r : PureResolver} (hwn : r.toResolver.WellNamed) (hlaw : link.Lawful) (ps : List Bytes) (e : Error) :
    (∃ bound, ∀ fuel, bound ≤ fuel → compile r.toResolver link fuel ps = .err e) ↔ ∃ left, ListFails r link [] ps e left := by
  constructor
  · rintro ⟨N, h⟩
    obtain ⟨s, hs⟩ := compile_err.1 (h N (Nat.le_refl _))
    exact ⟨_, openFiles_fails hwn hlaw N ps _ _ e (start_sound hwn hlaw) hs⟩
  · rintro ⟨left, h⟩
    obtain ⟨N, hN⟩ := openFiles_of_fails hwn hlaw h
    refine ⟨N, fun fuel hf => compile_err.2 ?_⟩
    obtain ⟨s', h, -⟩ := hN fuel hf _ (start_sound hwn hlaw) rfl
    exact ⟨s', h⟩

/-- Any recursion depth at which `compile` returns an error will do. -/
theorem C67_depth {r : PureResolver} (hwn : r.toResolver.WellNamed) (hlaw : link.Lawful) (ps : List Bytes) (e : Error)
    {fuel : Nat} (h : compile r.toResolver link fuel ps = .err e) :
    ∃ bound, ∀ fuel, bound ≤ fuel → compile r.toResolver link fuel ps = .err e := by
  obtain ⟨s, hs⟩ := compile_err.1 h
  exact (C67_walk hwn hlaw ps _).2 ⟨_, openFiles_fails hwn hlaw fuel ps _ _ e (start_sound hwn hlaw) hs⟩

end

section
variable [FloatFmt] [LocSort] {link : Linker}

/-- C67: `compile` returns the error `e` if and only if `e` is the first obstacle on the walk over the files given and
their imports. -/
theorem C67_exact (hlaw : link.Lawful) (fs : Bytes → FsEntry) (text : Bytes → Bytes) (includes files : List Bytes) (e : Error) :
    (∃ fuel, compileOn link (fun _ => fs) text includes files fuel = .err e) ↔
    ∃ left, ListFails (defaultResolver parseFn fs text includes) link [] files e left := by
  have hwn : (defaultResolver parseFn fs text includes).toResolver.WellNamed := default_wellNamed (fun _ => fs) text includes
  rw [← C67_walk hwn hlaw files e]
  constructor
  · rintro ⟨fuel, h⟩; exact C67_depth hwn hlaw files e h
  · rintro ⟨N, h⟩; exact ⟨N, h N (Nat.le_refl _)⟩

/-- C67: there is one first obstacle at most, and none if the walk succeeds. -/
theorem C67_unique (hlaw : link.Lawful) (fs : Bytes → FsEntry) (text : Bytes → Bytes) (includes files : List Bytes) {e : Error}
    {left : List FileDescriptorProto} (h : ListFails (defaultResolver parseFn fs text includes) link [] files e left) :
    (∀ e' left', ListFails (defaultResolver parseFn fs text includes) link [] files e' left' → e' = e) ∧
    ∀ ns out, files.map (defaultResolver parseFn fs text includes).nameOf = ns.map some →
      (∀ p ∈ files, (defaultResolver parseFn fs text includes).Unshadowed p) →
      ¬ Builds (fun n f => Opens parseFn fs text includes n (.ok f)) link [] ns out := by
  have hwn : (defaultResolver parseFn fs text includes).toResolver.WellNamed := default_wellNamed (fun _ => fs) text includes
  obtain ⟨N, hN⟩ := (C67_walk hwn hlaw files e).2 ⟨_, h⟩
  constructor
  · intro e' left' h'
    obtain ⟨M, hM⟩ := (C67_walk hwn hlaw files e').2 ⟨_, h'⟩
    have h1 := hN (N + M) (by omega)
    rw [hM (N + M) (by omega)] at h1
    cases h1; rfl
  · intro ns out h1 h2 h3
    obtain ⟨fuel, h4⟩ := (C66_exact hlaw fs text includes files out).2 ⟨ns, h1, h2, h3⟩
    obtain ⟨M, hM⟩ := C66_depth hwn hlaw files out h4
    have h5 := hN (N + M) (by omega)
    rw [hM (N + M) (by omega)] at h5
    cases h5

/-- C67: if the texts in the file system are finitely many, there is a walk or a first obstacle. -/
theorem C67_total (hlaw : link.Lawful) (fs : Bytes → FsEntry) (text : Bytes → Bytes) (includes files : List Bytes)
    (texts : List Bytes) (hT : ∀ path k content, fs path = .file k (.ok content) → content ∈ texts) :
    (∃ ns out, files.map (defaultResolver parseFn fs text includes).nameOf = ns.map some ∧
      (∀ p ∈ files, (defaultResolver parseFn fs text includes).Unshadowed p) ∧
      Builds (fun n f => Opens parseFn fs text includes n (.ok f)) link [] ns out) ∨
    ∃ e left, ListFails (defaultResolver parseFn fs text includes) link [] files e left := by
  obtain ⟨res, bound, hne, hres⟩ := C54_terminates (link := link) (fun _ => fs) text includes files texts (fun _ => hT)
  have h1 := hres bound (Nat.le_refl _)
  have h2 := C54_no_panic hlaw (fun _ => fs) text includes files bound
  cases res with
  | ok out =>
    obtain ⟨ns, h3, h4, h5⟩ := (C66_exact hlaw fs text includes files out).1 ⟨_, h1⟩
    exact .inl ⟨ns, out, h3, h4, h5⟩
  | err e => exact .inr ⟨e, (C67_exact hlaw fs text includes files e).1 ⟨_, h1⟩⟩
  | panic => exact absurd h1 h2
  | oof => exact absurd rfl hne

/-- C67: what comes after the obstacle does not matter. -/
theorem C67_rest (hlaw : link.Lawful) (fs : Bytes → FsEntry) (text : Bytes → Bytes) (includes files more : List Bytes)
    {fuel : Nat} {e : Error} (h : compileOn link (fun _ => fs) text includes files fuel = .err e) :
    ∃ fuel, compileOn link (fun _ => fs) text includes (files ++ more) fuel = .err e := by
  obtain ⟨left, pre, p, post, ns, mid, rfl, h1⟩ := (C67_exact hlaw fs text includes files e).1 ⟨_, h⟩
  exact (C67_exact hlaw fs text includes _ e).2 ⟨left, pre, p, post ++ more, ns, mid, by simp, h1⟩

end

namespace FailingDemo
open Verif.Demo CompileDemo

/-- A file that meets three obstacles: a missing import below its second import, a repeated import and a cycle. -/
def table : List (Bytes × Bytes) :=
  [(b!"./ok.proto", b!"message Ok {}"),
   (b!"./lost.proto", b!"import \"ok.proto\"; import \"gone.proto\"; import \"ok.proto\";"),
   (b!"./twice.proto", b!"import \"ok.proto\"; import \"ok.proto\"; import \"gone.proto\";"),
   (b!"./self.proto", b!"import \"ok.proto\"; import \"self.proto\"; import \"gone.proto\";"),
   (b!"./top.proto", b!"import \"ok.proto\"; import \"lost.proto\"; import \"twice.proto\"; import \"self.proto\";"),
   (b!"./pot.proto", b!"import \"ok.proto\"; import \"self.proto\"; import \"twice.proto\"; import \"lost.proto\";"),
   (b!"./opt.proto", b!"import \"twice.proto\"; import \"self.proto\";")]

def fs : Bytes → FsEntry := fun p => match table.find? (fun e => e.1 == p) with
  | some (_, t) => .file t.length (.ok t)
  | none => .err .notFound

def run (files : List Bytes) : Res (List FileDescriptorProto) := compileOn lk (fun _ => fs) (fun _ => []) [b!"."] files 20

example : error (run [b!"top.proto"]) = some (.importNotFound (some (19, 20)) b!"lost.proto"
      b!"import \"ok.proto\"; import \"gone.proto\"; import \"ok.proto\";" b!"gone.proto") ∧
    error (run [b!"pot.proto"]) = some (.circularImport b!"self.proto" b!"pot.proto -> self.proto -> self.proto") ∧
    error (run [b!"ok.proto", b!"opt.proto", b!"pot.proto"]) = some (.duplicateImport (some (19, 18)) b!"twice.proto"
      b!"import \"ok.proto\"; import \"ok.proto\"; import \"gone.proto\";" b!"ok.proto") := by decide +kernel

/-- The hypotheses of C67_unique are met. -/
theorem fails : ∃ e left, ListFails (defaultResolver parseFn fs (fun _ => []) [b!"."]) lk [] [b!"top.proto"] e left := by
  have h : error (run [b!"top.proto"]) ≠ none := by decide +kernel
  cases hx : run [b!"top.proto"] with
  | err e => exact ⟨e, (C67_exact lk_lawful fs _ _ _ e).1 ⟨20, hx⟩⟩
  | ok out => rw [hx] at h; exact absurd rfl h
  | panic => rw [hx] at h; exact absurd rfl h
  | oof => rw [hx] at h; exact absurd rfl h

/-- What a failed call leaves: the imports that were done before the obstacle, and the next call goes on from there. -/
def after (ps : List Bytes) (s : Compiler) : Compiler := (openFiles (defaultResolver parseFn fs (fun _ => []) [b!"."]).toResolver lk 20 s ps).2

example : fileNames (after [b!"twice.proto"] .init).pool = [b!"ok.proto"] ∧
    fileNames (after [b!"more.proto"] (after [b!"twice.proto"] .init)).pool = [b!"ok.proto"] ∧
    fileNames (after [b!"self.proto", b!"ok.proto"] .init).pool = [b!"ok.proto"] := by decide +kernel

end FailingDemo
end Verif
