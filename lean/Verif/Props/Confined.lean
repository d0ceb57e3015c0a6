import Verif.Proofs.Confined
import Verif.Props.Compile
/-!
C59: `compile` looks only below the include directories.
-/
namespace Verif
open Verif.Spec
open Compiler PureResolver Path
section
variable [FloatFmt] [LocSort] {link : Linker}

/-- C59: two file systems (each may change over time) that say the same about the paths below the include directories, that
is, an include directory followed by one or more names other than `.` and `..`, give the same outcome: `compile` depends
on nothing else in the file system, whatever the arguments and the imports in the files are. -/
theorem C59_confined (fs fs' : List Call → Bytes → FsEntry) (text : Bytes → Bytes) (includes files : List Bytes)
    (h : ∀ calls, ∀ incl ∈ includes, ∀ n, Canonical n →
      fs calls (includeTarget incl n) = fs' calls (includeTarget incl n)) (fuel : Nat) :
    compileOn link fs text includes files fuel = compileOn link fs' text includes files fuel := by
  unfold compileOn compile
  simp only
  rw [openFiles_agree (R := defaultResolverOn parseFn fs text includes) (R' := defaultResolverOn parseFn fs' text includes)
    (C := Canonical) ?_ ?_ ?_ ?_]
  · intro calls n hn
    show (defaultResolver _ _ _ _).openFile n = (defaultResolver _ _ _ _).openFile n
    have hag : ∀ is : List Bytes, (∀ i ∈ is, i ∈ includes) →
        chainOpen (is.map (includeResolver parseFn (fs calls)) ++ [googleResolver parseFn text]) n =
        chainOpen (is.map (includeResolver parseFn (fs' calls)) ++ [googleResolver parseFn text]) n := by
      intro is
      induction is with
      | nil => intro _; rfl
      | cons i is ih =>
        intro hi
        have h1 : (includeResolver parseFn (fs calls) i).openFile n = (includeResolver parseFn (fs' calls) i).openFile n := by
          show fileOpen _ _ _ _ = fileOpen _ _ _ _
          unfold fileOpen
          rw [h calls i (hi i (.head _)) n hn]
        simp only [List.map_cons, List.cons_append, chainOpen]
        rw [h1, ih fun j hj => hi j (.tail _ hj)]
    exact hag includes fun _ h => h
  · intro calls n f _ hf
    obtain ⟨src, _, hp, _⟩ := default_ok hf
    exact canonical_imports hp
  · intro calls p
    show (defaultResolver _ _ _ _).resolvePath p = (defaultResolver _ _ _ _).resolvePath p
    rw [C18_resolve, C18_resolve]
  · intro s p n b hr
    have hr' : resolveName (defaultResolver parseFn (fs s.trace) text includes).toResolver s p = some (n, b) := hr
    have := resolveName_nameOf (r := defaultResolver parseFn (fs s.trace) text includes) s p
    rw [hr'] at this
    exact canonical_resolve _ _ _ this.symm

/-- C59: such a path leads below the include directory: its components are those of the directory followed by one or more
normal ones. -/
theorem C59_below (incl n : Bytes) (h : Canonical n) : ∃ ps : List Bytes, ps ≠ [] ∧
    noCur (components (includeTarget incl n)) = noCur (components incl) ++ ps.map .normal := by
  obtain ⟨ps, hne, hg, rfl⟩ := h
  refine ⟨ps, hne, ?_⟩
  rw [includeTarget, components_join_pieces incl ps hne
    (fun c hc => ⟨(hg c hc).1, (hg c hc).2.1, (hg c hc).2.2.1, (hg c hc).2.2.2.1⟩)]
  simp

/-- C59: every file in the output of `compile` has a canonical name: as a path it stands for itself. -/
theorem C59_names (hlaw : link.Lawful) (fs : Bytes → FsEntry) (text : Bytes → Bytes) (includes files : List Bytes)
    (fuel : Nat) {out} (h : compileOn link (fun _ => fs) text includes files fuel = .ok out) :
    ∀ n ∈ fileNames out, Canonical n ∧ pathToFileName n = some n := by
  intro n hn
  obtain ⟨p, hp, m, hm, hr⟩ := ((C54_success hlaw fs text includes files fuel h).2.2.2.1 n).1 hn
  have hc : Canonical n := by
    have h0 := canonical_resolve _ _ _ hm
    clear hm hn
    induction hr with
    | refl => exact h0
    | step he _ ih =>
      obtain ⟨f, hf, hd⟩ := he
      obtain ⟨src, _, hpa, _⟩ := default_ok hf
      exact ih (canonical_imports hpa _ hd)
  exact ⟨hc, fileName_of_canonical hc⟩

end

/-- Paths outside: the demo's file system changed at `/etc/passwd` and `../secret.proto` gives the same outcomes. -/
example (files : List Bytes) (x y : FsEntry) :
    compileOn (link := CompileDemo.lk) (fun _ p => if p = b!"/etc/passwd" then x else if p = b!"../secret.proto" then y
      else CompileDemo.fs p) (fun _ => []) [b!"."] files 20 = CompileDemo.run files := by
  refine C59_confined _ _ _ _ _ ?_ 20
  intro calls incl hi n hn
  simp only [List.mem_cons, List.not_mem_nil, or_false] at hi
  subst hi
  have hb : ∀ {q : Bytes}, (∀ ps : List Bytes, ps ≠ [] → noCur (components q) ≠ ps.map .normal) →
      includeTarget b!"." n ≠ q := by
    rintro q hq rfl
    obtain ⟨ps, hne, h⟩ := C59_below b!"." n hn
    exact hq ps hne (by rw [h]; rfl)
  rw [if_neg (hb ?_), if_neg (hb ?_)]
  all_goals
    intro ps hne h
    cases ps with
    | nil => exact hne rfl
    | cons a ps =>
      have h' := congrArg List.head? h
      revert h'
      simp only [List.map_cons, List.head?_cons]
      exact fun h => by
        have h2 : (noCur (components _)).head? = some (Component.normal a) := h
        first
          | (rw [show noCur (components b!"/etc/passwd") = [.root, .normal b!"etc", .normal b!"passwd"] from by decide] at h2; cases h2)
          | (rw [show noCur (components b!"../secret.proto") = [.parent, .normal b!"secret.proto"] from by decide] at h2; cases h2)

end Verif
