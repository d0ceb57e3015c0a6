import Verif.Proofs.Opening
import Verif.Proofs.Justify
import Verif.Props.Compiler
import Verif.Props.Compiler2
import Verif.Props.Resolver
import Verif.Props.Parse
/-!
The built-in resolvers meet the assumptions made of resolvers elsewhere, and lemmas about `compile`.
-/
namespace Verif
open Verif.Spec
section
variable [FloatFmt] [LocSort]

/-- Looking for an import's span in a parsed file never panics. -/
theorem parsed_spansOk {name src : Bytes} {fd} (h : parseFn name src = .ok fd) (path enc : Option Bytes) :
    (⟨path, some src, fd, enc⟩ : File).SpansOk := by
  have hp : parse name src = some (.ok fd) := by rw [C27_parseFn, h]
  intro i hbad
  unfold findImportSpan at hbad
  cases hl : fd.sourceCodeInfo with
  | none => simp only [hl] at hbad; cases hbad
  | some locs =>
    simp only [hl] at hbad
    split at hbad
    · cases hbad
    · rename_i hs
      obtain ⟨l, hm, h1⟩ := List.exists_of_findSome?_eq_some hs
      unfold importSpanAt at h1
      split at h1
      · rename_i hpath
        rcases C31_ordered name src fd hp locs hl l hm (.inr (by rw [hpath]; simp)) with
          ⟨a, b, c, hsp, ha, hb, hc⟩ | ⟨a, b, c, d, hsp, _⟩
        · rw [hsp] at h1
          simp only at h1
          rw [if_neg (by omega)] at h1
          cases h1
        · rw [hsp] at h1; cases h1
      · cases h1
    · cases hbad

/-- A parsed descriptor has the name that was passed to the parser. -/
theorem parsed_name {name src : Bytes} {fd} (h : parseFn name src = .ok fd) : fd.getName = name := by
  obtain ⟨f, ts, hp⟩ := Gen.parsed_of_ok (name := name) (src := src) (fd := fd) (by rw [C27_parseFn, h])
  rw [hp.desc]; rfl

/-- The imports of a parsed file do not depend on the name. -/
theorem parsed_deps {n m src : Bytes} {fd gd} (h : parseFn n src = .ok fd) (h' : parseFn m src = .ok gd) :
    fd.dependency = gd.dependency := by
  obtain ⟨f, ts, hp⟩ := Gen.parsed_of_ok (name := n) (src := src) (fd := fd) (by rw [C27_parseFn, h])
  obtain ⟨g, us, hq⟩ := Gen.parsed_of_ok (name := m) (src := src) (fd := gd) (by rw [C27_parseFn, h'])
  have : f = g := by have h1 := hp.run; rw [hq.run] at h1; cases h1; rfl
  subst this
  rw [hp.desc, hq.desc]; rfl

/-- What a file opened by the default resolver is. -/
theorem default_ok {fs : Bytes → FsEntry} {text : Bytes → Bytes} {includes : List Bytes} {n : Bytes} {f : File}
    (h : (defaultResolver parseFn fs text includes).openFile n = .ok f) :
    ∃ src, f = ⟨f.path, some src, f.descriptor, none⟩ ∧ parseFn n src = .ok f.descriptor ∧
      ((n ∈ googleNames ∧ src = text n) ∨
       ∃ incl k bytes, incl ∈ includes ∧ f.path = some (Path.includeTarget incl n) ∧ src = bytes.take 2147483647 ∧
        fs (Path.includeTarget incl n) = .file k (.ok bytes)) := by
  have := opens_default parseFn fs text includes n
  rw [h] at this
  cases this with
  | bundled _ hg hp => exact ⟨_, rfl, hp, .inl ⟨hg, rfl⟩⟩
  | included he _ hf =>
    cases hf with
    | proto _ hfs _ hp => exact ⟨_, rfl, hp, .inr ⟨_, _, _, by rw [he]; simp, rfl, rfl, hfs⟩⟩

theorem default_wellNamed (fs : List Call → Bytes → FsEntry) (text : Bytes → Bytes) (includes : List Bytes) :
    (defaultResolverOn parseFn fs text includes).WellNamed := by
  intro h n f hf
  obtain ⟨src, _, hp, _⟩ := default_ok hf
  exact parsed_name hp

theorem default_spansOk (fs : List Call → Bytes → FsEntry) (text : Bytes → Bytes) (includes : List Bytes) :
    (defaultResolverOn parseFn fs text includes).SpansOk := by
  intro h n f hf
  obtain ⟨src, he, hp, _⟩ := default_ok hf
  rw [he]
  exact parsed_spansOk hp _ _

/-- Files of a descriptor set have their names and no source. -/
theorem setOpen_ok : ∀ {set : List (FileDescriptorProto × Option Bytes)} {n : Bytes} {f : File},
    setOpen set n = .ok f → f.name = n ∧ f.source = none
  | [], _, _, h => by cases h
  | (fd, enc) :: rest, n, f, h => by
    unfold setOpen at h
    split at h
    · rename_i hn; cases h; exact ⟨hn, rfl⟩
    · exact setOpen_ok h

theorem set_wellNamed (set : List (FileDescriptorProto × Option Bytes)) : (setResolver set).toResolver.WellNamed :=
  fun _ _ _ h => (setOpen_ok h).1

theorem set_spansOk (set : List (FileDescriptorProto × Option Bytes)) : (setResolver set).toResolver.SpansOk := by
  intro _ n f h i
  have hs : f.source = none := (setOpen_ok h).2
  unfold findImportSpan
  rw [hs]
  split <;> simp_all

theorem chain_ok : ∀ {rs : List PureResolver} {n : Bytes} {f : File}, chainOpen rs n = .ok f → ∃ r ∈ rs, r.openFile n = .ok f
  | [], _, _, h => by cases h
  | r :: rs, n, f, h => by
    unfold chainOpen at h
    split at h
    · rename_i f' hf; cases h; exact ⟨r, .head _, hf⟩
    · split at h
      · obtain ⟨r', hr, h'⟩ := chain_ok h
        exact ⟨r', .tail _ hr, h'⟩
      · cases h

theorem chain_wellNamed {rs : List PureResolver} (h : ∀ r ∈ rs, r.toResolver.WellNamed) :
    (chain rs).toResolver.WellNamed := by
  intro c n f hf
  obtain ⟨r, hr, h'⟩ := chain_ok hf
  exact h r hr c n f h'

theorem chain_spansOk {rs : List PureResolver} (h : ∀ r ∈ rs, r.toResolver.SpansOk) :
    (chain rs).toResolver.SpansOk := by
  intro c n f hf
  obtain ⟨r, hr, h'⟩ := chain_ok hf
  exact h r hr c n f h'

end

namespace Compiler
variable {R : Resolver} {link : Linker}

theorem openFiles_ne_panic (hsp : R.SpansOk) (fuel : Nat) (ps : List Bytes) :
    ∀ s : Compiler, (openFiles R link fuel s ps).1 ≠ .panic := by
  induction ps with
  | nil => intro s h; cases h
  | cons p ps ih =>
    intro s h
    rw [openFiles] at h
    split at h
    · exact ih _ h
    · exact openFile_ne_panic hsp fuel s p h

theorem openFiles_terminates (U : List Bytes)
    (hU : ∀ h n f, n ∈ U → R.openFile h n = .ok f → ∀ d ∈ f.descriptor.dependency, d ∈ U) (fuel : Nat)
    (hfuel : U.length ≤ fuel) (ps : List Bytes)
    (hn : ∀ p ∈ ps, ∀ s n b, resolveName R s p = some (n, b) → n ∈ U) :
    ∀ s : Compiler, (openFiles R link fuel s ps).1 ≠ .oof := by
  induction ps with
  | nil => intro s h; cases h
  | cons p ps ih =>
    intro s h
    rw [openFiles] at h
    split at h
    · exact ih (fun q hq => hn q (.tail _ hq)) _ h
    · exact openFile_terminates U hU fuel s p (fun n b => hn p (.head _) s n b) hfuel h

theorem openFiles_fuel_mono (fuel k : Nat) (ps : List Bytes) :
    ∀ s : Compiler, (openFiles R link fuel s ps).1 ≠ .oof →
      openFiles R link (fuel + k) s ps = openFiles R link fuel s ps := by
  induction ps with
  | nil => intro s _; rfl
  | cons p ps ih =>
    intro s h
    rw [openFiles] at h
    rw [openFiles, openFiles]
    have h1 : (openFile R link fuel s p).1 ≠ .oof := by
      intro hoof
      split at h
      · rename_i s' hs'; rw [hs'] at hoof; cases hoof
      · exact h hoof
    rw [openFile_fuel_mono fuel k s p h1]
    cases hx : openFile R link fuel s p with
    | mk o s' =>
      rw [hx] at h
      cases o with
      | ok => exact ih s' h
      | err e => rfl
      | panic => rfl
      | oof => rfl

theorem finish_flags (s : Compiler) (n : Bytes) (f : File) (b : Bool) :
    (finish link s n f b).2.includeImports = s.includeImports ∧
    (finish link s n f b).2.includeSourceInfo = s.includeSourceInfo := by
  unfold finish
  split
  · exact ⟨rfl, rfl⟩
  · exact ⟨rfl, rfl⟩

theorem openFile_flags (fuel : Nat) (s : Compiler) (p : Bytes) :
    (openFile R link fuel s p).2.includeImports = s.includeImports ∧
    (openFile R link fuel s p).2.includeSourceInfo = s.includeSourceInfo := by
  have hc := openFile_cases (R := R) (link := link) fuel s p
  generalize openFile R link fuel s p = r at hc
  cases hc with
  | noName | heldShadow | openErr | shadow | held => exact ⟨rfl, rfl⟩
  | importFail name res f hn hm hf hsh hno =>
    have h := (imports_frame (R := R) (link := link) fuel [name] f (s.addTrace [.resolve p, .openF name])).1
    exact ⟨h.imports, h.info⟩
  | finish name res f s2 hn hm hf hsh h2 =>
    have h := (imports_frame (R := R) (link := link) fuel [name] f (s.addTrace [.resolve p, .openF name])).1
    rw [h2] at h
    have h' := finish_flags (link := link) s2 name f false
    exact ⟨h'.1.trans h.imports, h'.2.trans h.info⟩

theorem openFiles_flags (fuel : Nat) (ps : List Bytes) : ∀ s : Compiler,
    (openFiles R link fuel s ps).2.includeImports = s.includeImports ∧
    (openFiles R link fuel s ps).2.includeSourceInfo = s.includeSourceInfo := by
  induction ps with
  | nil => intro s; exact ⟨rfl, rfl⟩
  | cons p ps ih =>
    intro s
    have h := openFile_flags (R := R) (link := link) fuel s p
    rw [openFiles]
    split
    · rename_i s' hs'
      rw [hs'] at h
      exact ⟨(ih s').1.trans h.1, (ih s').2.trans h.2⟩
    · exact h

theorem openFiles_names {r : PureResolver} (fuel : Nat) (ps : List Bytes) : ∀ s : Compiler,
    (openFiles r.toResolver link fuel s ps).1 = .ok → ∀ p ∈ ps, ∃ n, r.nameOf p = some n := by
  induction ps with
  | nil => intro s _ p hp; cases hp
  | cons q ps ih =>
    intro s h p hp
    rw [openFiles] at h
    split at h
    · rename_i s' hs'
      rcases List.mem_cons.1 hp with rfl | hp
      · have hn := resolveName_nameOf (r := r) s p
        cases hr : resolveName r.toResolver s p with
        | none =>
          rw [openFile, hr] at hs'
          cases hs'
        | some x => rw [hr] at hn; exact ⟨_, hn.symm⟩
      · exact ih s' h p hp
    · rename_i hno
      exfalso
      cases hx : openFile r.toResolver link fuel s q with
      | mk o s' =>
        rw [hx] at h
        simp only at h
        subst h
        exact hno _ hx

theorem split_unique {α β : Type} (g : α → β) : ∀ {pre pre' post post' : List α} {a b : α},
    pre ++ a :: post = pre' ++ b :: post' → ((pre ++ a :: post).map g).Nodup → g a = g b → pre = pre' ∧ a = b
  | [], [], _, _, _, _, h, _, _ => by cases h; exact ⟨rfl, rfl⟩
  | [], x :: xs, _, _, _, b, h, hn, hg => by
    cases h
    rw [List.nil_append, List.map_cons, List.nodup_cons] at hn
    exact absurd (List.mem_map.2 ⟨b, List.mem_append_right xs (.head _), hg.symm⟩) hn.1
  | x :: xs, [], _, _, a, _, h, hn, hg => by
    cases h
    simp only [List.cons_append, List.map_cons, List.map_append, List.nodup_cons, List.mem_append, List.mem_cons] at hn
    exact absurd (Or.inr (Or.inl hg.symm)) hn.1
  | x :: xs, y :: ys, _, _, _, _, h, hn, hg => by
    rw [List.cons_append, List.cons_append, List.cons.injEq] at h
    rw [List.cons_append, List.map_cons, List.nodup_cons] at hn
    obtain ⟨h1, h2⟩ := split_unique g h.2 hn.2 hg
    exact ⟨by rw [h.1, h1], h2⟩

end Compiler
end Verif
