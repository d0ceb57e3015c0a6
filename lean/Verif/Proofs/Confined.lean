import Verif.Proofs.Builtin
import Verif.Proofs.Utf8
import Verif.Props.Path
import Verif.Props.Names
/-!
Names are canonical, and resolvers that agree on canonical names cannot be told apart by the compiler.
-/
namespace Verif
open Verif.Spec Path

/-- Pieces of a valid string between `/`. -/
theorem utf8_pieces : ∀ (ps : List Bytes), utf8Valid (joinWith 47 ps) = true → ∀ p ∈ ps, utf8Valid p = true
  | [], _, p, hp => by cases hp
  | [q], h, p, hp => by
    simp only [List.mem_cons, List.not_mem_nil, or_false] at hp
    subst hp; exact h
  | q :: r :: ps, h, p, hp => by
    rw [joinWith] at h
    obtain ⟨h1, h2⟩ := utf8_split (by decide) h
    rcases List.mem_cons.1 hp with rfl | hp
    · exact h1
    · exact utf8_pieces (r :: ps) h2 p hp

theorem canonical_of_fileName {p n : Bytes} (h : pathToFileName p = some n) : Canonical n := by
  obtain ⟨ps, hne, hc, hu, rfl⟩ := (fileName_iff _ (fun s hs => (components_normal hs).1) n).1 h
  refine ⟨ps, hne, fun c hcp => ?_, rfl⟩
  have := components_normal (p := p) (s := c) (by rw [hc]; exact List.mem_map.2 ⟨c, hcp, rfl⟩)
  exact ⟨this.1, this.2.1, this.2.2.1, this.2.2.2, hu c hcp⟩

/-- A canonical name as a path stands for itself. -/
theorem fileName_of_canonical {n : Bytes} (h : Canonical n) : pathToFileName n = some n := by
  obtain ⟨ps, hne, hg, rfl⟩ := h
  have hcs : components (joinWith 47 ps) = ps.map .normal := by
    have h0 := components_join_pieces [] ps hne
      (fun c hc => ⟨(hg c hc).1, (hg c hc).2.1, (hg c hc).2.2.1, (hg c hc).2.2.2.1⟩)
    have hj : join [] (joinWith 47 ps) = joinWith 47 ps := by
      unfold join; split <;> simp
    rw [hj] at h0
    simpa [components, splitAt, bodyComponent] using h0
  unfold pathToFileName
  rw [hcs, fileName_iff _ (fun s hs => by
    obtain ⟨c, hc, he⟩ := List.mem_map.1 hs
    cases he
    exact (hg s hc).1)]
  exact ⟨ps, hne, rfl, fun p hp => (hg p hp).2.2.2.2, rfl⟩

section
variable [FloatFmt] [LocSort]

/-- The imports of a parsed file are canonical names. -/
theorem canonical_imports {name src : Bytes} {fd} (h : parseFn name src = .ok fd) : ∀ d ∈ fd.dependency, Canonical d := by
  intro d hd
  obtain ⟨f, ts, hp⟩ := Gen.parsed_of_ok (name := name) (src := src) (fd := fd) (by rw [C27_parseFn, h])
  have : fd.dependency = (Gen.fileDesc name f).dependency := by rw [← hp.made.desc]
  rw [this] at hd
  obtain ⟨i, hi, rfl⟩ := List.mem_map.1 hd
  obtain ⟨t, ht, hg⟩ := (Gen.fileG_from hp.gram).imports i hi
  cases hg with
  | mk h1 h2 h3 =>
    obtain ⟨cs, hne, rfl, hc⟩ := h3
    exact ⟨cs, hne, fun c hcs => ⟨(hc c hcs).1, (hc c hcs).2.1, (hc c hcs).2.2.1, (hc c hcs).2.2.2.2,
      utf8_pieces cs h2.2 c hcs⟩, rfl⟩

theorem canonical_resolve (fs : Bytes → FsEntry) (text : Bytes → Bytes) (includes : List Bytes) {p n : Bytes}
    (h : (defaultResolver parseFn fs text includes).nameOf p = some n) : Canonical n := by
  unfold PureResolver.nameOf at h
  rw [C18_resolve] at h
  split at h
  · rename_i m hm
    cases h
    obtain ⟨i, _, hi⟩ := List.exists_of_findSome?_eq_some hm
    obtain ⟨ps, h1, h2, _, h3⟩ := (C19_resolve_path_iff i p n).1 hi
    exact ⟨ps, h1, h2, h3⟩
  · exact canonical_of_fileName h

end

namespace Compiler
variable {R R' : Resolver} {link : Linker}

theorem importLoop_eq {add add' : Bytes → Compiler → Out × Compiler} (f : Verif.File) : ∀ (ds : List Bytes) (i : Nat)
    (seen : List Bytes) (s : Compiler), (∀ d ∈ ds, ∀ s, add d s = add' d s) →
      importLoop add f i seen ds s = importLoop add' f i seen ds s
  | [], _, _, _, _ => rfl
  | d :: ds, i, seen, s, h => by
    unfold importLoop
    split
    · rfl
    · rw [h d (.head _) s]
      split
      · exact importLoop_eq f ds _ _ _ fun d hd => h d (.tail _ hd)
      · rfl
      · rfl

theorem addImport_agree {C : Bytes → Prop} (hag : ∀ h n, C n → R.openFile h n = R'.openFile h n)
    (hcl : ∀ h n f, C n → R.openFile h n = .ok f → ∀ d ∈ f.descriptor.dependency, C d) :
    ∀ (fuel : Nat) (stack : List Bytes) (name : Bytes) (s : Compiler), C name →
      addImport R link fuel stack name s = addImport R' link fuel stack name s
  | 0, _, _, _, _ => rfl
  | fuel + 1, stack, name, s, hn => by
    unfold addImport
    split
    · rfl
    · split
      · rfl
      · simp only
        rw [← hag s.trace name hn]
        cases hf : R.openFile s.trace name with
        | error e => rfl
        | ok f =>
          simp only
          rw [importLoop_eq f f.descriptor.dependency 0 [] _ fun d hd s' =>
            addImport_agree hag hcl fuel (stack ++ [name]) d s' (hcl _ _ f hn hf d hd)]

theorem openFile_agree {C : Bytes → Prop} (hag : ∀ h n, C n → R.openFile h n = R'.openFile h n)
    (hcl : ∀ h n f, C n → R.openFile h n = .ok f → ∀ d ∈ f.descriptor.dependency, C d)
    (hres : ∀ h p, R.resolvePath h p = R'.resolvePath h p)
    (hname : ∀ s p n b, resolveName R s p = some (n, b) → C n) (fuel : Nat) (s : Compiler) (p : Bytes) :
    openFile R link fuel s p = openFile R' link fuel s p := by
  have hr : resolveName R s p = resolveName R' s p := by unfold resolveName; rw [hres]
  unfold openFile
  rw [← hr]
  cases hx : resolveName R s p with
  | none => rfl
  | some x =>
    obtain ⟨name, b⟩ := x
    have hC := hname s p name b hx
    simp only
    cases hm : s.files name with
    | some m => rfl
    | none =>
      simp only
      rw [← hag _ name hC]
      cases hf : R.openFile (s.trace ++ [.resolve p]) name with
      | error e => rfl
      | ok f =>
        simp only
        cases shadowError b name f.path p with
        | some e => rfl
        | none =>
          simp only
          rw [importLoop_eq f f.descriptor.dependency 0 [] _ fun d hd s' =>
            addImport_agree hag hcl fuel [name] d s' (hcl _ _ f hC hf d hd)]

theorem openFiles_agree {C : Bytes → Prop} (hag : ∀ h n, C n → R.openFile h n = R'.openFile h n)
    (hcl : ∀ h n f, C n → R.openFile h n = .ok f → ∀ d ∈ f.descriptor.dependency, C d)
    (hres : ∀ h p, R.resolvePath h p = R'.resolvePath h p)
    (hname : ∀ s p n b, resolveName R s p = some (n, b) → C n) (fuel : Nat) : ∀ (ps : List Bytes) (s : Compiler),
    openFiles R link fuel s ps = openFiles R' link fuel s ps
  | [], _ => rfl
  | p :: ps, s => by
    unfold openFiles
    rw [openFile_agree hag hcl hres hname fuel s p]
    split
    · exact openFiles_agree hag hcl hres hname fuel ps _
    · rfl

end Compiler
end Verif
