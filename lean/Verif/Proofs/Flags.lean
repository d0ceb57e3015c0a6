import Verif.Proofs.Builtin
/-!
The two settings of the compiler do not influence what happens when files are opened.
-/
namespace Verif
open Compiler
section
variable {R : Resolver} {link : Linker}

/-- The state with other settings. -/
def Compiler.withFlags (i j : Bool) (s : Compiler) : Compiler := { s with includeImports := i, includeSourceInfo := j }

/-- Outcome and state with other settings. -/
def flagged (i j : Bool) (x : Out × Compiler) : Out × Compiler := (x.1, x.2.withFlags i j)

theorem finish_flagged (i j : Bool) (s : Compiler) (n : Bytes) (f : File) (b : Bool) :
    finish link (s.withFlags i j) n f b = flagged i j (finish link s n f b) := by
  unfold finish
  have : (s.withFlags i j).pool = s.pool := rfl
  rw [this]
  cases poolAdd link s.pool f <;> rfl

theorem importLoop_flagged (i j : Bool) {add : Bytes → Compiler → Out × Compiler} (f : File)
    (hadd : ∀ d s, add d (s.withFlags i j) = flagged i j (add d s)) : ∀ (ds : List Bytes) (k : Nat) (seen : List Bytes) (s : Compiler),
    importLoop add f k seen ds (s.withFlags i j) = flagged i j (importLoop add f k seen ds s)
  | [], _, _, _ => rfl
  | d :: ds, k, seen, s => by
    rw [importLoop, importLoop]
    split
    · cases duplicatedImport d f k <;> rfl
    · rw [hadd]
      obtain ⟨o, s'⟩ := add d s
      cases o with
      | ok => exact importLoop_flagged i j f hadd ds (k + 1) (seen ++ [d]) s'
      | err e => simp only [flagged]; cases intoImportError e f k <;> rfl
      | panic => rfl
      | oof => rfl

theorem addImport_flagged (i j : Bool) : ∀ (fuel : Nat) (stack : List Bytes) (n : Bytes) (s : Compiler),
    addImport R link fuel stack n (s.withFlags i j) = flagged i j (addImport R link fuel stack n s)
  | 0, _, _, _ => rfl
  | fuel + 1, stack, n, s => by
    rw [addImport, addImport]
    split
    · rfl
    · have h1 : (s.withFlags i j).files = s.files := rfl
      have h2 : (s.withFlags i j).trace = s.trace := rfl
      rw [h1, h2]
      split
      · rfl
      · simp only
        cases R.openFile s.trace n with
        | error e => rfl
        | ok f =>
          simp only
          have h := importLoop_flagged i j (add := addImport R link fuel (stack ++ [n])) f
            (fun d s => addImport_flagged i j fuel _ d s) f.descriptor.dependency 0 [] { s with trace := s.trace ++ [.openF n] }
          change importLoop _ f 0 [] f.descriptor.dependency
            (Compiler.withFlags i j { s with trace := s.trace ++ [.openF n] }) = _ at h
          show (match importLoop (addImport R link fuel (stack ++ [n])) f 0 [] f.descriptor.dependency
            (Compiler.withFlags i j { s with trace := s.trace ++ [.openF n] }) with
            | (.ok, s2) => finish link s2 n f true
            | r => r) = _
          rw [h]
          generalize importLoop (addImport R link fuel (stack ++ [n])) f 0 [] f.descriptor.dependency _ = x
          obtain ⟨o, s'⟩ := x
          cases o with
          | ok => exact finish_flagged i j s' n f true
          | err e => rfl
          | panic => rfl
          | oof => rfl

theorem openFile_flagged (i j : Bool) (fuel : Nat) (s : Compiler) (p : Bytes) :
    openFile R link fuel (s.withFlags i j) p = flagged i j (openFile R link fuel s p) := by
  unfold openFile
  have h0 : resolveName R (s.withFlags i j) p = resolveName R s p := rfl
  have h1 : (s.withFlags i j).files = s.files := rfl
  have h2 : (s.withFlags i j).trace = s.trace := rfl
  rw [h0, h1, h2]
  cases resolveName R s p with
  | none => rfl
  | some x =>
    obtain ⟨n, b⟩ := x
    simp only
    cases s.files n with
    | some m =>
      simp only
      cases shadowError b n m.path p <;> rfl
    | none =>
      simp only
      cases R.openFile (s.trace ++ [.resolve p]) n with
      | error e => rfl
      | ok f =>
        simp only
        cases shadowError b n f.path p with
        | some e => rfl
        | none =>
          simp only
          have h := importLoop_flagged i j (add := addImport R link fuel [n]) f
            (fun d s => addImport_flagged i j fuel _ d s) f.descriptor.dependency 0 []
            { s with trace := s.trace ++ [.resolve p] ++ [.openF n] }
          show (match importLoop (addImport R link fuel [n]) f 0 [] f.descriptor.dependency
            (Compiler.withFlags i j { s with trace := s.trace ++ [.resolve p] ++ [.openF n] }) with
            | (.ok, s2) => finish link s2 n f false
            | r => r) = _
          rw [h]
          generalize importLoop (addImport R link fuel [n]) f 0 [] f.descriptor.dependency _ = x
          obtain ⟨o, s'⟩ := x
          cases o with
          | ok => exact finish_flagged i j s' n f false
          | err e => rfl
          | panic => rfl
          | oof => rfl

theorem openFiles_flagged (i j : Bool) (fuel : Nat) : ∀ (ps : List Bytes) (s : Compiler),
    openFiles R link fuel (s.withFlags i j) ps = flagged i j (openFiles R link fuel s ps)
  | [], _ => rfl
  | p :: ps, s => by
    rw [openFiles, openFiles, openFile_flagged]
    obtain ⟨o, s'⟩ := openFile R link fuel s p
    cases o with
    | ok => exact openFiles_flagged i j fuel ps s'
    | err e => rfl
    | panic => rfl
    | oof => rfl

end
end Verif
