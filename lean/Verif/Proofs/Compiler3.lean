import Verif.Proofs.Compiler2
namespace Verif.Compiler
variable {R : Resolver} {link : Linker}

/-- The import loop over `add_import`. -/
abbrev imports (R : Resolver) (link : Linker) (fuel : Nat) (stack : List Bytes) (f : File) (s : Compiler) : Out × Compiler :=
  importLoop (addImport R link fuel stack) f 0 [] f.descriptor.dependency s

theorem imports_frame (fuel : Nat) (stack : List Bytes) (f : File) (s : Compiler) :
    Ext s (imports R link fuel stack f s).2 ∧
    (∀ n ∈ stack, (imports R link fuel stack f s).2.files n = s.files n) ∧
    ((imports R link fuel stack f s).1 = .ok →
      ∀ d ∈ f.descriptor.dependency, ((imports R link fuel stack f s).2.files d).isSome) := by
  have hloop := importLoop_rule (addImport R link fuel stack) f
    (fun seen s' => Ext s s' ∧ (∀ n ∈ stack, s'.files n = s.files n) ∧ ∀ d ∈ seen, (s'.files d).isSome)
    f.descriptor.dependency 0 [] s ⟨Ext.refl s, fun _ _ => rfl, by simp⟩
    (by
      intro seen d s' h _ _ hok
      have hfr := addImport_frame (R := R) (link := link) fuel stack d s'
      refine ⟨h.1.trans hfr.1, fun n hn => (hfr.2.1 n hn).trans (h.2.1 n hn), ?_⟩
      intro e he
      rcases List.mem_append.1 he with he | he
      · exact hfr.1.held (h.2.2 e he)
      · simp at he; subst he; exact hfr.2.2 hok)
  simp only at hloop
  rcases hloop with ⟨_, ⟨h1, h2, h3⟩, _⟩ | ⟨hn, pre, d, post, s1, _, ⟨h1, h2, h3⟩, _, h | h⟩
  · exact ⟨h1, h2, fun _ => by simpa using h3⟩
  · refine ⟨?_, ?_, fun h' => absurd h' hn⟩ <;> rw [imports, h.2] <;> assumption
  · have hfr := addImport_frame (R := R) (link := link) fuel stack d s1
    refine ⟨?_, ?_, fun h' => absurd h' hn⟩ <;> rw [imports, h.2.2]
    · exact h1.trans hfr.1
    · intro n hn; exact (hfr.2.1 n hn).trans (h2 n hn)

theorem imports_inv (hwn : R.WellNamed) (hlaw : link.Lawful) (fuel : Nat) (stack : List Bytes) (f : File)
    (s : Compiler) (hs : Inv s) : Inv (imports R link fuel stack f s).2 := by
  have hloop := importLoop_rule (addImport R link fuel stack) f (fun _ s' => Inv s')
    f.descriptor.dependency 0 [] s hs
    (fun _ d s' h _ _ _ => addImport_inv hwn hlaw fuel stack d s' h)
  simp only at hloop
  rcases hloop with ⟨_, h, _⟩ | ⟨_, pre, d, post, s1, _, h1, _, h | h⟩
  · exact h
  · rw [imports, h.2]; exact h1
  · rw [imports, h.2.2]; exact addImport_inv hwn hlaw fuel stack d s1 h1

/-- The possible courses of an `open_file` call. -/
inductive OpenCase (R : Resolver) (link : Linker) (fuel : Nat) (s : Compiler) (path : Bytes) : Out × Compiler → Prop where
  | noName : resolveName R s path = none →
      OpenCase R link fuel s path (.err (.fileNotIncluded path), s.addTrace [.resolve path])
  | heldShadow (name : Bytes) (res : Bool) (m : FileMetadata) (e : Error) :
      resolveName R s path = some (name, res) → s.files name = some m →
      shadowError res name m.path path = some e →
      OpenCase R link fuel s path (.err e, s.addTrace [.resolve path])
  | held (name : Bytes) (res : Bool) (m : FileMetadata) :
      resolveName R s path = some (name, res) → s.files name = some m →
      shadowError res name m.path path = none →
      OpenCase R link fuel s path
        (.ok, (s.addTrace [.resolve path]).setFile name { m with isImport := false })
  | openErr (name : Bytes) (res : Bool) (e : Error) :
      resolveName R s path = some (name, res) → s.files name = none →
      R.openFile (s.trace ++ [.resolve path]) name = .error e →
      OpenCase R link fuel s path
        (.err (if e.isFileNotFound then .fileNotIncluded path else e), s.addTrace [.resolve path, .openF name])
  | shadow (name : Bytes) (res : Bool) (f : File) (e : Error) :
      resolveName R s path = some (name, res) → s.files name = none →
      R.openFile (s.trace ++ [.resolve path]) name = .ok f →
      shadowError res name f.path path = some e →
      OpenCase R link fuel s path (.err e, s.addTrace [.resolve path, .openF name])
  | importFail (name : Bytes) (res : Bool) (f : File) :
      resolveName R s path = some (name, res) → s.files name = none →
      R.openFile (s.trace ++ [.resolve path]) name = .ok f →
      shadowError res name f.path path = none →
      (imports R link fuel [name] f (s.addTrace [.resolve path, .openF name])).1 ≠ .ok →
      OpenCase R link fuel s path (imports R link fuel [name] f (s.addTrace [.resolve path, .openF name]))
  | finish (name : Bytes) (res : Bool) (f : File) (s2 : Compiler) :
      resolveName R s path = some (name, res) → s.files name = none →
      R.openFile (s.trace ++ [.resolve path]) name = .ok f →
      shadowError res name f.path path = none →
      imports R link fuel [name] f (s.addTrace [.resolve path, .openF name]) = (.ok, s2) →
      OpenCase R link fuel s path (Compiler.finish link s2 name f false)

theorem openFile_cases (fuel : Nat) (s : Compiler) (path : Bytes) :
    OpenCase R link fuel s path (openFile R link fuel s path) := by
  have e2 : ∀ name, ({ s with trace := s.trace ++ [.resolve path] ++ [.openF name] } : Compiler)
      = s.addTrace [.resolve path, .openF name] := by intro name; simp [addTrace]
  rw [openFile]
  simp only
  split
  · rename_i h; exact .noName h
  · rename_i name res hn
    split
    · rename_i m hm
      split
      · rename_i e he; exact .heldShadow name res m e hn hm he
      · rename_i he; exact .held name res m hn hm he
    · rename_i hm
      simp only [e2]
      split
      · rename_i e he; exact .openErr name res e hn hm he
      · rename_i f hf
        split
        · rename_i e he; exact .shadow name res f e hn hm hf he
        · rename_i he
          split
          · rename_i s2 h2; exact .finish name res f s2 hn hm hf he h2
          · rename_i r hne
            refine .importFail name res f hn hm hf he ?_
            intro h
            exact hne _ (Prod.ext h rfl)

/-- Invariant preservation for `open_file`. -/
theorem openFile_inv (hwn : R.WellNamed) (hlaw : link.Lawful) (fuel : Nat) (s : Compiler) (path : Bytes)
    (hs : Inv s) : Inv (openFile R link fuel s path).2 := by
  have hc := openFile_cases (R := R) (link := link) fuel s path
  generalize openFile R link fuel s path = r at hc
  cases hc with
  | noName => exact hs.addTrace _
  | heldShadow => exact hs.addTrace _
  | held name res m hn hm hsh =>
    refine ⟨?_, hs.nodup, hs.topo, ?_⟩
    · intro k; simp only [setFile, addTrace]
      by_cases hk : k = name
      · rw [if_pos hk]; subst hk; simp only [Option.isSome_some, true_iff]
        exact (hs.held_iff k).1 (by rw [hm]; rfl)
      · rw [if_neg hk]; exact hs.held_iff k
    · intro k m' hk; simp only [setFile, addTrace] at hk
      by_cases hkn : k = name
      · rw [if_pos hkn] at hk; cases hk; rw [hkn]; exact hs.meta_name name m hm
      · rw [if_neg hkn] at hk; exact hs.meta_name k m' hk
  | openErr => exact hs.addTrace _
  | shadow => exact hs.addTrace _
  | importFail name res f hn hm hf hsh hno => exact imports_inv hwn hlaw _ _ _ _ (hs.addTrace _)
  | finish name res f s2 hn hm hf hsh h2 =>
    have hinv : Inv s2 := by
      have := imports_inv (R := R) (link := link) hwn hlaw fuel [name] f _ (hs.addTrace [.resolve path, .openF name])
      rw [show ({ s with trace := s.trace ++ [.resolve path, .openF name] } : Compiler)
        = s.addTrace [.resolve path, .openF name] from rfl, h2] at this
      exact this
    have hfr := imports_frame (R := R) (link := link) fuel [name] f (s.addTrace [.resolve path, .openF name])
    rw [h2] at hfr
    by_cases h : (Compiler.finish link s2 name f false).1 = .ok
    · exact finish_inv hlaw hinv (hwn _ _ _ hf) (hfr.2.2 rfl) (b := false) (by rw [← h])
    · obtain ⟨e, _, he⟩ := finish_not_ok h
      rw [he]; exact hinv

theorem openFiles_inv (hwn : R.WellNamed) (hlaw : link.Lawful) (fuel : Nat) (ps : List Bytes) :
    ∀ s : Compiler, Inv s → Inv (openFiles R link fuel s ps).2 := by
  induction ps with
  | nil => intro s h; exact h
  | cons p ps ih =>
    intro s h
    have := openFile_inv hwn hlaw fuel s p h
    rw [openFiles]
    split
    · rename_i s' hs'; rw [hs'] at this; exact ih _ this
    · exact this

theorem reachable_inv (hwn : R.WellNamed) (hlaw : link.Lawful) {s : Compiler} (h : Reachable R link s) : Inv s := by
  induction h with
  | init => exact Inv.init
  | step fuel s op _ ih =>
    cases op with
    | openFile p => exact openFile_inv hwn hlaw fuel s p ih
    | openFiles ps => exact openFiles_inv hwn hlaw fuel ps s ih
    | setIncludeImports b => exact ⟨ih.held_iff, ih.nodup, ih.topo, ih.meta_name⟩
    | setIncludeSourceInfo b => exact ⟨ih.held_iff, ih.nodup, ih.topo, ih.meta_name⟩

end Verif.Compiler
