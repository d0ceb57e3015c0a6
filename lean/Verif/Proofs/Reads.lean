import Verif.Spec.Reads
import Verif.Proofs.Compiler7
/-! The calls made to the resolver. -/
namespace Verif.Compiler
variable {R : Resolver} {link : Linker}

/-- Going from `s` to `s'`, the files `t` were asked for. -/
structure Reads (s s' : Compiler) (t : List Bytes) : Prop where
  trace : s'.trace = s.trace ++ t.map .openF
  once : t.Nodup
  fresh : ∀ n ∈ t, s.files n = none
  taken : ∀ n, s.files n = none → (s'.files n).isSome → n ∈ t

theorem Reads.refl (s : Compiler) : Reads s s [] :=
  ⟨by simp, List.nodup_nil, nofun, fun n h1 h2 => by rw [h1] at h2; cases h2⟩

theorem Reads.trans {a b c : Compiler} {t u : List Bytes} (h1 : Reads a b t) (h2 : Reads b c u) (hab : Ext a b)
    (ht : ∀ n ∈ t, (b.files n).isSome) : Reads a c (t ++ u) := by
  refine ⟨by rw [h2.trace, h1.trace]; simp, ?_, ?_, ?_⟩
  · refine List.nodup_append.2 ⟨h1.once, h2.once, ?_⟩
    rintro x hx y hy rfl
    have := h2.fresh x hy
    have h3 := ht x hx
    rw [this] at h3; cases h3
  · intro n hn
    rcases List.mem_append.1 hn with hn | hn
    · exact h1.fresh n hn
    · cases ha : a.files n with
      | none => rfl
      | some m =>
        have := hab.keep n m ha
        rw [h2.fresh n hn] at this; cases this
  · intro n hn hc
    cases hb : b.files n with
    | none => exact List.mem_append_right _ (h2.taken n hb hc)
    | some m => exact List.mem_append_left _ (h1.taken n hn (by rw [hb]; rfl))

/-- The calls made by `add_import`. -/
def AddReads (R : Resolver) (link : Linker) (fuel : Nat) : Prop :=
  ∀ (stack : List Bytes) (name : Bytes) (s : Compiler), ∃ t, Reads s (addImport R link fuel stack name s).2 t ∧
    (∀ n ∈ t, n ∉ stack) ∧
    ((addImport R link fuel stack name s).1 = .ok → ∀ n ∈ t, ((addImport R link fuel stack name s).2.files n).isSome)

theorem imports_reads {fuel : Nat} (ih : AddReads R link fuel) (stack : List Bytes) (f : File) (s : Compiler) :
    ∃ t, Reads s (imports R link fuel stack f s).2 t ∧ (∀ n ∈ t, n ∉ stack) ∧
      ((imports R link fuel stack f s).1 = .ok → ∀ n ∈ t, ((imports R link fuel stack f s).2.files n).isSome) := by
  have hloop := importLoop_rule (addImport R link fuel stack) f
    (fun _ s' => Ext s s' ∧ ∃ t, Reads s s' t ∧ (∀ n ∈ t, n ∉ stack) ∧ ∀ n ∈ t, (s'.files n).isSome)
    f.descriptor.dependency 0 [] s ⟨Ext.refl s, [], Reads.refl s, nofun, nofun⟩
    (by
      rintro _ d s' ⟨hext, t, h1, h2, h3⟩ _ _ hok
      have hfr := addImport_frame (R := R) (link := link) fuel stack d s'
      obtain ⟨u, g1, g2, g3⟩ := ih stack d s'
      refine ⟨hext.trans hfr.1, t ++ u, h1.trans g1 hext h3, ?_, ?_⟩
      · intro n hn
        rcases List.mem_append.1 hn with hn | hn
        · exact h2 n hn
        · exact g2 n hn
      · intro n hn
        rcases List.mem_append.1 hn with hn | hn
        · exact hfr.1.held (h3 n hn)
        · exact g3 hok n hn)
  simp only at hloop
  rcases hloop with ⟨_, ⟨hext, t, h1, h2, h3⟩, _⟩ | ⟨hn, pre, d, post, s1, _, ⟨hext, t, h1, h2, h3⟩, _, h | h⟩
  · exact ⟨t, h1, h2, fun _ => h3⟩
  · refine ⟨t, ?_, h2, fun h' => absurd h' hn⟩
    rw [imports, h.2]; exact h1
  · obtain ⟨u, g1, g2, g3⟩ := ih stack d s1
    refine ⟨t ++ u, ?_, ?_, fun h' => absurd h' hn⟩
    · rw [imports, h.2.2]; exact h1.trans g1 hext h3
    · intro n hn
      rcases List.mem_append.1 hn with hn | hn
      · exact h2 n hn
      · exact g2 n hn

/-- What `finish` does to the files. -/
theorem finish_files (s : Compiler) (name : Bytes) (f : File) (b : Bool) :
    ((finish link s name f b).1 = .ok ∧
      (finish link s name f b).2.files = (fun k => if k = name then some ⟨name, f.path, b⟩ else s.files k)) ∨
    ((finish link s name f b).1 ≠ .ok ∧ (finish link s name f b).2 = s) := by
  by_cases h : (finish link s name f b).1 = .ok
  · obtain ⟨p, hp, he⟩ := finish_ok (s' := (finish link s name f b).2) (by rw [← h])
    exact Or.inl ⟨h, by rw [he]; rfl⟩
  · obtain ⟨e, _, he⟩ := finish_not_ok h
    exact Or.inr ⟨h, by rw [he]⟩

/-- Asking for a file, reading its imports, and putting it down. -/
theorem reads_file {s s1 s2 s3 : Compiler} {name : Bytes} {t : List Bytes} (hs : s.files name = none)
    (he : s1.files = s.files) (htr : s1.trace = s.trace ++ [.openF name]) (h : Reads s1 s2 t) (hn : name ∉ t)
    (h3 : s3.trace = s2.trace) (hf : ∀ n, (s3.files n).isSome → n = name ∨ (s2.files n).isSome) :
    Reads s s3 (name :: t) := by
  refine ⟨by rw [h3, h.trace, htr]; simp, List.nodup_cons.2 ⟨hn, h.once⟩, ?_, ?_⟩
  · intro n hn'
    rcases List.mem_cons.1 hn' with rfl | hn'
    · exact hs
    · rw [← he]; exact h.fresh n hn'
  · intro n h1 h2
    rcases hf n h2 with rfl | h2
    · exact .head _
    · exact .tail _ (h.taken n (by rw [he]; exact h1) h2)

theorem addImport_reads : ∀ fuel : Nat, AddReads R link fuel := by
  intro fuel
  induction fuel with
  | zero => intro stack name s; exact ⟨[], by simpa [addImport] using Reads.refl s, nofun, nofun⟩
  | succ fuel ih =>
    intro stack name s
    rw [addImport]
    split
    · exact ⟨[], Reads.refl s, nofun, nofun⟩
    rename_i hstack
    split
    · exact ⟨[], Reads.refl s, nofun, nofun⟩
    rename_i hheld
    have hnone : s.files name = none := by simpa using hheld
    simp only
    split
    · refine ⟨[name], reads_file (s1 := { s with trace := s.trace ++ [.openF name] }) (t := []) hnone rfl rfl
        (Reads.refl _) nofun rfl (fun n h => Or.inr h), ?_, nofun⟩
      intro n hn; rw [List.mem_singleton.1 hn]; exact hstack
    · rename_i f hf
      obtain ⟨t, h1, h2, h3⟩ := imports_reads (ih := ih) (stack ++ [name]) f { s with trace := s.trace ++ [.openF name] }
      have hnt : name ∉ t := fun h => h2 name h (by simp)
      have hst : ∀ n ∈ name :: t, n ∉ stack := by
        intro n hn
        rcases List.mem_cons.1 hn with rfl | hn
        · exact hstack
        · exact fun h => h2 n hn (by simp [h])
      split
      · rename_i s2 hr
        have hr' : imports R link fuel (stack ++ [name]) f { s with trace := s.trace ++ [.openF name] } = (.ok, s2) := hr
        rw [hr'] at h1 h3
        refine ⟨name :: t, reads_file (s1 := { s with trace := s.trace ++ [.openF name] }) hnone rfl rfl h1 hnt (finish_trace _ _ _ _) ?_, hst, ?_⟩
        · intro n hn
          rcases finish_files (link := link) s2 name f true with ⟨_, hf⟩ | ⟨_, hf⟩
          · rw [hf] at hn
            by_cases hnn : n = name
            · exact Or.inl hnn
            · simp only [if_neg hnn] at hn; exact Or.inr hn
          · rw [hf] at hn; exact Or.inr hn
        · intro hok n hn
          rcases finish_files (link := link) s2 name f true with ⟨_, hf⟩ | ⟨hno, _⟩
          · rw [hf]
            by_cases hnn : n = name
            · simp [hnn]
            · simp only [if_neg hnn]
              rcases List.mem_cons.1 hn with h | h
              · exact absurd h hnn
              · exact h3 rfl n h
          · exact absurd hok hno
      · rename_i x hne
        refine ⟨name :: t, reads_file (s1 := { s with trace := s.trace ++ [.openF name] }) hnone rfl rfl h1 hnt rfl (fun n h => Or.inr h), hst, ?_⟩
        intro hok
        exact (hne _ (Prod.ext hok rfl)).elim

/-- The calls made by `open_file`. -/
theorem openFile_reads (fuel : Nat) (s : Compiler) (p : Bytes) :
    ∃ t : List Bytes, (openFile R link fuel s p).2.trace = s.trace ++ .resolve p :: t.map .openF ∧ t.Nodup ∧
      (∀ n ∈ t, s.files n = none) ∧
      (∀ n, s.files n = none → ((openFile R link fuel s p).2.files n).isSome → n ∈ t) ∧
      ((openFile R link fuel s p).1 = .ok → ∀ n ∈ t, ((openFile R link fuel s p).2.files n).isSome) := by
  have hc := openFile_cases (R := R) (link := link) fuel s p
  generalize openFile R link fuel s p = x at hc
  have key : ∀ {s3 : Compiler} {t : List Bytes}, Reads (s.addTrace [.resolve p]) s3 t →
      s3.trace = s.trace ++ .resolve p :: t.map .openF ∧ t.Nodup ∧ (∀ n ∈ t, s.files n = none) ∧
      (∀ n, s.files n = none → (s3.files n).isSome → n ∈ t) := by
    intro s3 t h
    refine ⟨by rw [h.trace]; simp [addTrace], h.once, h.fresh, h.taken⟩
  have key2 : ∀ {name : Bytes} {f : File} {s3 : Compiler}, s.files name = none → 
      s3.trace = (imports R link fuel [name] f (s.addTrace [.resolve p, .openF name])).2.trace →
      (∀ n, (s3.files n).isSome → n = name ∨ ((imports R link fuel [name] f (s.addTrace [.resolve p, .openF name])).2.files n).isSome) →
      ∃ t, Reads (s.addTrace [.resolve p]) s3 (name :: t) ∧
        ((imports R link fuel [name] f (s.addTrace [.resolve p, .openF name])).1 = .ok →
          ∀ n ∈ t, ((imports R link fuel [name] f (s.addTrace [.resolve p, .openF name])).2.files n).isSome) := by
    intro name f s3 hm h3 hf
    obtain ⟨t, h1, h2, h4⟩ := imports_reads (link := link) (addImport_reads (R := R) fuel) [name] f (s.addTrace [.resolve p, .openF name])
    exact ⟨t, reads_file (s := s.addTrace [.resolve p]) (s1 := s.addTrace [.resolve p, .openF name]) hm rfl
      (by simp [addTrace]) h1 (fun h => h2 name h (by simp)) h3 hf, h4⟩
  cases hc with
  | noName | heldShadow => exact ⟨[], (key (Reads.refl _)).1, (key (Reads.refl _)).2.1, nofun, (key (Reads.refl _)).2.2.2, nofun⟩
  | held name res m hn hm hsh =>
    refine ⟨[], by simp [setFile, addTrace], List.nodup_nil, nofun, ?_, nofun⟩
    intro n h1 h2
    simp only [setFile, addTrace] at h2
    by_cases hk : n = name
    · rw [hk, hm] at h1; cases h1
    · rw [if_neg hk, h1] at h2; cases h2
  | openErr name res e hn hm he =>
    refine ⟨[name], by simp [addTrace], by simp, by simpa using hm, ?_, nofun⟩
    intro n h1 h2
    simp only [addTrace] at h2
    rw [h1] at h2; cases h2
  | shadow name res f e hn hm hf he =>
    refine ⟨[name], by simp [addTrace], by simp, by simpa using hm, ?_, nofun⟩
    intro n h1 h2
    simp only [addTrace] at h2
    rw [h1] at h2; cases h2
  | importFail name res f hn hm hf hsh hno =>
    obtain ⟨t, h1, h2⟩ := key2 (f := f) hm rfl (fun n h => Or.inr h)
    exact ⟨_, (key h1).1, (key h1).2.1, (key h1).2.2.1, (key h1).2.2.2, fun h => absurd h hno⟩
  | finish name res f s2 hn hm hf hsh h2 =>
    obtain ⟨t, g1, g2⟩ := key2 (f := f) (s3 := (Compiler.finish link s2 name f false).2) hm
      (by rw [h2]; exact finish_trace _ _ _ _)
      (by
        intro n hn
        rw [h2]
        rcases finish_files (link := link) s2 name f false with ⟨_, hf⟩ | ⟨_, hf⟩
        · rw [hf] at hn
          by_cases hnn : n = name
          · exact Or.inl hnn
          · simp only [if_neg hnn] at hn; exact Or.inr hn
        · rw [hf] at hn; exact Or.inr hn)
    refine ⟨_, (key g1).1, (key g1).2.1, (key g1).2.2.1, (key g1).2.2.2, ?_⟩
    intro hok n hn
    rw [h2] at g2
    rcases finish_files (link := link) s2 name f false with ⟨_, hf⟩ | ⟨hno, _⟩
    · rw [hf]
      by_cases hnn : n = name
      · simp [hnn]
      · simp only [if_neg hnn]
        rcases List.mem_cons.1 hn with h | h
        · exact absurd h hnn
        · exact g2 rfl n h
    · exact absurd hok hno

end Verif.Compiler
