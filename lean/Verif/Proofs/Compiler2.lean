import Verif.Proofs.Compiler
namespace Verif.Compiler
variable {R : Resolver} {link : Linker}

/-- `s'` extends `s`: nothing held is lost or changed, new files are imports, options unchanged. -/
structure Ext (s s' : Compiler) : Prop where
  pool : ∃ new, s'.pool = s.pool ++ new
  keep : ∀ n m, s.files n = some m → s'.files n = some m
  fresh : ∀ n m, s.files n = none → s'.files n = some m → m.isImport = true
  imports : s'.includeImports = s.includeImports
  info : s'.includeSourceInfo = s.includeSourceInfo
  trace : ∃ t, s'.trace = s.trace ++ t

theorem Ext.refl (s : Compiler) : Ext s s :=
  ⟨⟨[], by simp⟩, fun _ _ h => h, fun _ _ h1 h2 => by simp [h1] at h2, rfl, rfl, ⟨[], by simp⟩⟩

theorem Ext.trans {a b c : Compiler} (h1 : Ext a b) (h2 : Ext b c) : Ext a c := by
  obtain ⟨p1, e1⟩ := h1.pool
  obtain ⟨p2, e2⟩ := h2.pool
  obtain ⟨t1, f1⟩ := h1.trace
  obtain ⟨t2, f2⟩ := h2.trace
  refine ⟨⟨p1 ++ p2, by rw [e2, e1]; simp⟩, fun n m h => h2.keep n m (h1.keep n m h), ?_,
    by rw [h2.imports, h1.imports], by rw [h2.info, h1.info], ⟨t1 ++ t2, by rw [f2, f1]; simp⟩⟩
  intro n m hn hm
  cases hb : b.files n with
  | none => exact h2.fresh n m hb hm
  | some m' =>
    have := h2.keep n m' hb
    rw [this] at hm; cases hm
    exact h1.fresh n _ hn hb

/-- Adding calls to the trace. -/
def addTrace (s : Compiler) (t : List Call) : Compiler := { s with trace := s.trace ++ t }

theorem Ext.addTrace (s : Compiler) (t : List Call) : Ext s (s.addTrace t) :=
  ⟨⟨[], by simp [Compiler.addTrace]⟩, fun _ _ h => h, fun _ _ h1 h2 => by simp [Compiler.addTrace, h1] at h2, rfl, rfl, ⟨t, rfl⟩⟩

theorem poolAdd_ok {pool pool' : List FileDescriptorProto} {f : File} (h : poolAdd link pool f = .ok pool') :
    (f.name ∈ fileNames pool ∧ pool' = pool) ∨
    (f.name ∉ fileNames pool ∧ ∃ d, link pool f = .ok d ∧ pool' = pool ++ [d]) := by
  unfold poolAdd at h
  split at h
  · rename_i hany
    left
    refine ⟨?_, by cases h; rfl⟩
    simp only [List.any_eq_true, beq_iff_eq] at hany
    obtain ⟨g, hg, he⟩ := hany
    rw [fileNames, List.mem_map]
    exact ⟨g, hg, he⟩
  · rename_i hany
    right
    split at h
    · cases h
    · rename_i d hd
      cases h
      refine ⟨?_, d, hd, rfl⟩
      simp only [List.any_eq_true, beq_iff_eq, not_exists, not_and] at hany
      rw [fileNames, List.mem_map]
      rintro ⟨g, hg, he⟩
      exact hany g hg he

theorem finish_ok {s s' : Compiler} {n : Bytes} {f : File} {b : Bool} (h : finish link s n f b = (.ok, s')) :
    ∃ pool', poolAdd link s.pool f = .ok pool' ∧
      s' = { s with pool := pool' }.setFile n ⟨n, f.path, b⟩ := by
  unfold finish at h
  split at h
  · cases h
  · rename_i pool' hp
    refine ⟨pool', hp, ?_⟩
    cases h; rfl

theorem finish_not_ok {s : Compiler} {n : Bytes} {f : File} {b : Bool}
    (h : (finish link s n f b).1 ≠ .ok) :
    ∃ e, poolAdd link s.pool f = .error e ∧ finish link s n f b = (.err e, s) := by
  unfold finish at h ⊢
  split
  · rename_i e he
    exact ⟨e, he, rfl⟩
  · rename_i p hp
    rw [hp] at h; simp at h

theorem finish_pool {s s' : Compiler} {n : Bytes} {f : File} {b : Bool} (h : finish link s n f b = (.ok, s')) :
    ∃ new, s'.pool = s.pool ++ new := by
  obtain ⟨p, hp, rfl⟩ := finish_ok h
  rcases poolAdd_ok hp with ⟨_, rfl⟩ | ⟨_, d, _, rfl⟩
  · exact ⟨[], by simp [setFile]⟩
  · exact ⟨[d], by simp [setFile]⟩

theorem finish_ext {s : Compiler} {n : Bytes} {f : File} (hn : s.files n = none) :
    Ext s (finish link s n f true).2 := by
  by_cases h : (finish link s n f true).1 = .ok
  · obtain ⟨p, hp, he⟩ := finish_ok (s' := (finish link s n f true).2) (by rw [← h])
    have hpool := finish_pool (s' := (finish link s n f true).2) (by rw [← h])
    refine ⟨hpool, ?_, ?_, ?_, ?_, ?_⟩
    · intro k m hk
      rw [he]; simp only [setFile]
      by_cases hkn : k = n
      · subst hkn; rw [hn] at hk; cases hk
      · rw [if_neg hkn]; exact hk
    · intro k m hk hm
      rw [he] at hm; simp only [setFile] at hm
      by_cases hkn : k = n
      · rw [if_pos hkn] at hm; cases hm; rfl
      · rw [if_neg hkn, hk] at hm; cases hm
    · rw [he]; rfl
    · rw [he]; rfl
    · rw [he]; exact ⟨[], by simp [setFile]⟩
  · obtain ⟨e, _, he⟩ := finish_not_ok h
    rw [he]; exact Ext.refl s

/-- The frame of `add_import`: it extends the state, never touches the names on the stack, and holds its
file if it succeeds. -/
theorem addImport_frame : ∀ (fuel : Nat) (stack : List Bytes) (name : Bytes) (s : Compiler),
    Ext s (addImport R link fuel stack name s).2 ∧
    (∀ n ∈ stack, (addImport R link fuel stack name s).2.files n = s.files n) ∧
    ((addImport R link fuel stack name s).1 = .ok →
      ((addImport R link fuel stack name s).2.files name).isSome) := by
  intro fuel
  induction fuel with
  | zero => intro stack name s; simp [addImport, Ext.refl]
  | succ fuel ih =>
    intro stack name s
    rw [addImport]
    split
    · simp [Ext.refl]
    rename_i hstack
    split
    · rename_i hh; simp [Ext.refl, hh]
    rename_i hheld
    have hnone : s.files name = none := by simpa using hheld
    have htr : Ext s { s with trace := s.trace ++ [.openF name] } := Ext.addTrace s _
    simp only
    split
    · exact ⟨htr, by simp, by simp⟩
    · rename_i f hf
      have hloop := importLoop_rule (addImport R link fuel (stack ++ [name])) f
        (fun _ s' => Ext s s' ∧ ∀ n ∈ stack ++ [name], s'.files n = s.files n)
        f.descriptor.dependency 0 [] { s with trace := s.trace ++ [.openF name] }
        ⟨htr, fun _ _ => rfl⟩
        (by
          intro _ d s' h _ _ _
          have := ih (stack ++ [name]) d s'
          exact ⟨h.1.trans this.1, fun n hn => (this.2.1 n hn).trans (h.2 n hn)⟩)
      simp only at hloop
      split
      · rename_i s2 hr
        rw [hr] at hloop
        rcases hloop with ⟨_, ⟨hext, hst⟩, _⟩ | ⟨h, _⟩
        · have hn2 : s2.files name = none := (hst name (by simp)).trans hnone
          refine ⟨hext.trans (finish_ext hn2), ?_, ?_⟩
          · intro n hn
            have hne : n ≠ name := fun h => hstack (h ▸ hn)
            by_cases h : (finish link s2 name f true).1 = .ok
            · obtain ⟨p, hp, he⟩ := finish_ok (s' := (finish link s2 name f true).2) (by rw [← h])
              rw [he]; simp only [setFile, if_neg hne]
              exact hst n (by simp [hn])
            · obtain ⟨e, _, he⟩ := finish_not_ok h
              rw [he]; exact hst n (by simp [hn])
          · intro h
            obtain ⟨p, hp, he⟩ := finish_ok (s' := (finish link s2 name f true).2) (by rw [← h])
            rw [he]; simp [setFile]
        · exact absurd rfl h
      · rename_i r hne
        have hnok : (importLoop (addImport R link fuel (stack ++ [name])) f 0 []
            f.descriptor.dependency { s with trace := s.trace ++ [.openF name] }).1 ≠ .ok := by
          intro h
          exact hne _ (Prod.ext h rfl)
        rcases hloop with ⟨h, _⟩ | ⟨_, pre, d, post, s1, _, ⟨hext, hst⟩, _, h | h⟩
        · exact absurd h hnok
        · refine ⟨?_, ?_, fun h' => absurd h' hnok⟩
          · rw [h.2]; exact hext
          · intro n hn; rw [h.2]; exact hst n (by simp [hn])
        · have := ih (stack ++ [name]) d s1
          refine ⟨?_, ?_, fun h' => absurd h' hnok⟩
          · rw [h.2.2]; exact hext.trans this.1
          · intro n hn; rw [h.2.2]; exact (this.2.1 n (by simp [hn])).trans (hst n (by simp [hn]))

/-- Invariant of the compiler for well-named resolvers. -/
structure Inv (s : Compiler) : Prop where
  held_iff : ∀ n, (s.files n).isSome ↔ n ∈ fileNames s.pool
  nodup : (fileNames s.pool).Nodup
  topo : TopoSorted s.pool
  meta_name : ∀ n m, s.files n = some m → m.name = n

theorem Inv.init : Inv Compiler.init := by
  refine ⟨by simp [Compiler.init, fileNames], by simp [Compiler.init, fileNames], ?_, by simp [Compiler.init]⟩
  intro pre d post h; simp [Compiler.init] at h

theorem TopoSorted.snoc {l : List FileDescriptorProto} {d : FileDescriptorProto} (h : TopoSorted l)
    (hd : ∀ dep ∈ d.dependency, dep ∈ fileNames l) : TopoSorted (l ++ [d]) := by
  intro pre e post heq dep hdep
  rcases List.eq_nil_or_concat post with rfl | ⟨post', z, rfl⟩
  · have := List.append_inj' heq (by simp)
    obtain ⟨rfl, h2⟩ := this
    simp at h2; subst h2; exact hd dep hdep
  · have heq' : l ++ [d] = (pre ++ e :: post') ++ [z] := by rw [heq]; simp
    have := List.append_inj' heq' (by simp)
    exact h pre e post' this.1 dep hdep

theorem finish_inv {s s' : Compiler} {n : Bytes} {f : File} {b : Bool} (hlaw : link.Lawful) (hs : Inv s)
    (hf : f.name = n) (hdeps : ∀ d ∈ f.descriptor.dependency, (s.files d).isSome)
    (h : finish link s n f b = (.ok, s')) : Inv s' := by
  obtain ⟨p, hp, rfl⟩ := finish_ok h
  have hmeta : ∀ k m, (if k = n then some (⟨n, f.path, b⟩ : FileMetadata) else s.files k) = some m → m.name = k := by
    intro k m hk
    by_cases hkn : k = n
    · rw [if_pos hkn] at hk; cases hk; exact hkn.symm
    · rw [if_neg hkn] at hk; exact hs.meta_name k m hk
  rcases poolAdd_ok hp with ⟨hmem, rfl⟩ | ⟨hmem, d, hd, rfl⟩
  · refine ⟨?_, hs.nodup, hs.topo, hmeta⟩
    intro k; simp only [setFile]
    by_cases hkn : k = n
    · subst hkn; simp; rw [← hf]; exact hmem
    · rw [if_neg hkn]; exact hs.held_iff k
  · have hname : d.getName = n := by rw [hlaw.name_eq _ _ _ hd, hf]
    refine ⟨?_, ?_, ?_, hmeta⟩
    · intro k; simp only [setFile, fileNames, List.map_append, List.mem_append, List.map_cons, List.map_nil,
        List.mem_singleton, hname]
      by_cases hkn : k = n
      · simp [hkn]
      · rw [if_neg hkn]; simp only [hkn, or_false]; exact hs.held_iff k
    · simp only [setFile, fileNames, List.map_append, List.map_cons, List.map_nil, hname]
      rw [List.nodup_append]
      refine ⟨hs.nodup, by simp, ?_⟩
      intro a ha b' hb'; simp at hb'; subst hb'; rintro rfl
      rw [hf] at hmem; exact hmem ha
    · refine TopoSorted.snoc hs.topo ?_
      intro dep hdep
      rw [hlaw.deps_eq _ _ _ hd] at hdep
      exact (hs.held_iff dep).1 (hdeps dep hdep)

theorem Inv.addTrace {s : Compiler} (h : Inv s) (t : List Call) : Inv { s with trace := s.trace ++ t } :=
  ⟨h.held_iff, h.nodup, h.topo, h.meta_name⟩

theorem Ext.held {s s' : Compiler} (h : Ext s s') {n : Bytes} (hn : (s.files n).isSome) : (s'.files n).isSome := by
  obtain ⟨m, hm⟩ := Option.isSome_iff_exists.1 hn
  rw [h.keep n m hm]; rfl

/-- After the import loop, the invariant holds and on success all imports are held. -/
theorem addImport_inv (hwn : R.WellNamed) (hlaw : link.Lawful) :
    ∀ (fuel : Nat) (stack : List Bytes) (name : Bytes) (s : Compiler), Inv s →
      Inv (addImport R link fuel stack name s).2 := by
  intro fuel
  induction fuel with
  | zero => intro stack name s h; simpa [addImport] using h
  | succ fuel ih =>
    intro stack name s hs
    rw [addImport]
    split
    · exact hs
    split
    · exact hs
    simp only
    split
    · exact hs.addTrace _
    · rename_i f hf
      have hloop := importLoop_rule (addImport R link fuel (stack ++ [name])) f
        (fun seen s' => Inv s' ∧ ∀ d ∈ seen, (s'.files d).isSome)
        f.descriptor.dependency 0 [] { s with trace := s.trace ++ [.openF name] }
        ⟨hs.addTrace _, by simp⟩
        (by
          intro seen d s' h _ _ hok
          have hfr := addImport_frame (R := R) (link := link) fuel (stack ++ [name]) d s'
          refine ⟨ih _ _ _ h.1, ?_⟩
          intro e he
          rcases List.mem_append.1 he with he | he
          · exact hfr.1.held (h.2 e he)
          · simp at he; subst he; exact hfr.2.2 hok)
      simp only at hloop
      split
      · rename_i s2 hr
        rw [hr] at hloop
        rcases hloop with ⟨_, ⟨hinv, hdeps⟩, _⟩ | ⟨h, _⟩
        · by_cases h : (finish link s2 name f true).1 = .ok
          · exact finish_inv hlaw hinv (hwn _ _ _ hf) (by simpa using hdeps) (b := true) (by rw [← h])
          · obtain ⟨e, _, he⟩ := finish_not_ok h
            rw [he]; exact hinv
        · exact absurd rfl h
      · rename_i r hne
        have hnok : (importLoop (addImport R link fuel (stack ++ [name])) f 0 []
            f.descriptor.dependency { s with trace := s.trace ++ [.openF name] }).1 ≠ .ok := by
          intro h
          exact hne _ (Prod.ext h rfl)
        rcases hloop with ⟨h, _⟩ | ⟨_, pre, d, post, s1, _, ⟨hinv, hst⟩, _, h | h⟩
        · exact absurd h hnok
        · rw [h.2]; exact hinv
        · rw [h.2.2]; exact ih _ _ _ hinv

end Verif.Compiler
