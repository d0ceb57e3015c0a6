import Verif.Proofs.Compiler6
/-! Acceptance of valid graphs; independence of the order of opening. -/
namespace Verif
namespace PureResolver
variable {r : PureResolver}
theorem Reach.trans {a b c : Bytes} (h1 : Reach r a b) (h2 : Reach r b c) : Reach r a c := by
  induction h1 with
  | refl => exact h2
  | step he _ ih => exact .step he (ih h2)
theorem ReachPlus.snoc {a b c : Bytes} (h1 : ReachPlus r a b) (he : Edge r b c) : ReachPlus r a c := by
  obtain ⟨x, hx, hr⟩ := h1
  exact ⟨x, hx, hr.trans (.step he (.refl _))⟩
end PureResolver
namespace Compiler
open PureResolver
variable {r : PureResolver} {link : Linker}

theorem finish_accepts {U : List Bytes} (hg : ValidGraph r link U) {s : Compiler} {n : Bytes} {f : File} {b : Bool}
    (hs : Inv s) (hn : n ∈ U) (hf : r.openFile n = .ok f) (hfn : f.name = n) (hno : s.files n = none)
    (hdeps : ∀ d ∈ f.descriptor.dependency, (s.files d).isSome) : (finish link s n f b).1 = .ok := by
  have hnot : n ∉ fileNames s.pool := fun h => by
    have := (hs.held_iff n).2 h; rw [hno] at this; cases this
  obtain ⟨d, hd⟩ := hg.links n hn f hf s.pool hs.topo hnot (fun d hd => (hs.held_iff d).1 (hdeps d hd))
  unfold finish poolAdd
  rw [if_neg]
  · simp [hd]
  · simp only [List.any_eq_true, beq_iff_eq, not_exists, not_and]
    intro g hg' he
    apply hnot
    rw [fileNames, List.mem_map]; exact ⟨g, hg', by rw [he, hfn]⟩

theorem addImport_accepts_gen (hwn : r.toResolver.WellNamed) (hlaw : link.Lawful) {U : List Bytes}
    (hg : ValidGraph r link U) (outer : List Bytes) (hout : ∀ x ∈ outer, x ∉ U) :
    ∀ (fuel : Nat) (stack : List Bytes) (name : Bytes) (s : Compiler), Inv s → stack.Nodup →
      (∀ x ∈ stack, x ∈ U ∧ ReachPlus r x name) → name ∈ U → U.length + 1 ≤ fuel + stack.length →
      (addImport r.toResolver link fuel (outer ++ stack) name s).1 = .ok := by
  intro fuel
  induction fuel with
  | zero =>
    intro stack name s _ hnd hst _ hle
    have := nodup_subset_length hnd (fun x hx => (hst x hx).1)
    omega
  | succ fuel ih =>
    intro stack name s hs hnd hst hname hle
    have hstack : name ∉ stack := fun h => hg.acyclic name hname (hst name h).2
    have hstack' : name ∉ outer ++ stack := by
      intro h
      rcases List.mem_append.1 h with h | h
      · exact hout name h hname
      · exact hstack h
    rw [addImport, if_neg hstack']
    split
    · rfl
    rename_i hheld
    have hnone : s.files name = none := by simpa using hheld
    obtain ⟨f, hf, hfnd, hfU⟩ := hg.found name hname
    have hopen : r.toResolver.openFile s.trace name = .ok f := hf
    simp only [hopen]
    have hnd' : (stack ++ [name]).Nodup := by
      rw [List.nodup_append]; refine ⟨hnd, by simp, ?_⟩
      intro a ha b hb; simp at hb; subst hb; rintro rfl; exact hstack ha
    have hadd : ∀ d ∈ f.descriptor.dependency, ∀ s', Inv s' →
        (addImport r.toResolver link fuel (outer ++ stack ++ [name]) d s').1 = .ok := by
      intro d hd s' hs'
      rw [List.append_assoc]
      have he : Edge r name d := ⟨f, hf, hd⟩
      refine ih _ _ _ hs' hnd' ?_ (hfU d hd) (by simp; omega)
      intro x hx
      rcases List.mem_append.1 hx with h | h
      · exact ⟨(hst x h).1, (hst x h).2.snoc he⟩
      · simp at h; subst h; exact ⟨hname, d, he, .refl _⟩
    have hloop := importLoop_rule (addImport r.toResolver link fuel (outer ++ stack ++ [name])) f
      (fun seen s' => Inv s' ∧ s'.files name = none ∧ ∀ d ∈ seen, (s'.files d).isSome)
      f.descriptor.dependency 0 [] { s with trace := s.trace ++ [.openF name] }
      ⟨hs.addTrace _, hnone, by simp⟩
      (by
        rintro seen d s' ⟨h1, h2, h3⟩ _ _ hok
        have hfr := addImport_frame (R := r.toResolver) (link := link) fuel (outer ++ stack ++ [name]) d s'
        refine ⟨addImport_inv hwn hlaw _ _ _ _ h1, (hfr.2.1 name (by simp)).trans h2, ?_⟩
        intro e he
        rcases List.mem_append.1 he with he | he
        · exact hfr.1.held (h3 e he)
        · simp at he; subst he; exact hfr.2.2 hok)
    simp only at hloop
    split
    · rename_i s2 hr
      rw [hr] at hloop
      rcases hloop with ⟨_, ⟨h1, h2, h3⟩, _⟩ | ⟨h, _⟩
      · exact finish_accepts hg h1 hname hf (hwn [] _ _ hf) h2 (by simpa using h3)
      · exact absurd rfl h
    · rename_i x hne
      rcases hloop with ⟨h, _⟩ | ⟨_, pre, d, post, s1, hds, ⟨h1, h2, h3⟩, _, h | h⟩
      · exact (hne _ (Prod.ext h rfl)).elim
      · exfalso
        rw [hds, List.nodup_append] at hfnd
        exact hfnd.2.2 d (by simpa using h.1) d (by simp) rfl
      · exact absurd (hadd d (by rw [hds]; simp) s1 h1) h.2.1

theorem addImport_accepts (hwn : r.toResolver.WellNamed) (hlaw : link.Lawful) {U : List Bytes}
    (hg : ValidGraph r link U) (fuel : Nat) (stack : List Bytes) (name : Bytes) (s : Compiler) (h1 : Inv s)
    (h2 : stack.Nodup) (h3 : ∀ x ∈ stack, x ∈ U ∧ ReachPlus r x name) (h4 : name ∈ U)
    (h5 : U.length + 1 ≤ fuel + stack.length) :
    (addImport r.toResolver link fuel stack name s).1 = .ok :=
  addImport_accepts_gen hwn hlaw hg [] (by simp) fuel stack name s h1 h2 h3 h4 h5

theorem addImport_accepts_outside (hwn : r.toResolver.WellNamed) (hlaw : link.Lawful) {U : List Bytes}
    (hg : ValidGraph r link U) (fuel : Nat) (outer : List Bytes) (name : Bytes) (s : Compiler) (h1 : Inv s)
    (h2 : ∀ x ∈ outer, x ∉ U) (h4 : name ∈ U) (h5 : U.length + 1 ≤ fuel) :
    (addImport r.toResolver link fuel outer name s).1 = .ok := by
  have := addImport_accepts_gen hwn hlaw hg outer h2 fuel [] name s h1 (by simp) (by simp) h4 (by simpa using h5)
  simpa using this

theorem imports_accepts (hwn : r.toResolver.WellNamed) (hlaw : link.Lawful) {U : List Bytes}
    (hg : ValidGraph r link U) (fuel : Nat) (name : Bytes) (f : File) (s : Compiler) (hs : Inv s) (hname : name ∈ U)
    (hf : r.openFile name = .ok f) (hle : U.length ≤ fuel) :
    (imports r.toResolver link fuel [name] f s).1 = .ok := by
  obtain ⟨f', hf', hfnd, hfU⟩ := hg.found name hname
  rw [hf] at hf'; cases hf'
  have hloop := importLoop_rule (addImport r.toResolver link fuel [name]) f
    (fun _ s' => Inv s') f.descriptor.dependency 0 [] s hs
    (fun _ d s' h _ _ _ => addImport_inv hwn hlaw fuel [name] d s' h)
  simp only at hloop
  rcases hloop with ⟨h, _⟩ | ⟨_, pre, d, post, s1, hds, h1, _, h | h⟩
  · exact h
  · exfalso
    rw [hds, List.nodup_append] at hfnd
    exact hfnd.2.2 d (by simpa using h.1) d (by simp) rfl
  · exfalso
    have hd : d ∈ f.descriptor.dependency := by rw [hds]; simp
    refine h.2.1 (addImport_accepts hwn hlaw hg fuel [name] d s1 h1 (by simp) ?_ (hfU d hd) (by simpa using hle))
    intro x hx; simp at hx; subst hx
    exact ⟨hname, d, ⟨f, hf, hd⟩, .refl _⟩

/-! ### Only reachable names are added -/

theorem addImport_only : ∀ (fuel : Nat) (stack : List Bytes) (name : Bytes) (s : Compiler) (n : Bytes),
    ((addImport r.toResolver link fuel stack name s).2.files n).isSome → (s.files n).isSome ∨ Reach r name n := by
  intro fuel
  induction fuel with
  | zero => intro stack name s n h; simp [addImport] at h; exact Or.inl h
  | succ fuel ih =>
    intro stack name s n h
    rw [addImport] at h
    split at h
    · exact Or.inl h
    split at h
    · exact Or.inl h
    simp only at h
    split at h
    · exact Or.inl h
    rename_i f hf
    have hloop := importLoop_rule (addImport r.toResolver link fuel (stack ++ [name])) f
      (fun _ s' => ∀ k, (s'.files k).isSome → (s.files k).isSome ∨ Reach r name k)
      f.descriptor.dependency 0 [] { s with trace := s.trace ++ [.openF name] } (fun k hk => Or.inl hk)
      (by
        intro seen d s' h1 hd _ _ k hk
        rcases ih _ _ _ _ hk with h | h
        · exact h1 k h
        · exact Or.inr (.step ⟨f, hf, hd⟩ h))
    simp only at hloop
    split at h
    · rename_i s2 hr
      rw [hr] at hloop
      rcases hloop with ⟨_, h1, _⟩ | ⟨h', _⟩
      · by_cases hk : (finish link s2 name f true).1 = .ok
        · obtain ⟨p, hp, he⟩ := finish_ok (s' := (finish link s2 name f true).2) (by rw [← hk])
          rw [he] at h; simp only [setFile] at h
          by_cases hn : n = name
          · subst hn; exact Or.inr (.refl _)
          · rw [if_neg hn] at h; exact h1 n h
        · obtain ⟨e, _, he⟩ := finish_not_ok hk
          rw [he] at h; exact h1 n h
      · exact absurd rfl h'
    · rename_i x hne
      rcases hloop with ⟨h', _⟩ | ⟨_, pre, d, post, s1, hds, h1, _, h' | h'⟩
      · exact (hne _ (Prod.ext h' rfl)).elim
      · rw [h'.2] at h; exact h1 n h
      · rw [h'.2.2] at h
        rcases ih _ _ _ _ h with h2 | h2
        · exact h1 n h2
        · exact Or.inr (.step ⟨f, hf, by rw [hds]; simp⟩ h2)

theorem openFile_only (fuel : Nat) (s : Compiler) (p k : Bytes)
    (h : ((openFile r.toResolver link fuel s p).2.files k).isSome) :
    (s.files k).isSome ∨ ∃ n b, resolveName r.toResolver s p = some (n, b) ∧ Reach r n k := by
  have himp : ∀ name f s1, r.openFile name = .ok f →
      ((imports r.toResolver link fuel [name] f s1).2.files k).isSome → (s1.files k).isSome ∨ Reach r name k := by
    intro name f s1 hf hk
    have hloop := importLoop_rule (addImport r.toResolver link fuel [name]) f
      (fun _ s' => ∀ k, (s'.files k).isSome → (s1.files k).isSome ∨ Reach r name k)
      f.descriptor.dependency 0 [] s1 (fun k hk => Or.inl hk)
      (by
        intro seen d s' h1 hd _ _ k hk
        rcases addImport_only _ _ _ _ _ hk with h | h
        · exact h1 k h
        · exact Or.inr (.step ⟨f, hf, hd⟩ h))
    simp only at hloop
    rcases hloop with ⟨_, h1, _⟩ | ⟨_, pre, d, post, s2, hds, h1, _, h' | h'⟩
    · exact h1 k hk
    · rw [imports, h'.2] at hk; exact h1 k hk
    · rw [imports, h'.2.2] at hk
      rcases addImport_only _ _ _ _ _ hk with h2 | h2
      · exact h1 k h2
      · exact Or.inr (.step ⟨f, hf, by rw [hds]; simp⟩ h2)
  have hc := openFile_cases (R := r.toResolver) (link := link) fuel s p
  generalize openFile r.toResolver link fuel s p = x at hc h
  cases hc with
  | noName | heldShadow | openErr | shadow => exact Or.inl h
  | held name res m hn hm hsh =>
    simp only [setFile, addTrace] at h
    by_cases hk : k = name
    · subst hk; exact Or.inr ⟨k, res, hn, .refl _⟩
    · rw [if_neg hk] at h; exact Or.inl h
  | importFail name res f hn hm hf hsh hno =>
    rcases himp name f _ hf h with h | h
    · exact Or.inl h
    · exact Or.inr ⟨name, res, hn, h⟩
  | finish name res f s2 hn hm hf hsh h2 =>
    have h3 := himp name f (s.addTrace [.resolve p, .openF name]) hf
    rw [h2] at h3
    have h4 : (s2.files k).isSome ∨ k = name := by
      by_cases hk : (Compiler.finish link s2 name f false).1 = .ok
      · obtain ⟨p, hp, he⟩ := finish_ok (s' := (Compiler.finish link s2 name f false).2) (by rw [← hk])
        rw [he] at h; simp only [setFile] at h
        by_cases hn : k = name
        · exact Or.inr hn
        · rw [if_neg hn] at h; exact Or.inl h
      · obtain ⟨e, _, he⟩ := finish_not_ok hk
        rw [he] at h; exact Or.inl h
    rcases h4 with h4 | rfl
    · rcases h3 h4 with h | h
      · exact Or.inl h
      · exact Or.inr ⟨name, res, hn, h⟩
    · exact Or.inr ⟨k, res, hn, .refl _⟩

/-- Held names are never lost by `open_file`. -/
theorem openFile_keeps_held {R : Resolver} (fuel : Nat) (s : Compiler) (p k : Bytes) (h : (s.files k).isSome) :
    ((openFile R link fuel s p).2.files k).isSome := by
  have hc := openFile_cases (R := R) (link := link) fuel s p
  generalize openFile R link fuel s p = x at hc
  cases hc with
  | noName | heldShadow | openErr | shadow => exact h
  | held name res m hn hm hsh =>
    simp only [setFile, addTrace]
    by_cases hk : k = name
    · simp [hk]
    · rw [if_neg hk]; exact h
  | importFail name res f hn hm hf hsh hno => exact (imports_frame _ _ _ _).1.held h
  | finish name res f s2 hn hm hf hsh h2 =>
    have hfr := imports_frame (R := R) (link := link) fuel [name] f (s.addTrace [.resolve p, .openF name])
    rw [h2] at hfr
    have h3 := hfr.1.held (n := k) h
    by_cases hk : (Compiler.finish link s2 name f false).1 = .ok
    · obtain ⟨p, hp, he⟩ := finish_ok (s' := (Compiler.finish link s2 name f false).2) (by rw [← hk])
      rw [he]; simp only [setFile]
      by_cases hn : k = name
      · simp [hn]
      · rw [if_neg hn]; exact h3
    · obtain ⟨e, _, he⟩ := finish_not_ok hk
      rw [he]; exact h3

theorem resolveName_nameOf (s : Compiler) (p : Bytes) :
    (resolveName r.toResolver s p).map (·.1) = nameOf r p := by
  unfold resolveName nameOf PureResolver.toResolver
  simp only
  cases r.resolvePath p with
  | some n => rfl
  | none =>
    simp only
    cases pathToFileName p <;> rfl

/-- Everything about the state after opening a list of paths successfully from a state. -/
theorem openFiles_char (hwn : r.toResolver.WellNamed) (hlaw : link.Lawful) (fuel : Nat) :
    ∀ (ps : List Bytes) (s s' : Compiler) (ns : List Bytes), Inv s → PInv r link s → History r.toResolver link s ns →
      openFiles r.toResolver link fuel s ps = (.ok, s') →
      Inv s' ∧ PInv r link s' ∧
      (∃ ns', History r.toResolver link s' ns' ∧ ∀ n, n ∈ ns' ↔ n ∈ ns ∨ ∃ p ∈ ps, nameOf r p = some n) ∧
      (∀ k, (s'.files k).isSome ↔ (s.files k).isSome ∨ ∃ p ∈ ps, ∃ n, nameOf r p = some n ∧ Reach r n k) := by
  intro ps
  induction ps with
  | nil =>
    intro s s' ns h1 h2 h3 h
    simp [openFiles] at h; subst h
    exact ⟨h1, h2, ⟨ns, h3, by simp⟩, by simp⟩
  | cons p ps ih =>
    intro s s' ns h1 h2 h3 h
    rw [openFiles] at h
    split at h
    · rename_i s1 hs1
      have hok : (openFile r.toResolver link fuel s p).1 = .ok := by rw [hs1]
      have hs1' : s1 = (openFile r.toResolver link fuel s p).2 := by rw [hs1]
      have g1 := openFile_inv hwn hlaw fuel s p h1
      have g2 := openFile_pinv hwn hlaw fuel s p h1 h2
      -- the name
      obtain ⟨n, b, hn⟩ : ∃ n b, resolveName r.toResolver s p = some (n, b) := by
        cases hr : resolveName r.toResolver s p with
        | none => rw [openFile] at hok; simp [hr] at hok
        | some x => exact ⟨x.1, x.2, rfl⟩
      have hname : nameOf r p = some n := by rw [← resolveName_nameOf s p, hn]; rfl
      have g3 := History.openOk fuel p n b h3 hn hok
      rw [← hs1'] at g1 g2 g3
      obtain ⟨a1, a2, ⟨ns', a3, a4⟩, a5⟩ := ih s1 s' _ g1 g2 g3 h
      refine ⟨a1, a2, ⟨ns', a3, ?_⟩, ?_⟩
      · intro k
        rw [a4]
        constructor
        · rintro (hk | ⟨q, hq, hqn⟩)
          · rcases List.mem_cons.1 hk with rfl | hk
            · exact Or.inr ⟨p, by simp, hname⟩
            · exact Or.inl hk
          · exact Or.inr ⟨q, by simp [hq], hqn⟩
        · rintro (hk | ⟨q, hq, hqn⟩)
          · exact Or.inl (by simp [hk])
          · rcases List.mem_cons.1 hq with rfl | hq
            · rw [hname] at hqn; cases hqn; exact Or.inl (by simp)
            · exact Or.inr ⟨q, hq, hqn⟩
      · intro k
        rw [a5]
        constructor
        · rintro (hk | ⟨q, hq, m, hqn, hr⟩)
          · rw [hs1'] at hk
            rcases openFile_only fuel s p k hk with hk | ⟨m, b', hm, hr⟩
            · exact Or.inl hk
            · rw [hn] at hm; cases hm
              exact Or.inr ⟨p, by simp, n, hname, hr⟩
          · exact Or.inr ⟨q, by simp [hq], m, hqn, hr⟩
        · rintro (hk | ⟨q, hq, m, hqn, hr⟩)
          · left; rw [hs1']; exact openFile_keeps_held fuel s p k hk
          · rcases List.mem_cons.1 hq with rfl | hq
            · rw [hname] at hqn; cases hqn
              left
              refine reach_held hlaw g1 g2 hr ?_
              rw [hs1']; exact openFile_ok_held hn hok
            · exact Or.inr ⟨q, hq, m, hqn, hr⟩
    · rename_i x hne
      exact (hne _ h).elim

theorem poolGet_split {pre post : List FileDescriptorProto} {d : FileDescriptorProto} {n : Bytes}
    (hnd : (fileNames (pre ++ d :: post)).Nodup) (hd : d.getName = n) : poolGet (pre ++ d :: post) n = some d := by
  unfold poolGet
  rw [List.find?_append]
  have : pre.find? (fun d => d.getName == n) = none := by
    rw [List.find?_eq_none]
    intro x hx h
    simp at h
    simp only [fileNames, List.map_append, List.map_cons] at hnd
    rw [List.nodup_append] at hnd
    exact hnd.2.2 x.getName (List.mem_map.2 ⟨x, hx, rfl⟩) d.getName (by simp) (by rw [h, hd])
  rw [this]; simp [hd]

theorem poolGet_append {pre post : List FileDescriptorProto} {n : Bytes} (h : n ∈ fileNames pre) :
    poolGet (pre ++ post) n = poolGet pre n := by
  unfold poolGet
  rw [List.find?_append]
  rw [fileNames, List.mem_map] at h
  obtain ⟨d, hd, rfl⟩ := h
  have : (pre.find? (fun x => x.getName == d.getName)).isSome := by
    rw [List.find?_isSome]; exact ⟨d, hd, by simp⟩
  obtain ⟨x, hx⟩ := Option.isSome_iff_exists.1 this
  rw [hx]; rfl

/-- Two states of the same resolver agree on the descriptors of the files both hold. -/
theorem pool_agree (hlaw : link.Lawful) (hdet : link.Deterministic r) {s s' : Compiler}
    (h1 : Inv s) (h2 : PInv r link s) (h1' : Inv s') (h2' : PInv r link s') :
    ∀ k n, idx s n < k → (s.files n).isSome → (s'.files n).isSome → poolGet s.pool n = poolGet s'.pool n := by
  intro k
  induction k with
  | zero => intro n h; omega
  | succ k ih =>
    intro n hk hn hn'
    obtain ⟨m, hm⟩ := Option.isSome_iff_exists.1 hn
    obtain ⟨m', hm'⟩ := Option.isSome_iff_exists.1 hn'
    obtain ⟨f, pre, d, post, a1, a2, a3, a4, a5, a6⟩ := h2 n m hm
    obtain ⟨f', pre', d', post', b1, b2, b3, b4, b5, b6⟩ := h2' n m' hm'
    rw [a1] at b1; cases b1
    have hdd : d = d' := by
      refine hdet pre pre' f d d' ?_ a5 b5
      intro dep hdep x hx
      have he : Edge r n dep := ⟨f, a1, hdep⟩
      -- x is in both prefixes
      have inpre : ∀ {t : Compiler} (_ : Inv t) (_ : PInv r link t) (_ : (t.files n).isSome)
          {p q : List FileDescriptorProto} {e : FileDescriptorProto}, t.pool = p ++ e :: q → e.getName = n →
          x ∈ fileNames p ∧ (t.files x).isSome ∧ idx t x < idx t n := by
        intro t i1 i2 i3 p q e hp hen
        have e1 := edge_held hlaw i1 i2 i3 he
        have e2 := idx_edge hlaw i1 i2 i3 he
        have e3 := reach_held hlaw i1 i2 hx e1.1
        have e4 := reach_idx hlaw i1 i2 hx e1.1
        have e5 : idx t x < idx t n := by omega
        refine ⟨?_, e3, e5⟩
        by_cases hxp : x ∈ fileNames p
        · exact hxp
        · exfalso
          have hnd := i1.nodup
          have hnp : n ∉ fileNames p := by
            intro hnp
            rw [hp] at hnd
            simp only [fileNames, List.map_append, List.map_cons] at hnd
            rw [List.nodup_append] at hnd
            exact hnd.2.2 n hnp e.getName (by simp) hen.symm
          have happ : fileNames t.pool = fileNames p ++ fileNames (e :: q) := by
            rw [hp]; simp [fileNames]
          have i_n : idx t n = (fileNames p).length := by
            unfold idx
            rw [happ, List.idxOf_append, if_neg hnp]
            simp [hen, fileNames]
          have i_x : (fileNames p).length ≤ idx t x := by
            unfold idx
            rw [happ, List.idxOf_append, if_neg hxp]
            omega
          omega
      obtain ⟨c1, c2, c3⟩ := inpre h1 h2 hn a4 a6
      obtain ⟨e1, e2, e3⟩ := inpre h1' h2' hn' b4 b6
      have := ih x (by omega) c2 e2
      rw [a4, b4, poolGet_append c1, poolGet_append e1] at this
      exact this
    rw [a4, b4]
    have n1 := h1.nodup
    have n2 := h1'.nodup
    rw [a4] at n1; rw [b4] at n2
    rw [poolGet_split n1 a6, poolGet_split n2 b6, hdd]

end Compiler
end Verif
