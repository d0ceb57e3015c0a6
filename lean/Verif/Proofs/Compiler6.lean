import Verif.Proofs.Compiler5
/-! Pure resolvers: relation between the held files and the import graph. -/
namespace Verif.Compiler
open PureResolver
variable {r : PureResolver} {link : Linker}

/-- Every held file is what the resolver shows, was linked in a prefix of the pool, and has no duplicate
imports. -/
def PInv (r : PureResolver) (link : Linker) (s : Compiler) : Prop :=
  ∀ n m, s.files n = some m → ∃ f pre d post, r.openFile n = .ok f ∧ f.descriptor.dependency.Nodup ∧
    m.path = f.path ∧ s.pool = pre ++ d :: post ∧ link pre f = .ok d ∧ d.getName = n

theorem finish_pinv {s s' : Compiler} {n : Bytes} {f : File} {b : Bool} (hlaw : link.Lawful) (hs : Inv s)
    (hp : PInv r link s) (hopen : r.openFile n = .ok f) (hf : f.name = n) (hnd : f.descriptor.dependency.Nodup)
    (hno : s.files n = none) (h : finish link s n f b = (.ok, s')) : PInv r link s' := by
  obtain ⟨p, hpa, rfl⟩ := finish_ok h
  rcases poolAdd_ok hpa with ⟨hmem, rfl⟩ | ⟨hmem, d, hd, rfl⟩
  · rw [hf] at hmem
    have := (hs.held_iff n).2 hmem
    rw [hno] at this; cases this
  · intro k m hk
    simp only [setFile] at hk ⊢
    by_cases hkn : k = n
    · rw [if_pos hkn] at hk; cases hk
      subst hkn
      exact ⟨f, s.pool, d, [], hopen, hnd, rfl, rfl, hd, by rw [hlaw.name_eq _ _ _ hd, hf]⟩
    · rw [if_neg hkn] at hk
      obtain ⟨g, pre, e, post, h1, h2, h3, h4, h5, h6⟩ := hp k m hk
      exact ⟨g, pre, e, post ++ [d], h1, h2, h3, by rw [h4]; simp, h5, h6⟩

theorem addImport_pinv (hwn : r.toResolver.WellNamed) (hlaw : link.Lawful) :
    ∀ (fuel : Nat) (stack : List Bytes) (name : Bytes) (s : Compiler), Inv s → PInv r link s →
      PInv r link (addImport r.toResolver link fuel stack name s).2 := by
  intro fuel
  induction fuel with
  | zero => intro stack name s _ h; simpa [addImport] using h
  | succ fuel ih =>
    intro stack name s hs hp
    rw [addImport]
    split
    · exact hp
    split
    · exact hp
    rename_i hstack hheld
    have hnone : s.files name = none := by simpa using hheld
    simp only
    split
    · exact hp
    · rename_i f hf
      have hloop := importLoop_rule (addImport r.toResolver link fuel (stack ++ [name])) f
        (fun seen s' => Inv s' ∧ PInv r link s' ∧ s'.files name = none)
        f.descriptor.dependency 0 [] { s with trace := s.trace ++ [.openF name] }
        ⟨hs.addTrace _, hp, hnone⟩
        (by
          rintro seen d s' ⟨h1, h2, h3⟩ _ _ _
          have hfr := addImport_frame (R := r.toResolver) (link := link) fuel (stack ++ [name]) d s'
          exact ⟨addImport_inv hwn hlaw _ _ _ _ h1, ih _ _ _ h1 h2, (hfr.2.1 name (by simp)).trans h3⟩)
      simp only at hloop
      split
      · rename_i s2 hr
        rw [hr] at hloop
        rcases hloop with ⟨_, ⟨h1, h2, h3⟩, hnd⟩ | ⟨h, _⟩
        · by_cases h : (finish link s2 name f true).1 = .ok
          · exact finish_pinv hlaw h1 h2 hf (hwn _ _ _ hf) (by simpa using hnd (by simp)) h3 (b := true) (by rw [← h])
          · obtain ⟨e, _, he⟩ := finish_not_ok h
            rw [he]; exact h2
        · exact absurd rfl h
      · rename_i x hne
        rcases hloop with ⟨h, _⟩ | ⟨_, pre, d, post, s1, _, ⟨h1, h2, h3⟩, _, h | h⟩
        · exact (hne _ (Prod.ext h rfl)).elim
        · rw [h.2]; exact h2
        · rw [h.2.2]; exact ih _ _ _ h1 h2

theorem imports_pinv (hwn : r.toResolver.WellNamed) (hlaw : link.Lawful) (fuel : Nat) (stack : List Bytes) (f : File)
    (s : Compiler) (hs : Inv s) (hp : PInv r link s) :
    PInv r link (imports r.toResolver link fuel stack f s).2 ∧
    ((imports r.toResolver link fuel stack f s).1 = .ok → f.descriptor.dependency.Nodup) := by
  have hloop := importLoop_rule (addImport r.toResolver link fuel stack) f
    (fun _ s' => Inv s' ∧ PInv r link s') f.descriptor.dependency 0 [] s ⟨hs, hp⟩
    (fun _ d s' h _ _ _ => ⟨addImport_inv hwn hlaw fuel stack d s' h.1, addImport_pinv hwn hlaw fuel stack d s' h.1 h.2⟩)
  simp only at hloop
  rcases hloop with ⟨_, h, hnd⟩ | ⟨hno, pre, d, post, s1, _, h1, _, h | h⟩
  · exact ⟨h.2, fun _ => by simpa using hnd (by simp)⟩
  · refine ⟨?_, fun h' => absurd h' hno⟩
    rw [imports, h.2]; exact h1.2
  · refine ⟨?_, fun h' => absurd h' hno⟩
    rw [imports, h.2.2]; exact addImport_pinv hwn hlaw fuel stack d s1 h1.1 h1.2

theorem openFile_pinv (hwn : r.toResolver.WellNamed) (hlaw : link.Lawful) (fuel : Nat) (s : Compiler) (path : Bytes)
    (hs : Inv s) (hp : PInv r link s) : PInv r link (openFile r.toResolver link fuel s path).2 := by
  have hc := openFile_cases (R := r.toResolver) (link := link) fuel s path
  generalize openFile r.toResolver link fuel s path = x at hc
  cases hc with
  | noName | heldShadow | openErr | shadow => exact hp
  | held name res m hn hm hsh =>
    intro k m' hk
    simp only [setFile, addTrace] at hk
    by_cases hkn : k = name
    · rw [if_pos hkn] at hk; cases hk
      subst hkn
      obtain ⟨g, pre, e, post, h1, h2, h3, h4, h5, h6⟩ := hp k m hm
      exact ⟨g, pre, e, post, h1, h2, h3, h4, h5, h6⟩
    · rw [if_neg hkn] at hk; exact hp k m' hk
  | importFail name res f hn hm hf hsh hno =>
    exact (imports_pinv hwn hlaw _ _ _ _ (hs.addTrace _) hp).1
  | finish name res f s2 hn hm hf hsh h2 =>
    have hinv : Inv s2 := by
      have := imports_inv (R := r.toResolver) (link := link) hwn hlaw fuel [name] f _ (hs.addTrace [.resolve path, .openF name])
      rw [show ({ s with trace := s.trace ++ [.resolve path, .openF name] } : Compiler)
        = s.addTrace [.resolve path, .openF name] from rfl, h2] at this
      exact this
    have hpi := imports_pinv (link := link) hwn hlaw fuel [name] f (s.addTrace [.resolve path, .openF name])
      (hs.addTrace _) hp
    rw [h2] at hpi
    have hfr := imports_frame (R := r.toResolver) (link := link) fuel [name] f (s.addTrace [.resolve path, .openF name])
    rw [h2] at hfr
    by_cases h : (Compiler.finish link s2 name f false).1 = .ok
    · exact finish_pinv hlaw hinv hpi.1 hf (hwn _ _ _ hf) (hpi.2 rfl) ((hfr.2.1 name (by simp)).trans hm)
        (b := false) (by rw [← h])
    · obtain ⟨e, _, he⟩ := finish_not_ok h
      rw [he]; exact hpi.1

theorem openFiles_pinv (hwn : r.toResolver.WellNamed) (hlaw : link.Lawful) (fuel : Nat) (ps : List Bytes) :
    ∀ s : Compiler, Inv s → PInv r link s → PInv r link (openFiles r.toResolver link fuel s ps).2 := by
  induction ps with
  | nil => intro s _ h; exact h
  | cons p ps ih =>
    intro s hs h
    have h1 := openFile_pinv hwn hlaw fuel s p hs h
    have h2 := openFile_inv hwn hlaw fuel s p hs
    rw [openFiles]
    split
    · rename_i s' hs'; rw [hs'] at h1 h2; exact ih _ h2 h1
    · exact h1

theorem reachable_pinv (hwn : r.toResolver.WellNamed) (hlaw : link.Lawful) {s : Compiler}
    (h : Reachable r.toResolver link s) : PInv r link s := by
  induction h with
  | init => intro n m h; simp [Compiler.init] at h
  | step fuel s op hr ih =>
    have hs := reachable_inv hwn hlaw hr
    cases op with
    | openFile p => exact openFile_pinv hwn hlaw fuel s p hs ih
    | openFiles ps => exact openFiles_pinv hwn hlaw fuel ps s hs ih
    | setIncludeImports b => exact ih
    | setIncludeSourceInfo b => exact ih

/-- Position of a held file. -/
theorem edge_held (hlaw : link.Lawful) {s : Compiler} (hs : Inv s) (hp : PInv r link s)
    {a b : Bytes} (ha : (s.files a).isSome) (he : Edge r a b) :
    (s.files b).isSome ∧ ∃ pre mid post db da, s.pool = pre ++ db :: mid ++ da :: post ∧ db.getName = b ∧ da.getName = a := by
  obtain ⟨m, hm⟩ := Option.isSome_iff_exists.1 ha
  obtain ⟨f, pre, d, post, h1, h2, h3, h4, h5, h6⟩ := hp a m hm
  obtain ⟨g, hg, hb⟩ := he
  rw [h1] at hg; cases hg
  rw [← hlaw.deps_eq _ _ _ h5] at hb
  have := hs.topo _ _ _ h4 b hb
  rw [fileNames, List.mem_map] at this
  obtain ⟨db, hdb, hdbn⟩ := this
  obtain ⟨p1, p2, hp1⟩ := List.append_of_mem hdb
  refine ⟨(hs.held_iff b).2 ?_, p1, p2, post, db, d, by rw [h4, hp1], hdbn, h6⟩
  rw [fileNames, List.mem_map]; exact ⟨db, by rw [h4]; simp [hdb], hdbn⟩

theorem reach_held (hlaw : link.Lawful) {s : Compiler} (hs : Inv s) (hp : PInv r link s)
    {a b : Bytes} (h : Reach r a b) : (s.files a).isSome → (s.files b).isSome := by
  induction h with
  | refl => exact id
  | step he _ ih => exact fun ha => ih (edge_held hlaw hs hp ha he).1

/-- Position of a name in the pool. -/
def idx (s : Compiler) (n : Bytes) : Nat := (fileNames s.pool).idxOf n

theorem idx_edge (hlaw : link.Lawful) {s : Compiler} (hs : Inv s) (hp : PInv r link s)
    {a b : Bytes} (ha : (s.files a).isSome) (he : Edge r a b) : idx s b < idx s a := by
  obtain ⟨_, pre, mid, post, db, da, h1, h2, h3⟩ := edge_held hlaw hs hp ha he
  have hnd := hs.nodup
  unfold idx
  rw [h1] at hnd ⊢
  simp only [fileNames, List.map_append, List.map_cons, h2, h3] at hnd ⊢
  rw [List.nodup_append] at hnd
  obtain ⟨hnd1, hnd2, hdis⟩ := hnd
  have hba : b ≠ a := fun h => hdis b (by simp) a (by simp) h
  have hma : a ∉ List.map (fun x => x.getName) pre ++ b :: List.map (fun x => x.getName) mid := by
    intro h; exact hdis a h a (by simp) rfl
  generalize hX : List.map (fun x => x.getName) pre ++ b :: List.map (fun x => x.getName) mid = X at *
  have hbX : b ∈ X := by rw [← hX]; simp
  rw [List.idxOf_append (a := b), if_pos hbX, List.idxOf_append (a := a), if_neg hma]
  have := List.idxOf_lt_length_of_mem hbX
  omega

theorem reach_idx (hlaw : link.Lawful) {s : Compiler} (hs : Inv s) (hp : PInv r link s)
    {a b : Bytes} (h : Reach r a b) : (s.files a).isSome → idx s b ≤ idx s a := by
  induction h with
  | refl => intro _; exact Nat.le_refl _
  | step he _ ih =>
    intro ha
    have h1 := edge_held hlaw hs hp ha he
    have h2 := idx_edge hlaw hs hp ha he
    have h3 := ih h1.1
    omega

theorem no_cycle (hlaw : link.Lawful) {s : Compiler} (hs : Inv s) (hp : PInv r link s)
    {a : Bytes} (ha : (s.files a).isSome) : ¬ ReachPlus r a a := by
  rintro ⟨b, he, hr⟩
  have h1 := edge_held hlaw hs hp ha he
  have h2 := idx_edge hlaw hs hp ha he
  have h3 := reach_idx hlaw hs hp hr h1.1
  omega

/-- A successful `open_file` holds the resolved name. -/
theorem openFile_ok_held {R : Resolver} {fuel : Nat} {s : Compiler} {p n : Bytes} {b : Bool}
    (hres : resolveName R s p = some (n, b)) (hok : (openFile R link fuel s p).1 = .ok) :
    ((openFile R link fuel s p).2.files n).isSome := by
  have hc := openFile_cases (R := R) (link := link) fuel s p
  generalize openFile R link fuel s p = x at hc hok
  cases hc with
  | noName | heldShadow | openErr | shadow => cases hok
  | held name res m hn hm hsh => rw [hres] at hn; cases hn; simp [setFile]
  | importFail _ _ _ _ _ _ _ hno => exact absurd hok hno
  | finish name res f s2 hn hm hf hsh h2 =>
    rw [hres] at hn; cases hn
    obtain ⟨pool', hp, he⟩ := finish_ok (s' := (Compiler.finish link s2 n f false).2) (by rw [← hok])
    rw [he]; simp [setFile]

/-! ### The text of a cycle error -/

theorem isChain_snoc {l : List Bytes} {a b : Bytes} (h : IsChain r (l ++ [a])) (he : Edge r a b) :
    IsChain r (l ++ [a, b]) := by
  induction l with
  | nil => exact ⟨he, trivial⟩
  | cons x l ih =>
    cases l with
    | nil => exact ⟨h.1, he, trivial⟩
    | cons y l => exact ⟨h.1, ih h.2⟩

theorem mapOut_circular {f : File} {i : Nat} {o : Out} {nm cyc : Bytes}
    (h : mapOut f i o = .err (.circularImport nm cyc)) : o = .err (.circularImport nm cyc) := by
  cases o with
  | err e =>
    simp only [mapOut] at h
    split at h
    · rename_i e' he
      cases h
      cases e <;> simp_all [intoImportError]
      split at he <;> cases he
    · cases h
  | ok => cases h
  | panic => cases h
  | oof => cases h

theorem dupOut_not_circular {f : File} {i : Nat} {d nm cyc : Bytes} : dupOut d f i ≠ .err (.circularImport nm cyc) := by
  unfold dupOut duplicatedImport
  intro h
  split at h
  · rename_i e he
    split at he
    · cases he; cases h
    · cases he
  · cases h

/-- The content of a cycle error: the names along a chain of imports that starts at `root`. -/
def CycleOk (r : PureResolver) (root nm cyc : Bytes) : Prop :=
  ∃ chain : List Bytes, chain.head? = some root ∧ IsChain r (chain ++ [nm]) ∧ nm ∈ chain ∧
    cyc = cycleText chain nm

theorem finish_not_circular {s : Compiler} {n : Bytes} {f : File} {b : Bool} {nm cyc : Bytes} :
    (finish link s n f b).1 ≠ .err (.circularImport nm cyc) := by
  unfold finish poolAdd
  intro h
  split at h
  · rename_i e he
    split at he
    · cases he
    · split at he
      · cases he; cases h
      · cases he
  · cases h

theorem addImport_circular (hne : ∀ n nm cyc, r.openFile n ≠ .error (.circularImport nm cyc)) (root : Bytes) :
    ∀ (fuel : Nat) (stack : List Bytes) (name : Bytes) (s : Compiler) (nm cyc : Bytes),
      stack.head? = some root → IsChain r (stack ++ [name]) →
      (addImport r.toResolver link fuel stack name s).1 = .err (.circularImport nm cyc) →
      CycleOk r root nm cyc := by
  intro fuel
  induction fuel with
  | zero => intro stack name s nm cyc _ _ h; simp [addImport] at h
  | succ fuel ih =>
    intro stack name s nm cyc hroot hch h
    rw [addImport] at h
    split at h
    · rename_i hmem
      simp at h; obtain ⟨rfl, rfl⟩ := h
      exact ⟨stack, hroot, hch, hmem, rfl⟩
    split at h
    · cases h
    simp only at h
    split at h
    · rename_i e he; cases h; exact absurd he (hne _ _ _)
    · rename_i f hf
      have hloop := importLoop_rule (addImport r.toResolver link fuel (stack ++ [name])) f (fun _ _ => True)
        f.descriptor.dependency 0 [] { s with trace := s.trace ++ [.openF name] } trivial (by simp)
      simp only at hloop
      split at h
      · exact absurd h finish_not_circular
      · rename_i x hnx
        rcases hloop with ⟨h', _⟩ | ⟨_, pre, d, post, s1, hds, _, _, h' | h'⟩
        · exact (hnx _ (Prod.ext h' rfl)).elim
        · rw [h'.2] at h; exact absurd h dupOut_not_circular
        · rw [h'.2.2] at h
          refine ih (stack ++ [name]) d s1 nm cyc ?_ ?_ (mapOut_circular h)
          · cases stack with
            | nil => cases hroot
            | cons a l => exact hroot
          · have : Edge r name d := ⟨f, hf, by rw [hds]; simp⟩
            have := isChain_snoc hch this
            simpa using this

end Verif.Compiler
