import Verif.Spec.Failing
import Verif.Proofs.Order
import Verif.Proofs.Justify
/-! The first obstacle on the walk: `open_files` and `ListFails`. -/
namespace Verif
namespace Compiler
open PureResolver
variable {r : PureResolver} {link : Linker}

abbrev answers (r : PureResolver) : Bytes → Except Error File → Prop := fun n x => r.openFile n = x

theorem importLoop_append (add : Bytes → Compiler → Out × Compiler) (f : File) (rest : List Bytes) :
    ∀ (pre : List Bytes) (i : Nat) (seen : List Bytes) (s s1 : Compiler), importLoop add f i seen pre s = (.ok, s1) →
      importLoop add f i seen (pre ++ rest) s = importLoop add f (i + pre.length) (seen ++ pre) rest s1 := by
  intro pre
  induction pre with
  | nil => intro i seen s s1 h; simp only [importLoop] at h; cases h; simp
  | cons d pre ih =>
    intro i seen s s1 h
    rw [importLoop] at h
    split at h
    · split at h <;> cases h
    · rename_i hd
      rw [List.cons_append, importLoop, if_neg hd]
      cases hx : add d s with
      | mk o s2 =>
        rw [hx] at h
        cases o with
        | ok =>
          simp only at h ⊢
          rw [ih _ _ _ _ h]
          congr 1
          · simp only [List.length_cons]; omega
          · simp
        | err e => simp only at h; split at h <;> cases h
        | panic => cases h
        | oof => cases h

/-- An import loop that ends with an error. -/
theorem importLoop_err (add : Bytes → Compiler → Out × Compiler) (f : File) (opens : Bytes → File → Prop)
    (hinv : ∀ d s, Sound r link s → Sound r link (add d s).2)
    (hadd : ∀ d s s', Sound r link s → add d s = (.ok, s') → Builds opens link s.pool [d] s'.pool) :
    ∀ ds i seen s s' e, Sound r link s → importLoop add f i seen ds s = (.err e, s') →
      ∃ pre d post s1, ds = pre ++ d :: post ∧ pre.Nodup ∧ (∀ x ∈ pre, x ∉ seen) ∧ Sound r link s1 ∧
        Builds opens link s.pool pre s1.pool ∧
        ((d ∈ seen ++ pre ∧ duplicatedImport d f (i + pre.length) = some e ∧ s' = s1) ∨
         (d ∉ seen ++ pre ∧ ∃ e0, add d s1 = (.err e0, s') ∧ intoImportError e0 f (i + pre.length) = some e)) := by
  intro ds
  induction ds with
  | nil => intro i seen s s' e _ h; simp only [importLoop] at h; cases h
  | cons d ds ih =>
    intro i seen s s' e hs h
    rw [importLoop] at h
    split at h
    · rename_i hd
      split at h
      · rename_i e' he
        cases h
        exact ⟨[], d, ds, s, rfl, List.nodup_nil, nofun, hs, .done, .inl ⟨by simpa using hd, he, rfl⟩⟩
      · cases h
    · rename_i hd
      cases hx : add d s with
      | mk o s1 =>
        rw [hx] at h
        cases o with
        | ok =>
          simp only at h
          have h1 := hinv d s hs
          rw [hx] at h1
          obtain ⟨pre, d', post, s2, rfl, hnd, hno, hs2, hb, hor⟩ := ih _ _ _ _ _ h1 h
          have hno' : ∀ x ∈ pre, x ∉ seen ∧ x ≠ d := fun x hx => by
            have := hno x hx
            simp only [List.mem_append, List.mem_singleton, not_or] at this
            exact this
          refine ⟨d :: pre, d', post, s2, rfl, List.nodup_cons.2 ⟨fun hm => (hno' d hm).2 rfl, hnd⟩, ?_, hs2,
            (hadd d s s1 hs hx).append hb, ?_⟩
          · intro x hx
            rcases List.mem_cons.1 hx with rfl | hx
            · exact hd
            · exact (hno' x hx).1
          · have hi : i + (d :: pre).length = i + 1 + pre.length := by simp only [List.length_cons]; omega
            have hse : seen ++ d :: pre = seen ++ [d] ++ pre := by simp
            rw [hi, hse]
            exact hor
        | err e0 =>
          simp only at h
          split at h
          · rename_i e' he
            cases h
            exact ⟨[], d, ds, s, rfl, List.nodup_nil, nofun, hs, .done, .inr ⟨by simpa using hd, e0, hx, he⟩⟩
          · cases h
        | panic => cases h
        | oof => cases h

theorem into_cases {e0 e : Error} {f : File} {i : Nat} (h : intoImportError e0 f i = some e) :
    (∃ k span, e0 = .fileNotFound k ∧ findImportSpan f i = some span ∧
      e = .importNotFound span f.name (f.source.getD []) k) ∨ ((∀ k, e0 ≠ .fileNotFound k) ∧ e = e0) := by
  unfold intoImportError at h
  split at h
  · rename_i k
    split at h
    · rename_i span hs; cases h; exact .inl ⟨k, span, rfl, hs, rfl⟩
    · cases h
  · rename_i hno
    cases h
    exact .inr ⟨fun k hk => hno k hk, rfl⟩

theorem into_same {e : Error} (f : File) (i : Nat) (h : ∀ k, e ≠ .fileNotFound k) : intoImportError e f i = some e := by
  unfold intoImportError
  split
  · exact absurd rfl (h _)
  · rfl

theorem dup_cases {d : Bytes} {f : File} {i : Nat} {e : Error} (h : duplicatedImport d f i = some e) :
    ∃ span, findImportSpan f i = some span ∧ e = .duplicateImport span f.name (f.source.getD []) d := by
  unfold duplicatedImport at h
  split at h
  · rename_i span hs; cases h; exact ⟨span, hs, rfl⟩
  · cases h

theorem finish_err_state {s s' : Compiler} {n : Bytes} {f : File} {b : Bool} {e : Error}
    (h : finish link s n f b = (.err e, s')) : s' = s := by
  unfold finish at h
  split at h
  · cases h; rfl
  · cases h

/-- What `add_import` reports: the bare "file not found" or what the walk meets. -/
theorem addImport_fails (hwn : r.toResolver.WellNamed) (hlaw : link.Lawful) :
    ∀ (fuel : Nat) (stack : List Bytes) (n : Bytes) (s s' : Compiler) (e : Error), Sound r link s →
      addImport r.toResolver link fuel stack n s = (.err e, s') →
      (∃ k, e = .fileNotFound k ∧ n ∉ stack ∧ n ∉ fileNames s.pool ∧ r.openFile n = .error e ∧ s'.pool = s.pool) ∨
      ((∀ k, e ≠ .fileNotFound k) ∧ Fails (answers r) link stack s.pool n e s'.pool) := by
  intro fuel
  induction fuel with
  | zero => intro stack n s s' e _ h; cases h
  | succ fuel ih =>
    intro stack n s s' e hs h
    rw [addImport] at h
    split at h
    · rename_i hm
      cases h
      exact .inr ⟨nofun, .cycle hm⟩
    rename_i hfresh
    split at h
    · cases h
    rename_i hh
    have hnone : s.files n = none := by simpa using hh
    have hnot := not_held hs.1 hnone
    simp only at h
    split at h
    · rename_i e' he
      cases h
      have he' : r.openFile n = .error e := he
      by_cases hk : ∃ k, e = .fileNotFound k
      · obtain ⟨k, rfl⟩ := hk
        exact .inl ⟨k, rfl, hfresh, hnot, he', rfl⟩
      · exact .inr ⟨fun k hk' => hk ⟨k, hk'⟩, .cannotOpen hfresh hnot he' fun k hk' => hk ⟨k, hk'⟩⟩
    rename_i f hf
    have hf' : r.openFile n = .ok f := hf
    have hsb : Sound r link { s with trace := s.trace ++ [.openF n] } := ⟨hs.1.addTrace _, hs.2⟩
    cases hx : imports r.toResolver link fuel (stack ++ [n]) f { s with trace := s.trace ++ [.openF n] } with
    | mk o s2 =>
      have hx' := hx
      unfold imports at hx'
      rw [hx'] at h
      cases o with
      | ok =>
        simp only at h
        have hpinv := imports_pinv hwn hlaw fuel (stack ++ [n]) f _ hsb.1 hsb.2
        rw [hx] at hpinv
        obtain ⟨h1, h2⟩ := importLoop_builds _ f (opensOf r)
          (fun d s hs => addImport_sound hwn hlaw fuel _ d hs)
          (fun d s s' hs h => addImport_builds hwn hlaw fuel _ d s s' hs h) _ _ _ _ _ hsb hx'
        obtain ⟨c, hc, -, rfl⟩ := finish_err (congrArg Prod.fst h)
        have hs2 : s' = s2 := finish_err_state h
        subst hs2
        exact .inr ⟨nofun, .check hfresh hnot hf' (hpinv.2 rfl) h1 hc⟩
      | err e' =>
        cases h
        obtain ⟨pre, d, post, s1, hsplit, hnd, -, hs1, hb, hor⟩ := importLoop_err _ f (opensOf r)
          (fun d s hs => addImport_sound hwn hlaw fuel _ d hs)
          (fun d s s' hs h => addImport_builds hwn hlaw fuel _ d s s' hs h) _ _ _ _ _ _ hsb hx'
        have hat : AtImport (answers r) link stack s.pool n f pre d s1.pool := ⟨hfresh, hnot, hf', ⟨post, hsplit⟩, hnd, hb⟩
        simp only [List.nil_append, Nat.zero_add] at hor
        rcases hor with ⟨hd, he, rfl⟩ | ⟨hd, e0, hadd, he⟩
        · obtain ⟨span, hsp, rfl⟩ := dup_cases he
          exact .inr ⟨nofun, .duplicate hat hd hsp⟩
        · rcases ih _ _ _ _ _ hs1 hadd with ⟨k, rfl, hst, hno, ho, hpl⟩ | ⟨hno, hfail⟩
          · rcases into_cases he with ⟨k', span, hk, hsp, rfl⟩ | ⟨hno', -⟩
            · cases hk
              simp only [List.mem_append, List.mem_singleton, not_or] at hst
              rw [hpl]
              exact .inr ⟨nofun, .missing hat hd hst.1 hst.2 hno ho hsp⟩
            · exact absurd rfl (hno' k)
          · rcases into_cases he with ⟨k', span, hk, -⟩ | ⟨-, rfl⟩
            · exact absurd hk (hno k')
            · exact .inr ⟨hno, .inside hat hd hfail⟩
      | panic => cases h
      | oof => cases h

/-! ### The other direction -/

theorem Fails.not_bare {opens : Bytes → Except Error File → Prop} {stack : List Bytes} {pool : List FileDescriptorProto}
    {n : Bytes} {e : Error} {left} (h : Fails opens link stack pool n e left) : ∀ k, e ≠ .fileNotFound k := by
  induction h with
  | cycle | duplicate | missing | check => exact nofun
  | cannotOpen _ _ _ h => exact h
  | inside _ _ _ ih => exact ih

theorem finish_of_error {s : Compiler} {n : Bytes} {f : File} {b : Bool} {c} (hs : Inv s)
    (hfn : f.name = n) (hno : s.files n = none) (hl : link s.pool f = .error c) :
    finish link s n f b = (.err (.check c), s) := by
  unfold finish poolAdd
  rw [if_neg]
  · simp [hl]
  · simp only [List.any_eq_true, beq_iff_eq, not_exists, not_and]
    intro g hg' he
    apply not_held hs hno
    rw [fileNames, List.mem_map]; exact ⟨g, hg', by rw [he, hfn]⟩

theorem files_none {s : Compiler} (hs : Inv s) {n : Bytes} (h : n ∉ fileNames s.pool) : s.files n = none := by
  cases hx : s.files n with
  | none => rfl
  | some m => exact absurd ((hs.held_iff n).1 (by rw [hx]; rfl)) h

/-- The loop up to an import. -/
theorem loop_to (hwn : r.toResolver.WellNamed) (hlaw : link.Lawful) {stack : List Bytes} {pool : List FileDescriptorProto}
    {n : Bytes} {f : File} {pre : List Bytes} {d : Bytes} {mid : List FileDescriptorProto}
    (h : AtImport (answers r) link stack pool n f pre d mid) :
    ∃ N, ∀ fuel, N ≤ fuel → ∀ s : Compiler, Sound r link s → s.pool = pool → (∀ x ∈ stack, ReachPlus r x n) →
      ∃ s1 post, Sound r link s1 ∧ s1.pool = mid ∧
        importLoop (addImport r.toResolver link fuel (stack ++ [n])) f 0 [] f.descriptor.dependency s =
          importLoop (addImport r.toResolver link fuel (stack ++ [n])) f pre.length pre (d :: post) s1 := by
  obtain ⟨N, hN⟩ := loop_of_builds hwn hlaw h.walked
  refine ⟨N, fun fuel hf s hs hp hst => ?_⟩
  obtain ⟨post, hnext⟩ := h.next
  obtain ⟨s1, h1, h2⟩ := hN fuel hf s hs hp (stack ++ [n]) (by
    intro x hx m hm
    have he : Edge r n m := ⟨f, h.opened, by rw [hnext]; simp [hm]⟩
    rcases List.mem_append.1 hx with hx | hx
    · exact (hst x hx).snoc he
    · rw [List.mem_singleton.1 hx]; exact ⟨m, he, .refl _⟩) f 0 [] h.nodup (by simp)
  refine ⟨s1, post, ?_, h2, ?_⟩
  · exact (importLoop_builds _ f (opensOf r) (fun d s hs => addImport_sound hwn hlaw fuel _ d hs)
      (fun d s s' hs h => addImport_builds hwn hlaw fuel _ d s s' hs h) _ _ _ _ _ hs h1).2
  · rw [hnext, importLoop_append _ _ _ _ _ _ _ _ h1]
    simp

theorem addImport_of_fails (hwn : r.toResolver.WellNamed) (hlaw : link.Lawful) {stack : List Bytes}
    {pool left : List FileDescriptorProto} {n : Bytes} {e : Error} (h : Fails (answers r) link stack pool n e left) :
    ∃ N, ∀ fuel, N ≤ fuel → ∀ s : Compiler, Sound r link s → s.pool = pool → (∀ x ∈ stack, ReachPlus r x n) →
      ∃ s', addImport r.toResolver link fuel stack n s = (.err e, s') ∧ s'.pool = left := by
  have hsub : ∀ {n : Bytes} {x} (s : Compiler), r.openFile n = x → r.toResolver.openFile s.trace n = x := fun _ h => h
  have start : ∀ {fuel : Nat} {stack : List Bytes} {n : Bytes} {f : File} {s : Compiler} {o : Out × Compiler},
      n ∉ stack → s.files n = none → r.openFile n = .ok f →
      importLoop (addImport r.toResolver link fuel (stack ++ [n])) f 0 [] f.descriptor.dependency
        { s with trace := s.trace ++ [.openF n] } = o → (∃ e s', o = (.err e, s')) →
      addImport r.toResolver link (fuel + 1) stack n s = o := by
    intro fuel stack n f s o h1 h2 h3 h4 ⟨e, s', h5⟩
    rw [addImport, if_neg h1, if_neg (by simp [h2])]
    simp only [hsub s h3, h4, h5]
  induction h with
  | cycle hm =>
    refine ⟨1, fun fuel hf s _ hp _ => ?_⟩
    obtain ⟨k, rfl⟩ : ∃ k, fuel = k + 1 := ⟨fuel - 1, by omega⟩
    exact ⟨s, by rw [addImport, if_pos hm]; rfl, hp⟩
  | @cannotOpen stack pool n e hst hno ho _ =>
    refine ⟨1, fun fuel hf s hs hp _ => ?_⟩
    subst hp
    obtain ⟨k, rfl⟩ : ∃ k, fuel = k + 1 := ⟨fuel - 1, by omega⟩
    have hnone := files_none hs.1 hno
    refine ⟨{ s with trace := s.trace ++ [.openF n] }, ?_, rfl⟩
    rw [addImport, if_neg hst, if_neg (by simp [hnone])]
    simp only [hsub s ho]
  | @duplicate stack pool n f pre d mid span hat hd hsp =>
    obtain ⟨N, hN⟩ := loop_to hwn hlaw hat
    refine ⟨N + 1, fun fuel hf s hs hp hst => ?_⟩
    subst hp
    obtain ⟨k, rfl⟩ : ∃ k, fuel = k + 1 := ⟨fuel - 1, by omega⟩
    obtain ⟨s1, post, -, hp1, h1⟩ := hN k (by omega) { s with trace := s.trace ++ [.openF n] } ⟨hs.1.addTrace _, hs.2⟩ rfl hst
    rw [importLoop, if_pos hd] at h1
    simp only [duplicatedImport, hsp] at h1
    exact ⟨s1, start hat.fresh (files_none hs.1 hat.notHeld) hat.opened h1 ⟨_, _, rfl⟩, hp1⟩
  | @missing stack pool n f pre d mid k span hat hd hst1 hst2 hno ho hsp =>
    obtain ⟨N, hN⟩ := loop_to hwn hlaw hat
    refine ⟨N + 2, fun fuel hf s hs hp hst => ?_⟩
    subst hp
    obtain ⟨k, rfl⟩ : ∃ k, fuel = k + 1 + 1 := ⟨fuel - 2, by omega⟩
    obtain ⟨s1, post, hs1, hp1, h1⟩ := hN (k + 1) (by omega) { s with trace := s.trace ++ [.openF n] } ⟨hs.1.addTrace _, hs.2⟩ rfl hst
    subst hp1
    rw [importLoop, if_neg hd, addImport, if_neg (by simp [hst1, hst2]), if_neg (by simp [files_none hs1.1 hno])] at h1
    simp only [hsub s1 ho, intoImportError, hsp] at h1
    exact ⟨_, start hat.fresh (files_none hs.1 hat.notHeld) hat.opened h1 ⟨_, _, rfl⟩, rfl⟩
  | @inside stack pool n f pre d mid e left hat hd hfail ih =>
    obtain ⟨N, hN⟩ := loop_to hwn hlaw hat
    obtain ⟨M, hM⟩ := ih
    refine ⟨N + M + 1, fun fuel hf s hs hp hst => ?_⟩
    subst hp
    obtain ⟨k, rfl⟩ : ∃ k, fuel = k + 1 := ⟨fuel - 1, by omega⟩
    obtain ⟨s1, post, hs1, hp1, h1⟩ := hN k (by omega) { s with trace := s.trace ++ [.openF n] } ⟨hs.1.addTrace _, hs.2⟩ rfl hst
    obtain ⟨post', hnext⟩ := hat.next
    obtain ⟨s2, h2, hp2⟩ := hM k (by omega) s1 hs1 hp1 (by
      intro x hx
      have he : Edge r n d := ⟨f, hat.opened, by rw [hnext]; simp⟩
      rcases List.mem_append.1 hx with hx | hx
      · exact (hst x hx).snoc he
      · rw [List.mem_singleton.1 hx]; exact ⟨d, he, .refl _⟩)
    rw [importLoop, if_neg hd, h2] at h1
    simp only [into_same f pre.length (Fails.not_bare hfail)] at h1
    exact ⟨_, start hat.fresh (files_none hs.1 hat.notHeld) hat.opened h1 ⟨_, _, rfl⟩, hp2⟩
  | @check stack pool n f mid code hst0 hno ho hnd hb hl =>
    obtain ⟨N, hN⟩ := loop_of_builds hwn hlaw hb
    refine ⟨N + 1, fun fuel hf s hs hp hst => ?_⟩
    subst hp
    obtain ⟨k, rfl⟩ : ∃ k, fuel = k + 1 := ⟨fuel - 1, by omega⟩
    have hnone := files_none hs.1 hno
    obtain ⟨s1, h1, h2⟩ := hN k (by omega) { s with trace := s.trace ++ [.openF n] } ⟨hs.1.addTrace _, hs.2⟩ rfl
      (stack ++ [n]) (by
        intro x hx m hm
        have he : Edge r n m := ⟨f, ho, hm⟩
        rcases List.mem_append.1 hx with hx | hx
        · exact (hst x hx).snoc he
        · rw [List.mem_singleton.1 hx]; exact ⟨m, he, .refl _⟩) f 0 [] hnd (by simp)
    have hframe := imports_frame (R := r.toResolver) (link := link) k (stack ++ [n]) f { s with trace := s.trace ++ [.openF n] }
    have hinv2 := imports_inv hwn hlaw k (stack ++ [n]) f { s with trace := s.trace ++ [.openF n] } (hs.1.addTrace _)
    unfold imports at hframe hinv2
    rw [h1] at hframe hinv2
    subst h2
    refine ⟨s1, ?_, rfl⟩
    rw [addImport, if_neg hst0, if_neg (by simp [hnone])]
    simp only [hsub s ho, h1]
    exact finish_of_error hinv2 (hwn [] _ _ ho) ((hframe.2.1 n (by simp)).trans hnone) hl

/-- Opening a file by path is importing it on an empty stack, as far as errors are concerned. -/
theorem openFile_body {fuel : Nat} {s : Compiler} {p n : Bytes} {b : Bool} {f : File} {e : Error}
    {left : List FileDescriptorProto} (hn : resolveName r.toResolver s p = some (n, b)) (hnone : s.files n = none) (hf : r.openFile n = .ok f)
    (hsh : shadowError b n f.path p = none) :
    (∃ s', openFile r.toResolver link fuel s p = (.err e, s') ∧ s'.pool = left) ↔
    ∃ s', addImport r.toResolver link (fuel + 1) [] n { s with trace := s.trace ++ [.resolve p] } = (.err e, s') ∧
      s'.pool = left := by
  have hsub : ∀ t, r.toResolver.openFile t n = .ok f := fun _ => hf
  rw [openFile, addImport, if_neg nofun, if_neg (by simp [hnone])]
  simp only [hn, hnone, hsub, hsh, List.nil_append]
  generalize importLoop (addImport r.toResolver link fuel [n]) f 0 [] f.descriptor.dependency _ = x
  obtain ⟨o, s2⟩ := x
  cases o with
  | ok =>
    simp only
    unfold finish
    cases poolAdd link s2.pool f with
    | error e' => exact Iff.rfl
    | ok pool => constructor <;> (rintro ⟨_, h, _⟩; cases h)
  | err e' => exact Iff.rfl
  | panic => exact Iff.rfl
  | oof => exact Iff.rfl

theorem shadow_some {p n : Bytes} {b : Bool} {f : File} {e : Error} (hb : b = true → r.resolvePath p = some n)
    (hf : r.openFile n = .ok f) (h : shadowError b n f.path p = some e) (pool : List FileDescriptorProto) :
    OpenFails r link pool p e pool := by
  cases b with
  | false => cases h
  | true =>
    simp only [shadowError, checkShadow, if_true] at h
    split at h
    · rename_i a ha
      split at h
      · cases h
      · rename_i hpe
        cases h
        exact .shadowed (hb rfl) hf ha fun heq => hpe ((Path.pathEq_iff _ _).2 heq)
    · cases h

theorem openFiles_sound (hwn : r.toResolver.WellNamed) (hlaw : link.Lawful) (fuel : Nat) :
    ∀ (ps : List Bytes) (s s' : Compiler), Sound r link s → openFiles r.toResolver link fuel s ps = (.ok, s') →
      Sound r link s' := by
  intro ps
  induction ps with
  | nil => intro s s' hs h; cases h; exact hs
  | cons p ps ih =>
    intro s s' hs h
    rw [openFiles] at h
    cases hx : openFile r.toResolver link fuel s p with
    | mk o s1 =>
      rw [hx] at h
      cases o with
      | ok => exact ih _ _ (openFile_builds hwn hlaw hs hx).1 h
      | err e => cases h
      | panic => cases h
      | oof => cases h

/-- An error of `open_file`. -/
theorem openFile_fails (hwn : r.toResolver.WellNamed) (hlaw : link.Lawful) {fuel : Nat} {s s' : Compiler} {p : Bytes}
    {e : Error} (hs : Sound r link s) (h : openFile r.toResolver link fuel s p = (.err e, s')) :
    OpenFails r link s.pool p e s'.pool := by
  have h0 := h
  rw [openFile] at h
  cases hn : resolveName r.toResolver s p with
  | none =>
    rw [hn] at h
    cases h
    refine .noName ?_
    have := resolveName_nameOf (r := r) s p
    rw [hn] at this
    exact this.symm
  | some nb =>
    obtain ⟨n, b⟩ := nb
    rw [hn] at h
    obtain ⟨h1, h2, h3⟩ := resolve_cases hn
    simp only at h
    cases hm : s.files n with
    | some m =>
      obtain ⟨f, _, _, _, hf, _, hpath, _⟩ := hs.2 n m hm
      rw [hm] at h
      simp only at h
      cases hsh : shadowError b n m.path p with
      | none => rw [hsh] at h; cases h
      | some e' =>
        rw [hsh] at h
        cases h
        rw [hpath] at hsh
        exact shadow_some h2 hf hsh _
    | none =>
      have hno := not_held hs.1 hm
      rw [hm] at h
      simp only at h
      have hsub : ∀ t, r.toResolver.openFile t n = r.openFile n := fun _ => rfl
      rw [hsub] at h
      cases hf : r.openFile n with
      | error e' =>
        rw [hf] at h
        simp only at h
        cases hk : e'.isFileNotFound with
        | true => rw [hk] at h; cases h; exact .notThere h1 hno hf hk
        | false => rw [hk] at h; cases h; exact .cannotOpen h1 hno hf hk
      | ok f =>
        rw [hf] at h
        simp only at h
        cases hsh : shadowError b n f.path p with
        | some e' => rw [hsh] at h; cases h; exact shadow_some h2 hf hsh _
        | none =>
          obtain ⟨s2, hadd, hp2⟩ := (openFile_body hn hm hf hsh).1 ⟨_, h0, rfl⟩
          rcases addImport_fails hwn hlaw (fuel + 1) [] n { s with trace := s.trace ++ [.resolve p] } s2 e
            ⟨hs.1.addTrace _, hs.2⟩ hadd with ⟨k, _, _, _, h, _⟩ | ⟨_, hfail⟩
          · rw [hf] at h; cases h
          · rw [← hp2]; exact .inside h1 (unshadowed_of h2 h3 hf hsh) hf hfail

theorem openFile_of_fails (hwn : r.toResolver.WellNamed) (hlaw : link.Lawful) {p : Bytes} {pool left : List FileDescriptorProto}
    {e : Error} (h : OpenFails r link pool p e left) :
    ∃ N, ∀ fuel, N ≤ fuel → ∀ s : Compiler, Sound r link s → s.pool = pool →
      ∃ s', openFile r.toResolver link fuel s p = (.err e, s') ∧ s'.pool = left := by
  have hsub : ∀ t n, r.toResolver.openFile t n = r.openFile n := fun _ _ => rfl
  cases h with
  | noName hn =>
    refine ⟨0, fun fuel _ s _ hp => ?_⟩
    have := resolveName_nameOf (r := r) s p
    rw [hn, Option.map_eq_none_iff] at this
    refine ⟨{ s with trace := s.trace ++ [.resolve p] }, ?_, hp⟩
    rw [openFile, this]
  | @notThere n e' hn hno hf hk =>
    refine ⟨0, fun fuel _ s hs hp => ?_⟩
    obtain ⟨b, _, _, hres⟩ := resolve_of_name hn
    refine ⟨{ s with trace := s.trace ++ [.resolve p] ++ [.openF n] }, ?_, hp⟩
    rw [openFile, hres]
    simp only [files_none hs.1 (hp ▸ hno), hsub, hf, hk, if_true]
  | @cannotOpen n _ hn hno hf hk =>
    refine ⟨0, fun fuel _ s hs hp => ?_⟩
    obtain ⟨b, _, _, hres⟩ := resolve_of_name hn
    refine ⟨{ s with trace := s.trace ++ [.resolve p] ++ [.openF n] }, ?_, hp⟩
    rw [openFile, hres]
    simp only [files_none hs.1 (hp ▸ hno), hsub, hf, hk]
    rfl
  | @shadowed n f a hr hf ha hne =>
    refine ⟨0, fun fuel _ s hs hp => ?_⟩
    have hres : resolveName r.toResolver s p = some (n, true) := by
      unfold resolveName PureResolver.toResolver
      simp only [hr]
    have hsh : shadowError true n (some a) p = some (.fileShadowed n p a) := by
      simp only [shadowError, checkShadow, if_true]
      rw [if_neg]
      exact fun hpe => hne ((Path.pathEq_iff _ _).1 hpe)
    cases hm : s.files n with
    | some m =>
      obtain ⟨f', _, _, _, hf', _, hpath, _⟩ := hs.2 n m hm
      rw [hf] at hf'; cases hf'
      rw [ha] at hpath
      refine ⟨{ s with trace := s.trace ++ [.resolve p] }, ?_, hp⟩
      rw [openFile, hres]
      simp only [hm, hpath, hsh]
    | none =>
      refine ⟨{ s with trace := s.trace ++ [.resolve p] ++ [.openF n] }, ?_, hp⟩
      rw [openFile, hres]
      simp only [hm, hsub, hf, ha, hsh]
  | @inside n f _ _ hn hun hf hfail =>
    obtain ⟨N, hN⟩ := addImport_of_fails hwn hlaw hfail
    refine ⟨N, fun fuel hfu s hs hp => ?_⟩
    subst hp
    obtain ⟨b, hb, _, hres⟩ := resolve_of_name hn
    have hnone : s.files n = none := by
      refine files_none hs.1 ?_
      intro hm
      cases hfail with
      | cycle h => cases h
      | cannotOpen _ h => exact h hm
      | duplicate h => exact h.notHeld hm
      | missing h => exact h.notHeld hm
      | inside h => exact h.notHeld hm
      | check _ h => exact h hm
    exact (openFile_body (hres s) hnone hf (shadow_none hb hf hun)).2
      (hN (fuel + 1) (by omega) { s with trace := s.trace ++ [.resolve p] } ⟨hs.1.addTrace _, hs.2⟩ rfl nofun)

/-- An error of `open_files`. -/
theorem openFiles_fails (hwn : r.toResolver.WellNamed) (hlaw : link.Lawful) (fuel : Nat) :
    ∀ (ps : List Bytes) (s s' : Compiler) (e : Error), Sound r link s → openFiles r.toResolver link fuel s ps = (.err e, s') →
      ListFails r link s.pool ps e s'.pool := by
  intro ps
  induction ps with
  | nil => intro s s' e _ h; cases h
  | cons p ps ih =>
    intro s s' e hs h
    rw [openFiles] at h
    cases hx : openFile r.toResolver link fuel s p with
    | mk o s1 =>
      rw [hx] at h
      cases o with
      | ok =>
        simp only at h
        obtain ⟨hs1, n, hn, hsh, hb⟩ := openFile_builds hwn hlaw hs hx
        obtain ⟨pre, q, post, ns, mid, rfl, h1, h2, h3, h4⟩ := ih s1 s' e hs1 h
        refine ⟨p :: pre, q, post, n :: ns, mid, rfl, by simp [hn, h1], ?_, hb.append h3, h4⟩
        intro q hq
        rcases List.mem_cons.1 hq with rfl | hq
        · exact hsh
        · exact h2 q hq
      | err e' => cases h; exact ⟨[], p, ps, [], s.pool, rfl, rfl, nofun, .done, openFile_fails hwn hlaw hs hx⟩
      | panic => cases h
      | oof => cases h

theorem openFiles_append (R : Resolver) (fuel : Nat) (qs : List Bytes) : ∀ (ps : List Bytes) (s s1 : Compiler),
    openFiles R link fuel s ps = (.ok, s1) → openFiles R link fuel s (ps ++ qs) = openFiles R link fuel s1 qs := by
  intro ps
  induction ps with
  | nil => intro s s1 h; cases h; rfl
  | cons p ps ih =>
    intro s s1 h
    rw [openFiles] at h
    rw [List.cons_append, openFiles]
    cases hx : openFile R link fuel s p with
    | mk o s2 =>
      rw [hx] at h
      cases o with
      | ok => exact ih _ _ h
      | err e => cases h
      | panic => cases h
      | oof => cases h

theorem openFiles_of_fails (hwn : r.toResolver.WellNamed) (hlaw : link.Lawful) {ps : List Bytes} {e : Error}
    {pool left : List FileDescriptorProto} (h : ListFails r link pool ps e left) :
    ∃ N, ∀ fuel, N ≤ fuel → ∀ s : Compiler, Sound r link s → s.pool = pool →
      ∃ s', openFiles r.toResolver link fuel s ps = (.err e, s') ∧ s'.pool = left := by
  obtain ⟨pre, p, post, ns, mid, rfl, h1, h2, h3, h4⟩ := h
  obtain ⟨N, hN⟩ := openFiles_of_builds hwn hlaw pre ns pool mid h1 h2 h3
  obtain ⟨M, hM⟩ := openFile_of_fails hwn hlaw h4
  refine ⟨N + M, fun fuel hf s hs hp => ?_⟩
  obtain ⟨s1, h5, h6⟩ := hN fuel (by omega) s hs hp
  have hs1 : Sound r link s1 := openFiles_sound hwn hlaw fuel pre s s1 hs h5
  obtain ⟨s2, h7, h8⟩ := hM fuel (by omega) s1 hs1 h6
  refine ⟨s2, ?_, h8⟩
  rw [openFiles_append _ _ _ _ _ _ h5, openFiles, h7]

end Compiler
end Verif
