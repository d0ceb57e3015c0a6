import Verif.Proofs.Compiler4
/-! Fuel, termination, error tracking, cycles. -/
namespace Verif.Compiler
variable {R : Resolver} {link : Linker}

/-! ### More fuel does not change a finished call -/

theorem importLoop_congr (add add' : Bytes → Compiler → Out × Compiler) (f : File)
    (h : ∀ d s, (add d s).1 ≠ .oof → add' d s = add d s) :
    ∀ ds i seen s, (importLoop add f i seen ds s).1 ≠ .oof →
      importLoop add' f i seen ds s = importLoop add f i seen ds s := by
  intro ds
  induction ds with
  | nil => intros; rfl
  | cons d ds ih =>
    intro i seen s hno
    rw [importLoop] at hno ⊢
    rw [importLoop]
    split at hno
    · rename_i hd; simp only [hd, if_true]
    · rename_i hd
      rw [if_neg hd, if_neg hd]
      have hadd : (add d s).1 ≠ .oof := by
        intro ho
        rcases hx : add d s with ⟨o, s'⟩
        rw [hx] at ho; simp at ho; subst ho
        simp [hx] at hno
      rw [h d s hadd]
      rcases hx : add d s with ⟨o, s'⟩
      cases o with
      | ok => simp only [hx] at hno ⊢; exact ih _ _ _ hno
      | err e => rfl
      | panic => rfl
      | oof => rfl

theorem addImport_fuel_succ : ∀ (fuel : Nat) (stack : List Bytes) (name : Bytes) (s : Compiler),
    (addImport R link fuel stack name s).1 ≠ .oof →
    addImport R link (fuel + 1) stack name s = addImport R link fuel stack name s := by
  intro fuel
  induction fuel with
  | zero => intro stack name s h; simp [addImport] at h
  | succ fuel ih =>
    intro stack name s h
    rw [addImport] at h ⊢
    conv => rhs; rw [addImport]
    split
    · rfl
    split
    · rfl
    rename_i h1 h2
    simp only [h1, h2, if_false, Bool.false_eq_true] at h
    simp only
    split
    · rfl
    · rename_i f hf
      simp only [hf] at h
      have hl : (importLoop (addImport R link fuel (stack ++ [name])) f 0 [] f.descriptor.dependency
          { s with trace := s.trace ++ [.openF name] }).1 ≠ .oof := by
        intro ho
        rcases hx : importLoop (addImport R link fuel (stack ++ [name])) f 0 [] f.descriptor.dependency
          { s with trace := s.trace ++ [.openF name] } with ⟨o, s'⟩
        rw [hx] at ho h; simp at ho; subst ho
        simp at h
      have := importLoop_congr (addImport R link fuel (stack ++ [name]))
        (addImport R link (fuel + 1) (stack ++ [name])) f
        (fun d s hd => ih (stack ++ [name]) d s hd) _ 0 [] _ hl
      rw [this]

theorem addImport_fuel_mono (fuel k : Nat) (stack : List Bytes) (name : Bytes) (s : Compiler)
    (h : (addImport R link fuel stack name s).1 ≠ .oof) :
    addImport R link (fuel + k) stack name s = addImport R link fuel stack name s := by
  induction k with
  | zero => rfl
  | succ k ih =>
    rw [← Nat.add_assoc, addImport_fuel_succ _ _ _ _ (by rw [ih]; exact h), ih]

theorem openFile_fuel_mono (fuel k : Nat) (s : Compiler) (p : Bytes)
    (h : (openFile R link fuel s p).1 ≠ .oof) :
    openFile R link (fuel + k) s p = openFile R link fuel s p := by
  rw [openFile] at h ⊢
  rw [openFile]
  simp only at h ⊢
  split
  · rfl
  · rename_i name res hn
    simp only [hn] at h
    split
    · rfl
    · rename_i hm
      simp only [hm] at h
      split
      · rfl
      · rename_i f hf
        simp only [hf] at h
        split
        · rfl
        · rename_i hsh
          simp only [hsh] at h
          generalize hs1 : ({ s with trace := s.trace ++ [.resolve p] ++ [.openF name] } : Compiler) = s1 at h ⊢
          have hl : (importLoop (addImport R link fuel [name]) f 0 [] f.descriptor.dependency s1).1 ≠ .oof := by
            intro ho
            rcases hx : importLoop (addImport R link fuel [name]) f 0 [] f.descriptor.dependency s1 with ⟨o, s'⟩
            rw [hx] at ho h; simp at ho; subst ho
            simp at h
          have := importLoop_congr (addImport R link fuel [name])
            (addImport R link (fuel + k) [name]) f
            (fun d s hd => addImport_fuel_mono fuel k [name] d s hd) _ 0 [] _ hl
          rw [this]

/-! ### Termination on finite graphs -/

theorem nodup_subset_length {l U : List Bytes} (h : l.Nodup) (hs : ∀ x ∈ l, x ∈ U) : l.length ≤ U.length := by
  induction l generalizing U with
  | nil => simp
  | cons a l ih =>
    rw [List.nodup_cons] at h
    have ha := hs a (by simp)
    have : l.length ≤ (U.erase a).length := by
      apply ih h.2
      intro x hx
      have hne : x ≠ a := fun e => h.1 (e ▸ hx)
      exact (List.mem_erase_of_ne hne).2 (hs x (by simp [hx]))
    rw [List.length_erase_of_mem ha] at this
    have hpos : 0 < U.length := List.length_pos_of_mem ha
    simp; omega

theorem finish_ne_oof (s : Compiler) (n : Bytes) (f : File) (b : Bool) : (finish link s n f b).1 ≠ .oof := by
  unfold finish; split <;> simp

theorem mapOut_oof {f : File} {i : Nat} {o : Out} (h : mapOut f i o = .oof) : o = .oof := by
  cases o with
  | err e => simp only [mapOut] at h; split at h <;> cases h
  | ok => cases h
  | panic => cases h
  | oof => rfl

theorem addImport_terminates (U : List Bytes)
    (hU : ∀ h n f, n ∈ U → R.openFile h n = .ok f → ∀ d ∈ f.descriptor.dependency, d ∈ U) :
    ∀ (fuel : Nat) (stack : List Bytes) (name : Bytes) (s : Compiler), stack.Nodup → (∀ x ∈ stack, x ∈ U) →
      name ∈ U → U.length + 1 ≤ fuel + stack.length → (addImport R link fuel stack name s).1 ≠ .oof := by
  intro fuel
  induction fuel with
  | zero =>
    intro stack name s hnd hst hname hle
    have := nodup_subset_length hnd hst
    omega
  | succ fuel ih =>
    intro stack name s hnd hst hname hle
    rw [addImport]
    split
    · simp
    rename_i hstack
    split
    · simp
    simp only
    split
    · simp
    rename_i f hf
    have hnd' : (stack ++ [name]).Nodup := by
      rw [List.nodup_append]; refine ⟨hnd, by simp, ?_⟩
      intro a ha b hb; simp at hb; subst hb; rintro rfl; exact hstack ha
    have hst' : ∀ x ∈ stack ++ [name], x ∈ U := by
      intro x hx; rcases List.mem_append.1 hx with h | h
      · exact hst x h
      · simp at h; subst h; exact hname
    have hloop := importLoop_rule (addImport R link fuel (stack ++ [name])) f (fun _ _ => True)
      f.descriptor.dependency 0 [] { s with trace := s.trace ++ [.openF name] } trivial (by simp)
    simp only at hloop
    split
    · exact finish_ne_oof _ _ _ _
    · rename_i r hne
      rcases hloop with ⟨h, _⟩ | ⟨_, pre, d, post, s1, hds, _, _, h | h⟩
      · exact (hne _ (Prod.ext h rfl)).elim
      · rw [h.2]; exact dupOut_ne_oof _ _ _
      · rw [h.2.2]
        intro ho
        refine ih (stack ++ [name]) d s1 hnd' hst' (hU _ _ _ hname hf d ?_) ?_ (mapOut_oof ho)
        · rw [hds]; simp
        · simp; omega

theorem openFile_terminates (U : List Bytes)
    (hU : ∀ h n f, n ∈ U → R.openFile h n = .ok f → ∀ d ∈ f.descriptor.dependency, d ∈ U)
    (fuel : Nat) (s : Compiler) (p : Bytes) (hn : ∀ n b, resolveName R s p = some (n, b) → n ∈ U)
    (hfuel : U.length ≤ fuel) : (openFile R link fuel s p).1 ≠ .oof := by
  have hc := openFile_cases (R := R) (link := link) fuel s p
  generalize openFile R link fuel s p = r at hc
  cases hc with
  | noName | heldShadow | held | openErr | shadow => simp
  | importFail name res f hres hm hf hsh hno =>
    have hloop := importLoop_rule (addImport R link fuel [name]) f (fun _ _ => True)
      f.descriptor.dependency 0 [] (s.addTrace [.resolve p, .openF name]) trivial (by simp)
    simp only at hloop
    rcases hloop with ⟨h, _⟩ | ⟨_, pre, d, post, s1, hds, _, _, h | h⟩
    · exact absurd h hno
    · rw [imports, h.2]; exact dupOut_ne_oof _ _ _
    · rw [imports, h.2.2]
      intro ho
      have hnU := hn name res hres
      refine addImport_terminates U hU fuel [name] d s1 (by simp) (by simpa using hnU)
        (hU _ _ _ hnU hf d (by rw [hds]; simp)) (by simpa using hfuel) (mapOut_oof ho)
  | finish name res f s2 hres hm hf hsh h2 => exact finish_ne_oof _ _ _ _

/-! ### Where errors come from -/

/-- Result of passing an error through one import statement. -/
theorem mapOut_idem (f g : File) (i j : Nat) (e : Error) (hs : f.SpansOk) :
    mapOut g j (mapOut f i (.err e)) = mapOut f i (.err e) ∧
    ∃ e', mapOut f i (.err e) = .err e' := by
  by_cases he : ∃ n, e = .fileNotFound n
  · obtain ⟨n, rfl⟩ := he
    have h1 : mapOut f i (.err (.fileNotFound n)) =
        match findImportSpan f i with
        | some span => .err (.importNotFound span f.name (f.source.getD []) n)
        | none => .panic := by
      simp only [mapOut, intoImportError]
      cases findImportSpan f i <;> rfl
    rw [h1]
    cases hsp : findImportSpan f i with
    | none => exact absurd hsp (hs i)
    | some sp => exact ⟨rfl, _, rfl⟩
  · have : ∀ (g : File) j, mapOut g j (.err e) = .err e := by
      intro g j
      simp only [mapOut]
      cases e <;> first | rfl | (exact absurd ⟨_, rfl⟩ he)
    rw [this f i, this g j]
    exact ⟨rfl, e, rfl⟩

/-- `f` was returned by the resolver in the part `t` of the trace (with history `h` before it), its `i`th
import is `n`, and its earlier imports are all held in `σ`. -/
def Importer (R : Resolver) (h t : List Call) (σ : Compiler) (f : File) (i : Nat) (n : Bytes) : Prop :=
  f.descriptor.dependency[i]? = some n ∧ (∀ d ∈ f.descriptor.dependency.take i, (σ.files d).isSome) ∧
  ∃ t1 t2 m, t = t1 ++ .openF m :: t2 ∧ R.openFile (h ++ t1) m = .ok f

theorem Importer.weaken {h t t' h' : List Call} {σ : Compiler} {f : File} {i : Nat} {n : Bytes}
    (hh : h' = h ++ t') (himp : Importer R h' t σ f i n) (x : List Call) (hx : x = t' ++ t) : Importer R h x σ f i n := by
  obtain ⟨h1, h0, t1, t2, m, h2, h3⟩ := himp
  subst hx; subst hh
  exact ⟨h1, h0, t' ++ t1, t2, m, by rw [h2]; simp, by rw [← h3]; simp⟩

/-- Tracking of a failed resolver call inside a call with result `o` and final state `σ`, where `t` are the
calls made. -/
def Tracks (R : Resolver) (h t : List Call) (r : Out × Compiler) (rootRaw : List Call → Bytes → Error → Prop) : Prop :=
  ∀ t1 n t2 e, t = t1 ++ .openF n :: t2 → R.openFile (h ++ t1) n = .error e →
    t2 = [] ∧ (rootRaw t1 n e ∨ ∃ f i, Importer R h t1 r.2 f i n ∧ r.1 = mapOut f i (.err e))

theorem append_split {α : Type} {a b c d : List α} {x : α} (h : a ++ b = c ++ x :: d) :
    (∃ d', a = c ++ x :: d' ∧ d = d' ++ b) ∨ (∃ c', c = a ++ c' ∧ b = c' ++ x :: d) := by
  rcases List.append_eq_append_iff.1 h with ⟨as, h1, h2⟩ | ⟨bs, h1, h2⟩
  · exact Or.inr ⟨as, h1, h2⟩
  · cases bs with
    | nil => right; exact ⟨[], by simpa using h1.symm, by simpa using h2.symm⟩
    | cons y ys =>
      simp at h2
      left; exact ⟨ys, by rw [h1, h2.1], h2.2⟩

/-- What `add_import` guarantees about failing calls. -/
def AddTracks (R : Resolver) (link : Linker) (fuel : Nat) : Prop :=
  ∀ (stack : List Bytes) (name : Bytes) (s : Compiler),
    ∃ t, (addImport R link fuel stack name s).2.trace = s.trace ++ t ∧
      Tracks R s.trace t (addImport R link fuel stack name s)
        (fun t1 n e => t1 = [] ∧ n = name ∧ (addImport R link fuel stack name s).1 = .err e)

theorem imports_tracks (hsp : R.SpansOk) (fuel : Nat) (ih : AddTracks R link fuel) (stack : List Bytes) (f : File)
    (s : Compiler) :
    ∃ t, (imports R link fuel stack f s).2.trace = s.trace ++ t ∧
      Tracks R s.trace t (imports R link fuel stack f s)
        (fun _ n e => ∃ i, f.descriptor.dependency[i]? = some n ∧
          (∀ d ∈ f.descriptor.dependency.take i, ((imports R link fuel stack f s).2.files d).isSome) ∧
          (imports R link fuel stack f s).1 = mapOut f i (.err e)) ∧
      ((imports R link fuel stack f s).1 = .ok → ∀ t1 n t2 e, t = t1 ++ .openF n :: t2 →
        R.openFile (s.trace ++ t1) n ≠ .error e) := by
  have hloop := importLoop_rule (addImport R link fuel stack) f
    (fun seen s' => (∀ d ∈ seen, (s'.files d).isSome) ∧ ∃ t, s'.trace = s.trace ++ t ∧
      ∀ t1 n t2 e, t = t1 ++ .openF n :: t2 → R.openFile (s.trace ++ t1) n ≠ .error e)
    f.descriptor.dependency 0 [] s
    ⟨by simp, [], by simp, by intro t1 n t2 e h; simp at h⟩
    (by
      rintro seen d s' ⟨hheld, t, ht, hall⟩ _ _ hok
      obtain ⟨t', ht', htr⟩ := ih stack d s'
      have hfr := addImport_frame (R := R) (link := link) fuel stack d s'
      refine ⟨?_, t ++ t', by rw [ht', ht]; simp, ?_⟩
      · intro e he
        rcases List.mem_append.1 he with he | he
        · exact hfr.1.held (hheld e he)
        · simp at he; subst he; exact hfr.2.2 hok
      intro t1 n t2 e hsplit herr
      rcases append_split hsplit with ⟨d', h1, h2⟩ | ⟨c', h1, h2⟩
      · exact hall t1 n d' e h1 herr
      · subst h1
        have := htr c' n t2 e h2 (by rw [ht]; simpa using herr)
        rw [hok] at this
        rcases this.2 with ⟨_, _, h⟩ | ⟨g, i, _, h⟩
        · cases h
        · have hm := (mapOut_ok_iff g i (.err e)).1 h.symm
          cases hm)
  simp only at hloop
  rcases hloop with ⟨hok, ⟨_, t, ht, hall⟩, _⟩ | ⟨hno, pre, d, post, s1, hds, ⟨hheld, t, ht, hall⟩, _, h | h⟩
  · exact ⟨t, ht, fun t1 n t2 e hs he => absurd he (hall t1 n t2 e hs), fun _ => hall⟩
  · refine ⟨t, by rw [imports, h.2]; exact ht, fun t1 n t2 e hs he => absurd he (hall t1 n t2 e hs), fun _ => hall⟩
  · obtain ⟨t', ht', htr⟩ := ih stack d s1
    have hfr := addImport_frame (R := R) (link := link) fuel stack d s1
    refine ⟨t ++ t', by rw [imports, h.2.2, ht', ht]; simp, ?_, fun hok => absurd hok hno⟩
    intro t1 n t2 e hsplit herr
    rcases append_split hsplit with ⟨d', h1, h2⟩ | ⟨c', h1, h2⟩
    · exact absurd herr (hall t1 n d' e h1)
    · subst h1
      have := htr c' n t2 e h2 (by rw [ht]; simpa using herr)
      refine ⟨this.1, ?_⟩
      rcases this.2 with ⟨hc', hn, ho⟩ | ⟨g, i, himp, ho⟩
      · left
        refine ⟨pre.length, by rw [hds, hn]; simp, ?_, ?_⟩
        · rw [hds, imports, h.2.2]; simp only [List.take_left']
          intro x hx; exact hfr.1.held (hheld x (by simpa using hx))
        · rw [imports, h.2.2, ho]; simp
      · right
        refine ⟨g, i, ?_, ?_⟩
        · rw [imports, h.2.2]
          exact himp.weaken (h := s.trace) (t' := t) (by rw [ht]) _ (by simp)
        · have hgs : g.SpansOk := by
            obtain ⟨_, _, a, b, m, _, hg⟩ := himp
            exact hsp _ _ _ hg
          rw [imports, h.2.2, ho]
          exact (mapOut_idem g f i _ e hgs).1

theorem finish_trace (s : Compiler) (n : Bytes) (f : File) (b : Bool) : (finish link s n f b).2.trace = s.trace := by
  unfold finish; split <;> rfl

theorem addImport_tracks (hsp : R.SpansOk) : ∀ fuel : Nat, AddTracks R link fuel := by
  intro fuel
  induction fuel with
  | zero => intro stack name s; exact ⟨[], by simp [addImport], by intro t1 n t2 e h; simp at h⟩
  | succ fuel ih =>
    intro stack name s
    have triv : ∀ o P, Tracks R s.trace [] o P := by intro o P t1 n t2 e h; simp at h
    rw [addImport]
    split
    · exact ⟨[], by simp, triv _ _⟩
    split
    · exact ⟨[], by simp, triv _ _⟩
    simp only
    split
    · rename_i e he
      refine ⟨[.openF name], by simp, ?_⟩
      intro t1 n t2 e' h h'
      cases t1 with
      | nil =>
        simp at h; obtain ⟨rfl, rfl⟩ := h
        simp at h'; rw [he] at h'; cases h'
        exact ⟨rfl, Or.inl ⟨rfl, rfl, rfl⟩⟩
      | cons y ys => simp at h
    · rename_i f hf
      obtain ⟨t, ht, htr, hnone⟩ := imports_tracks hsp fuel ih (stack ++ [name]) f { s with trace := s.trace ++ [.openF name] }
      split
      · rename_i s2 hr
        have hr' : imports R link fuel (stack ++ [name]) f { s with trace := s.trace ++ [.openF name] } = (.ok, s2) := hr
        rw [hr'] at ht hnone
        refine ⟨.openF name :: t, by rw [finish_trace]; simpa using ht, ?_⟩
        intro t1 n t2 e hsplit herr
        cases t1 with
        | nil => simp at hsplit; rw [← hsplit.1] at herr; simp [hf] at herr
        | cons y ys =>
          simp at hsplit
          obtain ⟨rfl, hsplit⟩ := hsplit
          exact absurd herr (by simpa using hnone rfl ys n t2 e hsplit)
      · rename_i r hne
        refine ⟨.openF name :: t, by simpa using ht, ?_⟩
        intro t1 n t2 e hsplit herr
        cases t1 with
        | nil => simp at hsplit; rw [← hsplit.1] at herr; simp [hf] at herr
        | cons y ys =>
          simp at hsplit
          obtain ⟨rfl, hsplit⟩ := hsplit
          obtain ⟨h1, h2⟩ := htr ys n t2 e hsplit (by simpa using herr)
          refine ⟨h1, Or.inr ?_⟩
          rcases h2 with ⟨i, hi, hh, ho⟩ | ⟨g, i, himp, ho⟩
          · exact ⟨f, i, ⟨hi, hh, [], ys, name, by simp, by simpa using hf⟩, ho⟩
          · exact ⟨g, i, himp.weaken (t' := [.openF name]) rfl _ (by simp), ho⟩

/-- Failing calls inside `open_file`. -/
theorem openFile_tracks (hsp : R.SpansOk) (fuel : Nat) (s : Compiler) (p : Bytes) :
    ∃ t, (openFile R link fuel s p).2.trace = s.trace ++ .resolve p :: t ∧
      Tracks R (s.trace ++ [.resolve p]) t (openFile R link fuel s p)
        (fun t1 n e => t1 = [] ∧ (∃ b, resolveName R s p = some (n, b)) ∧
          (openFile R link fuel s p).1 = .err (if e.isFileNotFound then .fileNotIncluded p else e)) := by
  have hc := openFile_cases (R := R) (link := link) fuel s p
  generalize openFile R link fuel s p = r at hc
  have triv : ∀ o P, Tracks R (s.trace ++ [.resolve p]) [] o P := by intro o P t1 n t2 e h; simp at h
  cases hc with
  | noName | heldShadow => exact ⟨[], by simp [addTrace], triv _ _⟩
  | held => exact ⟨[], by simp [addTrace, setFile], triv _ _⟩
  | openErr name res e hn hm he =>
    refine ⟨[.openF name], by simp [addTrace], ?_⟩
    intro t1 n t2 e' h h'
    cases t1 with
    | nil =>
      simp at h; obtain ⟨rfl, rfl⟩ := h
      simp at h'; rw [he] at h'; cases h'
      exact ⟨rfl, Or.inl ⟨rfl, ⟨_, hn⟩, rfl⟩⟩
    | cons y ys => simp at h
  | shadow name res f e hn hm hf hsh =>
    refine ⟨[.openF name], by simp [addTrace], ?_⟩
    intro t1 n t2 e' h h'
    cases t1 with
    | nil => simp at h; obtain ⟨rfl, rfl⟩ := h; simp at h'; rw [hf] at h'; cases h'
    | cons y ys => simp at h
  | importFail name res f hn hm hf hsh hno =>
    obtain ⟨t, ht, htr, hnone⟩ := imports_tracks hsp fuel (addImport_tracks (link := link) hsp fuel) [name] f
      (s.addTrace [.resolve p, .openF name])
    refine ⟨.openF name :: t, by rw [ht]; simp [addTrace], ?_⟩
    intro t1 n t2 e hsplit herr
    cases t1 with
    | nil => simp at hsplit; rw [← hsplit.1] at herr; simp [hf] at herr
    | cons y ys =>
      simp at hsplit
      obtain ⟨rfl, hsplit⟩ := hsplit
      obtain ⟨h1, h2⟩ := htr ys n t2 e hsplit (by simpa [addTrace] using herr)
      refine ⟨h1, Or.inr ?_⟩
      rcases h2 with ⟨i, hi, hh, ho⟩ | ⟨g, i, himp, ho⟩
      · exact ⟨f, i, ⟨hi, hh, [], ys, name, by simp, by simpa using hf⟩, ho⟩
      · exact ⟨g, i, himp.weaken (t' := [.openF name]) (by simp [addTrace]) _ (by simp), ho⟩
  | finish name res f s2 hn hm hf hsh h2 =>
    obtain ⟨t, ht, htr, hnone⟩ := imports_tracks hsp fuel (addImport_tracks (link := link) hsp fuel) [name] f
      (s.addTrace [.resolve p, .openF name])
    rw [h2] at ht hnone
    refine ⟨.openF name :: t, by rw [finish_trace, ht]; simp [addTrace], ?_⟩
    intro t1 n t2 e hsplit herr
    cases t1 with
    | nil => simp at hsplit; rw [← hsplit.1] at herr; simp [hf] at herr
    | cons y ys =>
      simp at hsplit
      obtain ⟨rfl, hsplit⟩ := hsplit
      exact absurd herr (by simpa [addTrace] using hnone rfl ys n t2 e hsplit)

/-! ### No panics while opening -/

theorem dupOut_ne_panic {f : File} (h : f.SpansOk) (d : Bytes) (i : Nat) : dupOut d f i ≠ .panic := by
  unfold dupOut duplicatedImport
  cases hsp : findImportSpan f i with
  | none => exact absurd hsp (h i)
  | some sp => simp

theorem mapOut_ne_panic {f : File} (h : f.SpansOk) (i : Nat) (o : Out) (ho : o ≠ .panic) : mapOut f i o ≠ .panic := by
  cases o with
  | err e => obtain ⟨_, e', he⟩ := mapOut_idem f f i i e h; rw [he]; simp
  | ok => simp [mapOut]
  | panic => exact absurd rfl ho
  | oof => simp [mapOut]

theorem finish_ne_panic (s : Compiler) (n : Bytes) (f : File) (b : Bool) : (finish link s n f b).1 ≠ .panic := by
  unfold finish; split <;> simp

theorem addImport_ne_panic (hsp : R.SpansOk) : ∀ (fuel : Nat) (stack : List Bytes) (name : Bytes) (s : Compiler),
    (addImport R link fuel stack name s).1 ≠ .panic := by
  intro fuel
  induction fuel with
  | zero => intro stack name s; simp [addImport]
  | succ fuel ih =>
    intro stack name s
    rw [addImport]
    split
    · simp
    split
    · simp
    simp only
    split
    · simp
    rename_i f hf
    have hloop := importLoop_rule (addImport R link fuel (stack ++ [name])) f (fun _ _ => True)
      f.descriptor.dependency 0 [] { s with trace := s.trace ++ [.openF name] } trivial (by simp)
    simp only at hloop
    split
    · exact finish_ne_panic _ _ _ _
    · rename_i r hne
      rcases hloop with ⟨h, _⟩ | ⟨_, pre, d, post, s1, hds, _, _, h | h⟩
      · exact (hne _ (Prod.ext h rfl)).elim
      · rw [h.2]; exact dupOut_ne_panic (hsp _ _ _ hf) _ _
      · rw [h.2.2]; exact mapOut_ne_panic (hsp _ _ _ hf) _ _ (ih _ _ _)

theorem openFile_ne_panic (hsp : R.SpansOk) (fuel : Nat) (s : Compiler) (p : Bytes) :
    (openFile R link fuel s p).1 ≠ .panic := by
  have hc := openFile_cases (R := R) (link := link) fuel s p
  generalize openFile R link fuel s p = r at hc
  cases hc with
  | noName | heldShadow | held | openErr | shadow => simp
  | importFail name res f hres hm hf hsh hno =>
    have hloop := importLoop_rule (addImport R link fuel [name]) f (fun _ _ => True)
      f.descriptor.dependency 0 [] (s.addTrace [.resolve p, .openF name]) trivial (by simp)
    simp only at hloop
    rcases hloop with ⟨h, _⟩ | ⟨_, pre, d, post, s1, hds, _, _, h | h⟩
    · exact absurd h hno
    · rw [imports, h.2]; exact dupOut_ne_panic (hsp _ _ _ hf) _ _
    · rw [imports, h.2.2]; exact mapOut_ne_panic (hsp _ _ _ hf) _ _ (addImport_ne_panic hsp _ _ _ _)
  | finish name res f s2 hres hm hf hsh h2 => exact finish_ne_panic _ _ _ _

end Verif.Compiler
