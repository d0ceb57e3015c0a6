import Verif.Proofs.Compiler7
import Verif.Proofs.Compiler4
/-!
Properties C06–C09, C13, C14 of the compiler, and the panic-freedom of opening files.
-/
namespace Verif.Compiler
open PureResolver
variable {R : Resolver} {link : Linker} {r : PureResolver}

/-- C06: if `open_file` succeeds, no file reachable by imports from the opened one imports itself,
directly or not. -/
theorem C06_success_acyclic (hwn : r.toResolver.WellNamed) (hlaw : link.Lawful) {s : Compiler}
    (hs : Reachable r.toResolver link s) (fuel : Nat) (p n : Bytes) (b : Bool)
    (hres : resolveName r.toResolver s p = some (n, b))
    (hok : (openFile r.toResolver link fuel s p).1 = .ok) :
    ∀ m, Reach r n m → ¬ ReachPlus r m m := by
  intro m hm
  have hr : Reachable r.toResolver link (openFile r.toResolver link fuel s p).2 := .step fuel s (.openFile p) hs
  have hinv := reachable_inv hwn hlaw hr
  have hp := reachable_pinv hwn hlaw hr
  exact no_cycle hlaw hinv hp (reach_held hlaw hinv hp hm (openFile_ok_held hres hok))

/-- C06: contrapositive: if some reachable file is on a cycle, `open_file` does not succeed. -/
theorem C06_cycle_rejected (hwn : r.toResolver.WellNamed) (hlaw : link.Lawful) {s : Compiler}
    (hs : Reachable r.toResolver link s) (fuel : Nat) (p n m : Bytes) (b : Bool)
    (hres : resolveName r.toResolver s p = some (n, b)) (hm : Reach r n m) (hc : ReachPlus r m m) :
    (openFile r.toResolver link fuel s p).1 ≠ .ok :=
  fun hok => C06_success_acyclic hwn hlaw hs fuel p n b hres hok m hm hc

/-- C06: a circular-import error produced by the compiler (not by the resolver) spells out a chain of
imports that begins at the opened file and whose last name already occurs in it. -/
theorem C06_cycle_text (hne : ∀ n nm cyc, r.openFile n ≠ .error (.circularImport nm cyc))
    (fuel : Nat) (s : Compiler) (p nm cyc : Bytes)
    (h : (openFile r.toResolver link fuel s p).1 = .err (.circularImport nm cyc)) :
    ∃ n b, resolveName r.toResolver s p = some (n, b) ∧
      ∃ chain : List Bytes, chain.head? = some n ∧ IsChain r (chain ++ [nm]) ∧ nm ∈ chain ∧
        cyc = chain.flatMap (· ++ b!" -> ") ++ nm := by
  have hshadow : ∀ res name path q, shadowError res name path q ≠ some (.circularImport nm cyc) := by
    intro res name path q hh
    unfold shadowError checkShadow at hh
    split at hh
    · split at hh
      · split at hh <;> cases hh
      · cases hh
    · cases hh
  have hc := openFile_cases (R := r.toResolver) (link := link) fuel s p
  generalize openFile r.toResolver link fuel s p = x at hc h
  cases hc with
  | noName => cases h
  | heldShadow name res m e hn hm hsh => simp only at h; cases h; exact absurd hsh (hshadow _ _ _ _)
  | held => cases h
  | openErr name res e hn hm he =>
    simp only at h
    split at h
    · cases h
    · cases h; exact absurd he (hne _ _ _)
  | shadow name res f e hn hm hf hsh => simp only at h; cases h; exact absurd hsh (hshadow _ _ _ _)
  | importFail name res f hn hm hf hsh hno =>
    refine ⟨name, res, hn, ?_⟩
    have hloop := importLoop_rule (addImport r.toResolver link fuel [name]) f (fun _ _ => True)
      f.descriptor.dependency 0 [] (s.addTrace [.resolve p, .openF name]) trivial (by simp)
    simp only at hloop
    rcases hloop with ⟨h', _⟩ | ⟨_, pre, d, post, s1, hds, _, _, h' | h'⟩
    · exact absurd h' hno
    · rw [imports, h'.2] at h; exact absurd h dupOut_not_circular
    · rw [imports, h'.2.2] at h
      have := mapOut_circular h
      have he : Edge r name d := ⟨f, hf, by rw [hds]; simp⟩
      exact addImport_circular hne name fuel [name] d s1 nm cyc rfl ⟨he, trivial⟩ this
  | finish name res f s2 hn hm hf hsh h2 => exact absurd h finish_not_circular

/-- C07: if the names reachable from the requested one lie in a finite list `U`, opening finishes within
recursion depth `U.length` — cyclic or not, whatever files are missing, whatever the resolver does. -/
theorem C07_terminates (U : List Bytes)
    (hU : ∀ h n f, n ∈ U → R.openFile h n = .ok f → ∀ d ∈ f.descriptor.dependency, d ∈ U)
    (fuel : Nat) (s : Compiler) (p : Bytes) (hn : ∀ n b, resolveName R s p = some (n, b) → n ∈ U)
    (hfuel : U.length ≤ fuel) : (openFile R link fuel s p).1 ≠ .oof :=
  openFile_terminates U hU fuel s p hn hfuel

/-- C07: the depth bound given to the model does not influence the outcome: any two bounds that suffice
give the same result and state, so the result for a finite graph is the unbounded recursion's. -/
theorem C07_result_independent_of_bound (f1 f2 : Nat) (s : Compiler) (p : Bytes)
    (h1 : (openFile R link f1 s p).1 ≠ .oof) (h2 : (openFile R link f2 s p).1 ≠ .oof) :
    openFile R link f1 s p = openFile R link f2 s p := by
  rcases Nat.le_total f1 f2 with h | h
  · obtain ⟨k, rfl⟩ := Nat.exists_eq_add_of_le h
    exact (openFile_fuel_mono f1 k s p h1).symm
  · obtain ⟨k, rfl⟩ := Nat.exists_eq_add_of_le h
    exact openFile_fuel_mono f2 k s p h2

/-- C07: opening never panics while import locations can be processed. -/
theorem C07_no_panic (hsp : R.SpansOk) (fuel : Nat) (s : Compiler) (p : Bytes) :
    (openFile R link fuel s p).1 ≠ .panic := openFile_ne_panic hsp fuel s p

/-- C08: in no state reached by any history is a file held that lists an import twice. -/
theorem C08_never_held (hwn : r.toResolver.WellNamed) (hlaw : link.Lawful) {s : Compiler}
    (hs : Reachable r.toResolver link s) (n : Bytes) (f : File) (hf : r.openFile n = .ok f)
    (hdup : ¬ f.descriptor.dependency.Nodup) : s.files n = none ∧ n ∉ fileNames s.pool := by
  have hinv := reachable_inv hwn hlaw hs
  have hp := reachable_pinv hwn hlaw hs
  have : s.files n = none := by
    cases h : s.files n with
    | none => rfl
    | some m =>
      obtain ⟨f', _, _, _, h1, h2, _⟩ := hp n m h
      rw [hf] at h1; cases h1; exact absurd h2 hdup
  refine ⟨this, fun hm => ?_⟩
  have := (hinv.held_iff n).2 hm
  simp_all

/-- C08: opening a file that lists an import twice fails. -/
theorem C08_open_fails (hwn : r.toResolver.WellNamed) (hlaw : link.Lawful) {s : Compiler}
    (hs : Reachable r.toResolver link s) (fuel : Nat) (p n : Bytes) (b : Bool) (f : File)
    (hres : resolveName r.toResolver s p = some (n, b)) (hf : r.openFile n = .ok f)
    (hdup : ¬ f.descriptor.dependency.Nodup) : (openFile r.toResolver link fuel s p).1 ≠ .ok := by
  intro hok
  have hr : Reachable r.toResolver link (openFile r.toResolver link fuel s p).2 := .step fuel s (.openFile p) hs
  have := C08_never_held hwn hlaw hr n f hf hdup
  have h2 := openFile_ok_held hres hok
  rw [this.1] at h2; cases h2

/-- C08: if the opened file's imports up to the first repeated one all compile (they belong to a valid import
graph `U` without the file itself), the error is the duplicate-import error naming the file and the import. -/
theorem C08_error (hwn : r.toResolver.WellNamed) (hlaw : link.Lawful) {s : Compiler}
    (hs : Reachable r.toResolver link s) (p n : Bytes) (b : Bool) (f : File) (fuel : Nat)
    (hres : resolveName r.toResolver s p = some (n, b)) (hf : r.openFile n = .ok f) (hsp : f.SpansOk)
    (hshadow : b = true → checkShadow n f.path p = none)
    (pre post : List Bytes) (d : Bytes) (hdeps : f.descriptor.dependency = pre ++ d :: post)
    (hpre : pre.Nodup) (hd : d ∈ pre)
    (U : List Bytes) (hg : ValidGraph r link U) (hU : ∀ x ∈ pre, x ∈ U) (hn : n ∉ U) (hfuel : U.length + 1 ≤ fuel) :
    ∃ span, (openFile r.toResolver link fuel s p).1 =
      .err (.duplicateImport span n (f.source.getD []) d) := by
  have hinv := reachable_inv hwn hlaw hs
  have hnd : ¬ f.descriptor.dependency.Nodup := by
    rw [hdeps, List.nodup_append]
    rintro ⟨_, _, h⟩
    exact h d hd d (by simp) rfl
  have hnone := (C08_never_held hwn hlaw hs n f hf hnd).1
  have hname : f.name = n := hwn [] n f hf
  have hrn : r.toResolver.openFile (s.trace ++ [.resolve p]) n = .ok f := hf
  have hsh : shadowError b n f.path p = none := by
    unfold shadowError; cases b with
    | false => rfl
    | true => exact hshadow rfl
  have key : ∀ s', Inv s' → (importLoop (addImport r.toResolver link fuel [n]) f 0 [] f.descriptor.dependency s').1
      = dupOut d f pre.length := by
    intro s' hs'
    rw [hdeps]
    -- run the loop with the invariant
    have : ∀ (l : List Bytes) (i : Nat) (seen : List Bytes) (σ : Compiler), Inv σ → (seen ++ l).Nodup → d ∈ seen ++ l →
        (∀ x ∈ l, x ∈ U) →
        (importLoop (addImport r.toResolver link fuel [n]) f i seen (l ++ d :: post) σ).1 = dupOut d f (i + l.length) := by
      intro l
      induction l with
      | nil =>
        intro i seen σ _ _ hd' _
        simp only [List.append_nil] at hd'
        simp only [List.nil_append, importLoop, if_pos hd', dupOut]
        split <;> simp_all
      | cons x l ih =>
        intro i seen σ hσ hnd' hd' hl
        have hx : x ∉ seen := by
          rw [List.nodup_append] at hnd'
          intro h; exact hnd'.2.2 x h x (by simp) rfl
        rw [List.cons_append, importLoop, if_neg hx]
        have h1 : (addImport r.toResolver link fuel [n] x σ).1 = .ok := by
          refine addImport_accepts_outside hwn hlaw hg fuel [n] x σ hσ ?_ (hl x (by simp)) ?_
          · intro y hy; simp at hy; subst hy; exact hn
          · omega
        have h2 := addImport_inv hwn hlaw fuel [n] x σ hσ
        rcases hadd : addImport r.toResolver link fuel [n] x σ with ⟨o, s'⟩
        rw [hadd] at h1 h2; simp only at h1; subst h1
        simp only
        rw [ih (i + 1) (seen ++ [x]) s' h2 (by simpa using hnd') (by simpa using hd') (fun y hy => hl y (by simp [hy]))]
        congr 1
        simp; omega
    simpa using this pre 0 [] s' hs' (by simpa using hpre) (by simpa using hd) hU
  have hk := key (s.addTrace [.resolve p, .openF n]) (hinv.addTrace _)
  rw [openFile]
  simp only [hres, hnone, hrn, hsh]
  have e2 : ({ s with trace := s.trace ++ [.resolve p] ++ [.openF n] } : Compiler)
      = s.addTrace [.resolve p, .openF n] := by simp [addTrace]
  rw [e2]
  rcases hl : importLoop (addImport r.toResolver link fuel [n]) f 0 [] f.descriptor.dependency
    (s.addTrace [.resolve p, .openF n]) with ⟨o, s2⟩
  rw [hl] at hk; simp only at hk
  unfold dupOut duplicatedImport at hk
  cases hspan : findImportSpan f pre.length with
  | none => exact absurd hspan (hsp _)
  | some span =>
    rw [hspan, hname] at hk
    simp only at hk
    subst hk
    exact ⟨span, rfl⟩

/-- C09: every failing resolver call during `open_file` is the last call made. If it was the call for the
opened file itself, a not-found error becomes the not-included error with the path passed by the caller and
any other error is returned unchanged. Otherwise it was for the `i`th import of a file `f` opened during this
call whose earlier imports all succeeded: a `FileNotFound` becomes import-not-found naming `f`, any other
error is returned unchanged. -/
theorem C09_classification (hsp : R.SpansOk) (fuel : Nat) (s : Compiler) (p : Bytes) :
    ∃ t, (openFile R link fuel s p).2.trace = s.trace ++ .resolve p :: t ∧
      ∀ t1 n t2 e, t = t1 ++ .openF n :: t2 → R.openFile (s.trace ++ .resolve p :: t1) n = .error e →
        t2 = [] ∧
        ((t1 = [] ∧ (∃ b, resolveName R s p = some (n, b)) ∧
            (openFile R link fuel s p).1 = .err (if e.isFileNotFound then .fileNotIncluded p else e)) ∨
         (∃ f i u v m, t1 = u ++ .openF m :: v ∧ R.openFile (s.trace ++ .resolve p :: u) m = .ok f ∧
            f.descriptor.dependency[i]? = some n ∧
            (∀ d ∈ f.descriptor.dependency.take i, ((openFile R link fuel s p).2.files d).isSome) ∧
            ((∃ k span, e = .fileNotFound k ∧
                (openFile R link fuel s p).1 = .err (.importNotFound span f.name (f.source.getD []) k)) ∨
             ((∀ k, e ≠ .fileNotFound k) ∧ (openFile R link fuel s p).1 = .err e)))) := by
  obtain ⟨t, ht, htr⟩ := openFile_tracks (link := link) hsp fuel s p
  refine ⟨t, ht, ?_⟩
  intro t1 n t2 e hsplit herr
  obtain ⟨h1, h2⟩ := htr t1 n t2 e hsplit (by simpa using herr)
  refine ⟨h1, ?_⟩
  rcases h2 with h | ⟨f, i, ⟨hi, hheld, u, v, m, hu, hf⟩, ho⟩
  · exact Or.inl h
  · right
    refine ⟨f, i, u, v, m, hu, by simpa using hf, hi, hheld, ?_⟩
    have hspf : f.SpansOk := hsp _ _ _ hf
    by_cases hk : ∃ k, e = .fileNotFound k
    · obtain ⟨k, rfl⟩ := hk
      left
      cases hs' : findImportSpan f i with
      | none => exact absurd hs' (hspf i)
      | some span => exact ⟨k, span, rfl, by rw [ho]; simp [mapOut, intoImportError, hs']⟩
    · right
      refine ⟨fun k h => hk ⟨k, h⟩, ?_⟩
      rw [ho]
      simp only [mapOut]
      cases e <;> first | rfl | (exact absurd ⟨_, rfl⟩ hk)

/-- C09: the three not-found errors, and no others, satisfy `is_file_not_found`. -/
theorem C09_is_file_not_found (e : Error) : e.isFileNotFound = true ↔
    (∃ n, e = .fileNotFound n) ∨ (∃ a b c d, e = .importNotFound a b c d) ∨ (∃ p, e = .fileNotIncluded p) := by
  cases e <;> simp [Error.isFileNotFound]

/-- C13: a finite acyclic graph of files that are found, free of duplicate imports and accepted by the linker
is accepted, and afterwards every file reachable from the opened one is held. -/
theorem C13_valid_accepted (hwn : r.toResolver.WellNamed) (hlaw : link.Lawful) {s : Compiler}
    (hs : Reachable r.toResolver link s) (U : List Bytes) (hg : ValidGraph r link U) (p n : Bytes) (b : Bool)
    (hres : resolveName r.toResolver s p = some (n, b)) (hn : n ∈ U)
    (hshadow : b = true → ∀ f, r.openFile n = .ok f → checkShadow n f.path p = none)
    (fuel : Nat) (hfuel : U.length ≤ fuel) :
    (openFile r.toResolver link fuel s p).1 = .ok ∧
    ∀ m, Reach r n m → ((openFile r.toResolver link fuel s p).2.files m).isSome := by
  have hinv := reachable_inv hwn hlaw hs
  have hp := reachable_pinv hwn hlaw hs
  have hshE : ∀ f path, r.openFile n = .ok f → path = f.path → shadowError b n path p = none := by
    intro f path hf hpath
    unfold shadowError; cases b with
    | false => rfl
    | true => rw [hpath]; exact hshadow rfl f hf
  have hok : (openFile r.toResolver link fuel s p).1 = .ok := by
    have hc := openFile_cases (R := r.toResolver) (link := link) fuel s p
    generalize openFile r.toResolver link fuel s p = x at hc
    cases hc with
    | noName h => rw [hres] at h; cases h
    | heldShadow name res m e h hm hsh =>
      rw [hres] at h; cases h
      obtain ⟨f, _, _, _, h1, _, h3, _⟩ := hp n m hm
      rw [hshE f m.path h1 h3] at hsh; cases hsh
    | held => rfl
    | openErr name res e h hm he =>
      rw [hres] at h; cases h
      obtain ⟨f, h1, _⟩ := hg.found n hn
      have he' : r.openFile n = .error e := he
      rw [h1] at he'; cases he'
    | shadow name res f e h hm hf hsh =>
      rw [hres] at h; cases h
      rw [hshE f f.path hf rfl] at hsh; cases hsh
    | importFail name res f h hm hf hsh hno =>
      rw [hres] at h; cases h
      exact absurd (imports_accepts hwn hlaw hg fuel n f _ (hinv.addTrace _) hn hf hfuel) hno
    | finish name res f s2 h hm hf hsh h2 =>
      rw [hres] at h; cases h
      have hfr := imports_frame (R := r.toResolver) (link := link) fuel [n] f (s.addTrace [.resolve p, .openF n])
      have hi := imports_inv hwn hlaw fuel [n] f (s.addTrace [.resolve p, .openF n]) (hinv.addTrace _)
      rw [h2] at hfr hi
      refine finish_accepts hg hi hn hf (hwn [] n f hf) ?_ (hfr.2.2 rfl)
      rw [hfr.2.1 n (by simp)]; exact hm
  refine ⟨hok, ?_⟩
  intro m hm
  have hr : Reachable r.toResolver link (openFile r.toResolver link fuel s p).2 := .step fuel s (.openFile p) hs
  exact reach_held hlaw (reachable_inv hwn hlaw hr) (reachable_pinv hwn hlaw hr) hm (openFile_ok_held hres hok)

end Verif.Compiler

