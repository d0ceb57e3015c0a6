import Verif.Proofs.Compiler7
import Verif.Spec.Errors
/-!
Every error of the compiler is justified.
-/
namespace Verif.Compiler
open PureResolver
variable {r : PureResolver} {link : Linker}

/-- An import error is the converted error of the import. -/
theorem mapOut_err {f : File} {i : Nat} {o : Out} {e : Error} (h : mapOut f i o = .err e) :
    ∃ e0, o = .err e0 ∧ ((∃ k span, e0 = .fileNotFound k ∧ findImportSpan f i = some span ∧
        e = .importNotFound span f.name (f.source.getD []) k) ∨ ((∀ k, e0 ≠ .fileNotFound k) ∧ e = e0)) := by
  cases o with
  | ok => cases h
  | panic => cases h
  | oof => cases h
  | err e0 =>
    refine ⟨e0, rfl, ?_⟩
    simp only [mapOut] at h
    split at h
    · rename_i e' he
      cases h
      cases e0 <;> simp only [intoImportError, Option.some.injEq] at he
      case fileNotFound k =>
        split at he
        · rename_i span hs
          cases he
          exact .inl ⟨k, span, rfl, hs, rfl⟩
        · cases he
      all_goals exact .inr ⟨nofun, he.symm⟩
    · cases h

theorem dupOut_err {d : Bytes} {f : File} {i : Nat} {e : Error} (h : dupOut d f i = .err e) :
    ∃ span, findImportSpan f i = some span ∧ e = .duplicateImport span f.name (f.source.getD []) d := by
  unfold dupOut duplicatedImport at h
  split at h
  · rename_i e' he
    cases h
    split at he
    · rename_i span hs; cases he; exact ⟨span, hs, rfl⟩
    · cases he
  · cases h

theorem finish_err {s : Compiler} {n : Bytes} {f : File} {b : Bool} {e : Error} (h : (finish link s n f b).1 = .err e) :
    ∃ c, link s.pool f = .error c ∧ f.name ∉ fileNames s.pool ∧ e = .check c := by
  unfold finish at h
  split at h
  · rename_i e' he
    cases h
    unfold poolAdd at he
    split at he
    · cases he
    · rename_i hno
      split at he
      · rename_i c hc
        cases he
        refine ⟨c, hc, ?_, rfl⟩
        intro hm
        apply hno
        rw [fileNames, List.mem_map] at hm
        obtain ⟨g, hg, hgn⟩ := hm
        rw [List.any_eq_true]
        exact ⟨g, hg, by simp [hgn]⟩
      · cases he
  · cases h

theorem reach_snoc {a b c : Bytes} (h : Reach r a b) (he : Edge r b c) : Reach r a c := h.trans (.step he (.refl _))

/-- The errors of one `add_import` call, given those of the recursive calls. -/
def AddJust (r : PureResolver) (link : Linker) (root : Bytes) (fuel : Nat) : Prop :=
  ∀ (stack : List Bytes) (name : Bytes) (s : Compiler) (e : Error), Inv s → stack.head? = some root →
    IsChain r (stack ++ [name]) → Reach r root name →
    (addImport r.toResolver link fuel stack name s).1 = .err e →
    (∃ k, e = .fileNotFound k ∧ r.openFile name = .error e) ∨ Justified r link root e

theorem imports_just (hwn : r.toResolver.WellNamed) (hlaw : link.Lawful) {root : Bytes} {fuel : Nat}
    (ih : AddJust r link root fuel) {stack : List Bytes} {name : Bytes} {f : File} {s : Compiler} {e : Error} (hs : Inv s)
    (hroot : (stack ++ [name]).head? = some root) (hch : IsChain r (stack ++ [name])) (hr : Reach r root name)
    (hf : r.openFile name = .ok f) (h : (imports r.toResolver link fuel (stack ++ [name]) f s).1 = .err e) :
    Justified r link root e := by
  have hloop := importLoop_rule (addImport r.toResolver link fuel (stack ++ [name])) f (fun _ s' => Inv s')
    f.descriptor.dependency 0 [] s hs (fun _ d s' h _ _ _ => addImport_inv hwn hlaw fuel _ d s' h)
  simp only at hloop
  rcases hloop with ⟨h', _⟩ | ⟨_, pre, d, post, s1, hds, hs1, _, h' | h'⟩
  · rw [imports, h'] at h; cases h
  · rw [imports, h'.2] at h
    obtain ⟨span, h1, rfl⟩ := dupOut_err h
    exact .duplicateImport hr hf hds (by simpa using h'.1) (by simpa using h1)
  · rw [imports, h'.2.2] at h
    obtain ⟨e0, h1, h2⟩ := mapOut_err h
    have he : Edge r name d := ⟨f, hf, by rw [hds]; simp⟩
    have hc := isChain_snoc hch he
    rcases ih (stack ++ [name]) d s1 e0 hs1 hroot (by simpa using hc) (reach_snoc hr he) h1 with ⟨k, rfl, hk⟩ | hj
    · rcases h2 with ⟨k', span, h3, h4, rfl⟩ | ⟨h3, _⟩
      · cases h3
        exact .importNotFound hr hf hds hk (by simpa using h4)
      · exact absurd rfl (h3 k)
    · rcases h2 with ⟨k', span, rfl, _, _⟩ | ⟨_, rfl⟩
      · cases hj with
        | cannotOpen _ _ hne => exact absurd rfl (hne k')
      · exact hj

theorem finish_just (hwn : r.toResolver.WellNamed) {root name : Bytes} {f : File} {s : Compiler} {b : Bool} {e : Error}
    (hs : Inv s) (hr : Reach r root name) (hf : r.openFile name = .ok f)
    (hd : ∀ d ∈ f.descriptor.dependency, (s.files d).isSome) (h : (finish link s name f b).1 = .err e) :
    Justified r link root e := by
  obtain ⟨c, h1, h2, rfl⟩ := finish_err h
  have hn : f.name = name := hwn [] name f hf
  exact .check hr hf hs.topo (by rw [← hn]; exact h2) (fun d hd' => (hs.held_iff d).1 (hd d hd')) h1

theorem addImport_just (hwn : r.toResolver.WellNamed) (hlaw : link.Lawful) (root : Bytes) :
    ∀ fuel, AddJust r link root fuel := by
  intro fuel
  induction fuel with
  | zero => intro stack name s e _ _ _ _ h; simp [addImport] at h
  | succ fuel ih =>
    intro stack name s e hs hroot hch hr h
    rw [addImport] at h
    split at h
    · rename_i hmem
      cases h
      exact .inr (.cycle hroot hch hmem)
    split at h
    · cases h
    simp only at h
    split at h
    · rename_i e' he
      cases h
      by_cases hk : ∃ k, e = .fileNotFound k
      · obtain ⟨k, rfl⟩ := hk; exact .inl ⟨k, rfl, he⟩
      · exact .inr (.cannotOpen hr he fun k hk' => hk ⟨k, hk'⟩)
    · rename_i f hf
      have hroot' : (stack ++ [name]).head? = some root := by
        cases stack with
        | nil => cases hroot
        | cons a l => exact hroot
      have hs' : Inv { s with trace := s.trace ++ [Call.openF name] } := hs.addTrace _
      split at h
      · rename_i s2 h2
        have hfr := imports_frame (R := r.toResolver) (link := link) fuel (stack ++ [name]) f
          { s with trace := s.trace ++ [Call.openF name] }
        have hi := imports_inv hwn hlaw fuel (stack ++ [name]) f _ hs'
        rw [imports, h2] at hfr hi
        exact .inr (finish_just hwn hi hr hf (hfr.2.2 rfl) h)
      · rename_i x hnx
        exact .inr (imports_just hwn hlaw ih hs' hroot' hch hr hf h)

theorem resolveName_nameOf' {s : Compiler} {p n : Bytes} {b : Bool} (h : resolveName r.toResolver s p = some (n, b)) :
    r.nameOf p = some n ∧ (b = true → r.resolvePath p = some n) := by
  have h1 := resolveName_nameOf (r := r) s p
  rw [h] at h1
  refine ⟨h1.symm, ?_⟩
  rintro rfl
  unfold resolveName PureResolver.toResolver at h
  simp only at h
  cases hp : r.resolvePath p with
  | some m => rw [hp] at h; cases h; rfl
  | none =>
    rw [hp] at h
    simp only at h
    split at h <;> cases h

theorem shadowError_some {b : Bool} {n p : Bytes} {a : Option Bytes} {e : Error} (h : shadowError b n a p = some e) :
    b = true ∧ ∃ x, a = some x ∧ ¬ Path.pathEq (Path.components x) (Path.components p) = true ∧ e = .fileShadowed n p x := by
  unfold shadowError at h
  split at h
  · rename_i hb
    unfold checkShadow at h
    cases a with
    | none => cases h
    | some x =>
      simp only at h
      split at h
      · cases h
      · rename_i hx
        cases h
        exact ⟨hb, x, rfl, hx, rfl⟩
  · cases h

theorem openFile_just (hwn : r.toResolver.WellNamed) (hlaw : link.Lawful) (fuel : Nat) {s : Compiler} {p : Bytes} {e : Error}
    (hs : Inv s) (hp : PInv r link s) (h : (openFile r.toResolver link fuel s p).1 = .err e) : OpenError r link p e := by
  have hc := openFile_cases (R := r.toResolver) (link := link) fuel s p
  generalize openFile r.toResolver link fuel s p = x at hc h
  cases hc with
  | noName hn =>
    cases h
    refine .noName ?_
    have := resolveName_nameOf (r := r) s p
    rw [hn] at this; exact this.symm
  | heldShadow name res m e' hn hm he =>
    cases h
    obtain ⟨rfl, x, hx, hne, rfl⟩ := shadowError_some he
    obtain ⟨f, _, _, _, h1, _, h3, _⟩ := hp name m hm
    exact .shadowed ((resolveName_nameOf' hn).2 rfl) h1 (by rw [← h3, hx]) hne
  | held => cases h
  | openErr name res e' hn hm he =>
    have h' := h
    cases h'
    have hn' := (resolveName_nameOf' hn).1
    cases hnf : e'.isFileNotFound with
    | true => rw [if_pos rfl]; exact .notThere hn' he hnf
    | false => rw [if_neg (by simp)]; exact .cannotOpen hn' he hnf
  | shadow name res f e' hn hm hf he =>
    cases h
    obtain ⟨rfl, x, hx, hne, rfl⟩ := shadowError_some he
    exact .shadowed ((resolveName_nameOf' hn).2 rfl) hf hx hne
  | importFail name res f hn hm hf hsh hno =>
    exact .inside (resolveName_nameOf' hn).1 hf (imports_just hwn hlaw (stack := []) (addImport_just hwn hlaw name fuel)
      (hs.addTrace _) rfl trivial (.refl _) hf h)
  | finish name res f s2 hn hm hf hsh h2 =>
    have hs' : Inv (s.addTrace [.resolve p, .openF name]) := hs.addTrace _
    have hfr := imports_frame (R := r.toResolver) (link := link) fuel [name] f (s.addTrace [.resolve p, .openF name])
    have hi := imports_inv hwn hlaw fuel [name] f _ hs'
    rw [h2] at hfr hi
    exact .inside (resolveName_nameOf' hn).1 hf (finish_just hwn hi (.refl _) hf (hfr.2.2 rfl) h)

theorem openFiles_just (hwn : r.toResolver.WellNamed) (hlaw : link.Lawful) (fuel : Nat) (ps : List Bytes) :
    ∀ {s : Compiler} {e : Error}, Inv s → PInv r link s → (openFiles r.toResolver link fuel s ps).1 = .err e →
      ∃ p ∈ ps, OpenError r link p e := by
  induction ps with
  | nil => intro s e _ _ h; cases h
  | cons p ps ih =>
    intro s e hs hp h
    rw [openFiles] at h
    split at h
    · rename_i s' h1
      have hi := openFile_inv hwn hlaw fuel s p hs
      have hpi := openFile_pinv hwn hlaw fuel s p hs hp
      rw [h1] at hi hpi
      obtain ⟨q, hq, hj⟩ := ih hi hpi h
      exact ⟨q, .tail _ hq, hj⟩
    · exact ⟨p, .head _, openFile_just hwn hlaw fuel hs hp h⟩

end Verif.Compiler
