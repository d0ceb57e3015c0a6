import Verif.Props.Compiler
import Verif.Props.Compiler2
/-!
Property C14, the counterexample of C12, and concrete cases for the hypotheses of C01–C15.
-/
namespace Verif.Compiler
open PureResolver
variable {link : Linker} {r : PureResolver}

/-- C14: if two lists with the same members are both opened successfully on fresh compilers, the compilers
hold the same names with the same metadata (name, path, is_import) and the same descriptors. -/
theorem C14_order_independent (hwn : r.toResolver.WellNamed) (hlaw : link.Lawful) (hdet : link.Deterministic r)
    (fuel fuel' : Nat) (ps qs : List Bytes) (hsame : ∀ p, p ∈ ps ↔ p ∈ qs) (s s' : Compiler)
    (h1 : openFiles r.toResolver link fuel .init ps = (.ok, s))
    (h2 : openFiles r.toResolver link fuel' .init qs = (.ok, s')) :
    (∀ n, s.files n = s'.files n) ∧ (∀ n, poolGet s.pool n = poolGet s'.pool n) ∧
    (fileNames s.pool).Perm (fileNames s'.pool) := by
  obtain ⟨i1, p1, ⟨ns, hh, hns⟩, c1⟩ := openFiles_char hwn hlaw fuel ps .init s [] Inv.init (by intro n m h; cases h) .init h1
  obtain ⟨i2, p2, ⟨ns', hh', hns'⟩, c2⟩ := openFiles_char hwn hlaw fuel' qs .init s' [] Inv.init (by intro n m h; cases h) .init h2
  have hheld : ∀ n, (s.files n).isSome ↔ (s'.files n).isSome := by
    intro n
    rw [c1, c2]
    simp only [hsame]
  have hfiles : ∀ n, s.files n = s'.files n := by
    intro n
    have := hheld n
    cases hm : s.files n with
    | none =>
      rw [hm] at this
      cases hm' : s'.files n with
      | none => rfl
      | some m' => rw [hm'] at this; simp at this
    | some m =>
      rw [hm] at this
      cases hm' : s'.files n with
      | none => rw [hm'] at this; simp at this
      | some m' =>
        have e1 : m.name = m'.name := (i1.meta_name n m hm).trans (i2.meta_name n m' hm').symm
        have e2 : m.path = m'.path := by
          obtain ⟨f, _, _, _, a1, _, a3, _⟩ := p1 n m hm
          obtain ⟨f', _, _, _, b1, _, b3, _⟩ := p2 n m' hm'
          rw [a1] at b1; cases b1
          rw [a3, b3]
        have e3 : m.isImport = m'.isImport := by
          have q1 := (C04_is_import_iff hh).1 n m hm
          have q2 := (C04_is_import_iff hh').1 n m' hm'
          rw [hns] at q1; rw [hns'] at q2
          simp only [hsame] at q1
          have := q1.trans q2.symm
          revert this
          cases m.isImport <;> cases m'.isImport <;> simp
        obtain ⟨a, b, c⟩ := m; obtain ⟨a', b', c'⟩ := m'
        simp only at e1 e2 e3; subst e1; subst e2; subst e3; rfl
  refine ⟨hfiles, ?_, ?_⟩
  · intro n
    by_cases hn : (s.files n).isSome
    · exact pool_agree hlaw hdet i1 p1 i2 p2 _ n (Nat.lt_succ_self _) hn ((hheld n).1 hn)
    · have key : ∀ (t : Compiler), Inv t → ¬ (t.files n).isSome → poolGet t.pool n = none := by
        intro t it ht
        rw [it.held_iff] at ht
        unfold poolGet
        rw [List.find?_eq_none]
        intro x hx h
        simp at h
        exact ht (by rw [fileNames, List.mem_map]; exact ⟨x, hx, h⟩)
      rw [key s i1 hn, key s' i2 (fun h => hn ((hheld n).2 h))]
  · rw [List.perm_ext_iff_of_nodup i1.nodup i2.nodup]
    intro n
    rw [← i1.held_iff, ← i2.held_iff, hheld]

/-! ### Concrete cases -/
namespace Demo

/-- A file without source text. -/
def mk (n : Bytes) (deps : List Bytes) : File :=
  { path := none, source := none, encoded := none, descriptor := { name := some n, dependency := deps } }

/-- Ten files: a valid graph `a → b → c, a → c`, a cycle `d → e → d`, a file `g` with a duplicate import, a
file `h` importing a missing file, and `i → h`. -/
def files : Bytes → Except Error File := fun n =>
  if n = b!"a" then .ok (mk b!"a" [b!"b", b!"c"])
  else if n = b!"b" then .ok (mk b!"b" [b!"c"])
  else if n = b!"c" then .ok (mk b!"c" [])
  else if n = b!"d" then .ok (mk b!"d" [b!"e"])
  else if n = b!"e" then .ok (mk b!"e" [b!"c", b!"d"])
  else if n = b!"g" then .ok (mk b!"g" [b!"c", b!"b", b!"c"])
  else if n = b!"h" then .ok (mk b!"h" [b!"c", b!"missing"])
  else if n = b!"i" then .ok (mk b!"i" [b!"b", b!"h"])
  else if n = b!"x" then .ok (mk b!"x" [b!"io"])
  else if n = b!"io" then .error (.openFile b!"io" b!"io" (.other 5))
  else .error (.fileNotFound n)

def res : PureResolver := ⟨fun _ => none, files⟩

/-- A linker that accepts everything. -/
def lk : Linker := fun _ f => .ok f.descriptor

theorem lawful : lk.Lawful := ⟨by intro p f d h; cases h; rfl, by intro p f d h; cases h; rfl⟩

theorem det : lk.Deterministic res := by intro p1 p2 f d1 d2 _ h1 h2; cases h1; cases h2; rfl

theorem wellNamed : res.toResolver.WellNamed := by
  intro h n f hf
  simp only [PureResolver.toResolver, res, files] at hf
  repeat' split at hf
  all_goals cases hf
  all_goals subst n; rfl

theorem spansOk : res.toResolver.SpansOk := by
  intro h n f hf
  simp only [PureResolver.toResolver, res, files] at hf
  repeat' split at hf
  all_goals cases hf
  all_goals intro i; simp [findImportSpan, mk]

def run (ps : List Bytes) : Out × Compiler := openFiles res.toResolver lk 20 .init ps

-- a valid graph: accepted, topologically sorted, imports flagged
example : (run [b!"a"]).1 = .ok ∧ fileNames (run [b!"a"]).2.pool = [b!"c", b!"b", b!"a"] ∧
    ((run [b!"a"]).2.files b!"c").map (·.isImport) = some true := by decide
-- the order of opening only changes the order of the list
example : fileNames (run [b!"c", b!"a"]).2.pool = fileNames (run [b!"a", b!"c"]).2.pool ∧
    fileNames (run [b!"b", b!"i"]).2.pool = [b!"c", b!"b"] := by decide
-- a cycle: the text of the error
example : (run [b!"d"]).1 = .err (.circularImport b!"d" b!"d -> e -> d") := by decide
-- a duplicate import
example : (run [b!"g"]).1 = .err (.duplicateImport none b!"g" [] b!"c") := by decide
-- a missing import of an import: the innermost importer is named
example : (run [b!"i"]).1 = .err (.importNotFound none b!"h" [] b!"missing") ∧
    fileNames (run [b!"i"]).2.pool = [b!"c", b!"b"] := by decide
-- a missing root, another error of an import
example : (run [b!"zzz"]).1 = .err (.fileNotIncluded b!"zzz") ∧
    (run [b!"x"]).1 = .err (.openFile b!"io" b!"io" (.other 5)) := by decide

/-- The hypotheses of C13 and C08 are met by the graph on `a`, `b`, `c`. -/
theorem valid : ValidGraph res lk [b!"a", b!"b", b!"c"] := by
  have rank : ∃ k : Bytes → Nat, ∀ x ∈ [b!"a", b!"b", b!"c"], ∀ y, Edge res x y →
      y ∈ [b!"a", b!"b", b!"c"] ∧ k y < k x := by
    refine ⟨fun n => if n = b!"a" then 2 else if n = b!"b" then 1 else 0, ?_⟩
    intro x hx y he
    obtain ⟨f, hf, hy⟩ := he
    simp only [List.mem_cons, List.not_mem_nil, or_false] at hx
    rcases hx with rfl | rfl | rfl
    · have : f = mk b!"a" [b!"b", b!"c"] := by injection hf with h; exact h.symm
      subst this
      simp only [mk, List.mem_cons, List.not_mem_nil, or_false] at hy
      rcases hy with rfl | rfl <;> decide
    · have : f = mk b!"b" [b!"c"] := by injection hf with h; exact h.symm
      subst this
      simp only [mk, List.mem_cons, List.not_mem_nil, or_false] at hy
      subst hy; decide
    · have : f = mk b!"c" [] := by injection hf with h; exact h.symm
      subst this
      simp [mk] at hy
  refine ⟨?_, ?_, ?_⟩
  · intro x hx
    simp only [List.mem_cons, List.not_mem_nil, or_false] at hx
    rcases hx with rfl | rfl | rfl
    · exact ⟨mk b!"a" [b!"b", b!"c"], rfl, by decide, by decide⟩
    · exact ⟨mk b!"b" [b!"c"], rfl, by decide, by decide⟩
    · exact ⟨mk b!"c" [], rfl, by decide, by decide⟩
  · obtain ⟨k, hk⟩ := rank
    have reach : ∀ x y, Reach res x y → x ∈ [b!"a", b!"b", b!"c"] → k y ≤ k x := by
      intro x y h
      induction h with
      | refl => intro _; exact Nat.le_refl _
      | step he _ ih =>
        intro hx
        have := hk _ hx _ he
        exact Nat.le_trans (ih this.1) (Nat.le_of_lt this.2)
    rintro x hx ⟨y, he, hr⟩
    have h1 := hk x hx y he
    have := reach y x hr h1.1
    omega
  · intro x _ f _ pool _ _ _
    exact ⟨_, rfl⟩

/-- C13 applies to opening `a` in a compiler that already failed on a cycle. -/
example : (openFile res.toResolver lk 3 (run [b!"d"]).2 b!"a").1 = .ok := by
  have hs : Reachable res.toResolver lk (run [b!"d"]).2 := .step 20 .init (.openFiles [b!"d"]) .init
  exact (C13_valid_accepted wellNamed lawful hs _ valid b!"a" b!"a" false (by decide) (by decide)
    (by intro h; cases h) 3 (by decide)).1

/-- C06: `d` reaches itself. -/
example : ReachPlus res b!"d" b!"d" :=
  ⟨b!"e", ⟨mk b!"d" [b!"e"], rfl, by decide⟩, .step ⟨mk b!"e" [b!"c", b!"d"], rfl, by decide⟩ (.refl _)⟩

/-- C12, the excluded case: a resolver that answers a request for `x` with a descriptor named `y`. -/
def bad : PureResolver := ⟨fun _ => none, fun _ => .ok (mk b!"y" [])⟩

/-- C12: without the name-preservation hypothesis the queries do panic, so it is necessary. -/
theorem C12_misnamed_panics :
    (openFile bad.toResolver lk 5 .init b!"x").1 = .ok ∧
    filesOut (openFile bad.toResolver lk 5 .init b!"x").2 = none ∧
    fileDescriptorSet (openFile bad.toResolver lk 5 .init b!"x").2 = none := by decide

end Demo
end Verif.Compiler
