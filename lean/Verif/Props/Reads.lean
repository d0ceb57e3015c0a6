import Verif.Proofs.Reads2
import Verif.Props.Compiler3
/-!
C72: how often the compiler asks its resolver for a file, and that what it got is what it uses. Resolvers may change their
answers from call to call (a file system can change while the compiler runs).
-/
namespace Verif.Compiler
section
variable {R : Resolver} {link : Linker}

/-- C72: one call of `open_file`, successful or not, asks for no file twice and for no file that the compiler has already; it
asks for each file that it adds, and if it succeeds it adds each file that it asked for. -/
theorem C72_call (fuel : Nat) (s : Compiler) (p : Bytes) :
    ∃ t : List Bytes, (openFile R link fuel s p).2.trace = s.trace ++ .resolve p :: t.map .openF ∧ t.Nodup ∧
      (∀ n ∈ t, s.files n = none) ∧
      (∀ n, s.files n = none → ((openFile R link fuel s p).2.files n).isSome → n ∈ t) ∧
      ((openFile R link fuel s p).1 = .ok → ∀ n ∈ t, ((openFile R link fuel s p).2.files n).isSome) :=
  openFile_reads fuel s p

/-- C72: after any history of calls, each file that the compiler has was made from the answer to the last time it was asked
for: its path is the path of this answer, and its descriptor is what the linker made of this answer when it was given the files
before it. -/
theorem C72_last (hwn : R.WellNamed) (hlaw : link.Lawful) {s : Compiler} (h : Reachable R link s) {n : Bytes} {m : FileMetadata}
    (hn : s.files n = some m) :
    ∃ t1 t2 f, s.trace = t1 ++ .openF n :: t2 ∧ n ∉ askedFor t2 ∧ R.openFile t1 n = .ok f ∧ m.name = n ∧ m.path = f.path ∧
      ∃ pre d post, s.pool = pre ++ d :: post ∧ link pre f = .ok d ∧ d.getName = n ∧ poolGet s.pool n = some d := by
  obtain ⟨t1, t2, f, h1, h2, h3, h4, h5, pre, d, post, h6, h7⟩ := reachable_ainv hwn hlaw h n m hn
  have hd : d.getName = n := (hlaw.name_eq _ _ _ h7).trans (hwn _ _ _ h3)
  refine ⟨t1, t2, f, h1, h2, h3, h4, h5, pre, d, post, h6, h7, hd, ?_⟩
  have hnd := (reachable_inv hwn hlaw h).nodup
  rw [h6, fileNames, List.map_append, List.map_cons, List.nodup_append] at hnd
  have hnone : pre.find? (fun x => x.getName == n) = none := by
    rw [List.find?_eq_none]
    intro x hx he
    simp at he
    exact hnd.2.2 x.getName (List.mem_map_of_mem (f := (·.getName)) hx) d.getName (.head _) (he.trans hd.symm)
  unfold poolGet
  rw [h6, List.find?_append, hnone]
  simp [hd]

/-- C72: a successful `open_file` walks over the imports with the answers as they came. -/
theorem C72_walk (hwn : R.WellNamed) (hlaw : link.Lawful) {s s' : Compiler} (h : Reachable R link s) {fuel : Nat} {p : Bytes}
    (hok : openFile R link fuel s p = (.ok, s')) :
    ∃ n asked, (R.resolvePath s.trace p = some n ∨ R.resolvePath s.trace p = none ∧ pathToFileName p = some n) ∧
      s'.trace = s.trace ++ .resolve p :: asked.map .openF ∧
      Walks R link (s.trace ++ [.resolve p]) s.pool [n] asked s'.pool := by
  obtain ⟨n, b, h1, asked, h2, h3⟩ := openFile_walks hwn hlaw (reachable_inv hwn hlaw h) hok
  refine ⟨n, asked, ?_, by simpa [addTrace] using h2, h3⟩
  unfold resolveName at h1
  split at h1
  · rename_i hr; cases h1; exact .inl hr
  · split at h1
    · rename_i hr _ _ hp; cases h1; exact .inr ⟨hr, hp⟩
    · cases h1

/-- C72: a compiler of which `k` calls failed has asked for no file more than `k + 1` times, and not more than `k` times if it
does not have the file; a compiler none of whose calls failed has asked for each of its files once and for no other file. -/
theorem C72_count {s : Compiler} {k : Nat} (h : Failures R link s k) (n : Bytes) :
    (askedFor s.trace).count n ≤ k + 1 ∧ (s.files n = none → (askedFor s.trace).count n ≤ k) := by
  have := failures_counted h n
  unfold Counted at this
  constructor
  · split at this <;> omega
  · intro hn
    rw [hn] at this
    simpa using this

theorem failures_reachable {s : Compiler} {k : Nat} (h : Failures R link s k) : Reachable R link s := by
  induction h with
  | init => exact .init
  | ok fuel op _ _ ih => exact .step fuel _ op ih
  | fail fuel op _ _ ih => exact .step fuel _ op ih

theorem C72_once (hwn : R.WellNamed) (hlaw : link.Lawful) {s : Compiler} (h : Failures R link s 0) (n : Bytes) :
    (askedFor s.trace).count n = if n ∈ fileNames s.pool then 1 else 0 := by
  have hr := failures_reachable h
  have hi := reachable_inv hwn hlaw hr
  obtain ⟨h1, h2⟩ := C72_count h n
  split
  · rename_i hm
    have hs := (hi.held_iff n).2 hm
    cases hf : s.files n with
    | none => rw [hf] at hs; cases hs
    | some m =>
      obtain ⟨t1, t2, f, ht, _⟩ := C72_last hwn hlaw hr hf
      have : 0 < (askedFor s.trace).count n := by
        rw [List.count_pos_iff, ht, askedFor_append]
        simp [askedFor]
      omega
  · rename_i hm
    have : s.files n = none := by
      cases hf : s.files n with
      | none => rfl
      | some m => exact absurd ((hi.held_iff n).1 (by rw [hf]; rfl)) hm
    have := h2 this
    omega

end

/-! ### A file that appears while the compiler runs -/
namespace ReadsDemo
open Demo

/-- `c` is missing the first time it is asked for; from the third call on `b` has no imports. -/
def answers (h : List Call) (n : Bytes) : Except Error File :=
  if n = b!"c" ∧ n ∉ askedFor h then .error (.fileNotFound n)
  else if n = b!"b" ∧ 3 ≤ (askedFor h).length then .ok (Demo.mk b!"b" [])
  else Demo.files n

def changing : Resolver := ⟨fun _ _ => none, answers⟩

theorem wellNamed : changing.WellNamed := by
  intro h n f hf
  simp only [changing, answers] at hf
  split at hf
  · cases hf
  · split at hf
    · rename_i hb; cases hf; rw [hb.1]; rfl
    · exact Demo.wellNamed [] n f hf

def s1 := (openFile changing lk 9 .init b!"a").2
def s2 := (openFile changing lk 9 s1 b!"a").2

theorem first : (openFile changing lk 9 .init b!"a").1 ≠ .ok := by decide
theorem second : (openFile changing lk 9 s1 b!"a").1 = .ok := by decide
theorem history : Failures changing lk s2 1 := .ok 9 (.openFile b!"a") (.fail 9 (.openFile b!"a") .init first) second

-- the file that was missing makes the first call fail; nothing is kept; all is asked for again
example : (openFile changing lk 9 .init b!"a").1 = .err (.importNotFound none b!"b" [] b!"c") ∧
    askedFor s1.trace = [b!"a", b!"b", b!"c"] ∧ s1.pool = [] := by decide
-- the answers of the second call are used: `b` has lost its import, `c` is imported by `a` only
example : askedFor s2.trace = [b!"a", b!"b", b!"c", b!"a", b!"b", b!"c"] ∧
    s2.pool.map (fun d => (d.getName, d.dependency)) = [(b!"b", []), (b!"c", []), (b!"a", [b!"b", b!"c"])] := by decide
-- the theorems apply
example : (askedFor s2.trace).count b!"b" ≤ 2 := (C72_count history _).1
example : ∃ t1 t2 f, s2.trace = t1 ++ .openF b!"b" :: t2 ∧ b!"b" ∉ askedFor t2 ∧ changing.openFile t1 b!"b" = .ok f := by
  have h : (s2.files b!"b").isSome := by decide
  cases hf : s2.files b!"b" with
  | none => rw [hf] at h; cases h
  | some m =>
    obtain ⟨t1, t2, f, h1, h2, h3, _⟩ := C72_last wellNamed lawful (failures_reachable history) hf
    exact ⟨t1, t2, f, h1, h2, h3⟩
-- without failures each file is asked for once, although `b` and `c` are reached twice
example : Failures res.toResolver lk (run [b!"a", b!"b", b!"a"]).2 0 ∧
    askedFor (run [b!"a", b!"b", b!"a"]).2.trace = [b!"a", b!"b", b!"c"] :=
  ⟨.ok 20 (.openFiles [b!"a", b!"b", b!"a"]) .init (by decide), by decide⟩

end ReadsDemo
end Verif.Compiler
