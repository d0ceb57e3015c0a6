import Verif.Spec.Script
import Verif.Props.Compiler
import Verif.Proofs.Flags
import Verif.Props.Reads
/-!
C74: the settings of a compiler can be made at any time: they change nothing about how files are opened, and the output depends
on the last value of each (at first `false`).
-/
namespace Verif
open Verif.Spec Compiler
section
variable {R : Resolver} {link : Linker}

theorem script_opening (fuel : Nat) (i j : Bool) : ∀ (ops : List Op) (s : Compiler),
    script R link fuel (s.withFlags i j) (ops.filter opening) =
      (((ops.zip (script R link fuel s ops).1).filter (opening ·.1)).map (·.2), (script R link fuel s ops).2.withFlags i j)
  | [], _ => rfl
  | op :: ops, s => by
    have one : opening op = true → step R link fuel (s.withFlags i j) op = flagged i j (step R link fuel s op) := by
      intro h
      cases op with
      | openFile p => exact openFile_flagged i j fuel s p
      | openFiles ps => exact openFiles_flagged i j fuel ps s
      | setIncludeImports b => cases h
      | setIncludeSourceInfo b => cases h
    cases ho : opening op with
    | true =>
      rw [List.filter_cons, if_pos ho]
      have ih := script_opening fuel i j ops (step R link fuel s op).2
      simp only [script, one ho, flagged, ih, List.zip_cons_cons, List.filter_cons, ho, if_true, List.map_cons]
    | false =>
      rw [List.filter_cons, if_neg (by simp [ho])]
      have ih := script_opening fuel i j ops (step R link fuel s op).2
      have e : (step R link fuel s op).2.withFlags i j = s.withFlags i j := by
        cases op with
        | openFile p => cases ho
        | openFiles ps => cases ho
        | setIncludeImports b => rfl
        | setIncludeSourceInfo b => rfl
      rw [e] at ih
      rw [ih]
      simp only [script, List.zip_cons_cons, List.filter_cons, ho, Bool.false_eq_true, if_false]

theorem script_flags (fuel : Nat) : ∀ (ops : List Op) (s : Compiler),
    (script R link fuel s ops).2.includeImports =
      (ops.filterMap fun | .setIncludeImports b => some b | _ => none).getLast?.getD s.includeImports ∧
    (script R link fuel s ops).2.includeSourceInfo =
      (ops.filterMap fun | .setIncludeSourceInfo b => some b | _ => none).getLast?.getD s.includeSourceInfo
  | [], _ => ⟨rfl, rfl⟩
  | op :: ops, s => by
    obtain ⟨h1, h2⟩ := script_flags fuel ops (step R link fuel s op).2
    simp only [script]
    rw [h1, h2]
    have last : ∀ (b : Bool) (l : List Bool) (d : Bool), (b :: l).getLast?.getD d = l.getLast?.getD b := by
      intro b l d
      cases l with
      | nil => rfl
      | cons c l => rw [List.getLast?_cons_cons]; rfl
    cases op with
    | openFile p =>
      obtain ⟨a, b⟩ := openFile_flags (R := R) (link := link) fuel s p
      exact ⟨by rw [show step R link fuel s (.openFile p) = openFile R link fuel s p from rfl, a]; rfl,
        by rw [show step R link fuel s (.openFile p) = openFile R link fuel s p from rfl, b]; rfl⟩
    | openFiles ps =>
      obtain ⟨a, b⟩ := openFiles_flags (R := R) (link := link) fuel ps s
      exact ⟨by rw [show step R link fuel s (.openFiles ps) = openFiles R link fuel s ps from rfl, a]; rfl,
        by rw [show step R link fuel s (.openFiles ps) = openFiles R link fuel s ps from rfl, b]; rfl⟩
    | setIncludeImports b => exact ⟨(last b _ _).symm, rfl⟩
    | setIncludeSourceInfo b => exact ⟨rfl, (last b _ _).symm⟩

theorem script_reachable (fuel : Nat) : ∀ (ops : List Op) {s : Compiler}, Reachable R link s →
    Reachable R link (script R link fuel s ops).2
  | [], _, h => h
  | op :: ops, _, h => script_reachable fuel ops (.step fuel _ op h)

/-- C74: the calls of `include_imports` and `include_source_info` in a sequence of calls always succeed and change nothing about
the others: without them, the others have the same outcomes, and `files()` is the same. -/
theorem C74_opening (fuel : Nat) (ops : List Op) :
    (script R link fuel .init (ops.filter opening)).1 =
      ((ops.zip (script R link fuel .init ops).1).filter (opening ·.1)).map (·.2) ∧
    filesOut (script R link fuel .init (ops.filter opening)).2 = filesOut (script R link fuel .init ops).2 ∧
    ∀ x ∈ ops.zip (script R link fuel .init ops).1, opening x.1 = false → x.2 = .ok := by
  have h := script_opening (R := R) (link := link) fuel false false ops .init
  change script R link fuel .init (ops.filter opening) = _ at h
  refine ⟨by rw [h], by rw [h]; rfl, ?_⟩
  generalize Compiler.init = s
  clear h
  induction ops generalizing s with
  | nil => exact nofun
  | cons op ops ih =>
    intro x hx ho
    rcases List.mem_cons.1 hx with rfl | hx
    · cases op with
      | openFile p => cases ho
      | openFiles ps => cases ho
      | setIncludeImports b => rfl
      | setIncludeSourceInfo b => rfl
    · exact ih _ x hx ho

/-- C74: the output after a sequence of calls. Let `all` be what `file_descriptor_set()` gives when everything is asked for and
the same files are opened, and `ms` what `files()` gives, which goes with it. Then the output is `all`, without the files that
are only imported if imports are not wanted, and without source information if that is not wanted; wanted is what was asked for
last, and if nothing was asked for, neither. -/
theorem C74_output (hwn : R.WellNamed) (hlaw : link.Lawful) (fuel : Nat) (ops : List Op) :
    ∃ all ms, fileDescriptorSet (script R link fuel .init
        (.setIncludeImports true :: .setIncludeSourceInfo true :: ops.filter opening)).2 = some all ∧
      filesOut (script R link fuel .init ops).2 = some ms ∧ all.map (·.getName) = ms.map (·.name) ∧
      fileDescriptorSet (script R link fuel .init ops).2 =
        some (((all.zip ms).filter fun x => importsWanted ops || !x.2.isImport).map fun x =>
          if infoWanted ops then x.1 else { x.1 with sourceCodeInfo := none }) := by
  have hr := script_reachable (R := R) (link := link) fuel ops .init
  have hs := reachable_inv hwn hlaw hr
  obtain ⟨⟨ms, hms, _⟩, ⟨out, hout⟩⟩ := C12_no_panic hwn hlaw hr
  obtain ⟨f1, f2⟩ := script_flags (R := R) (link := link) fuel ops .init
  have h := script_opening (R := R) (link := link) fuel true true ops .init
  have e : (script R link fuel .init (.setIncludeImports true :: .setIncludeSourceInfo true :: ops.filter opening)).2 =
      (script R link fuel .init ops).2.withFlags true true := by
    show (script R link fuel (Compiler.init.withFlags true true) (ops.filter opening)).2 = _
    rw [h]
  rw [e]
  change _ = importsWanted ops at f1
  change _ = infoWanted ops at f2
  generalize (script R link fuel .init ops).2 = s at *
  have hall : fileDescriptorSet (s.withFlags true true) = some s.pool := by
    have key : ∀ l, filterP (s.withFlags true true).emitted l = some l := by
      intro l
      induction l with
      | nil => rfl
      | cons a l ih => simp only [filterP, ih]; rfl
    unfold fileDescriptorSet
    rw [show (s.withFlags true true).pool = s.pool from rfl, key]
    simp [Compiler.withFlags]
  refine ⟨s.pool, ms, hall, hms, ?_, ?_⟩
  · have key : ∀ (l : List FileDescriptorProto) ms, l.mapM (fun f => s.files f.getName) = some ms →
        l.map (·.getName) = ms.map (·.name) := by
      intro l
      induction l with
      | nil => intro ms hm; simp at hm; subst hm; rfl
      | cons a l ih =>
        intro ms hm
        obtain ⟨b, r', h1, h2, rfl⟩ := mapM_cons_some hm
        rw [List.map_cons, List.map_cons, ih _ h2, hs.meta_name _ _ h1]
    exact key _ _ hms
  · rw [hout, fileDescriptorSet_some hout]
    congr 1
    have key : ∀ (l : List FileDescriptorProto) ms, l.mapM (fun f => s.files f.getName) = some ms →
        (l.filter (fun f => s.emitted f == some true)).map (strip s.includeSourceInfo) =
        ((l.zip ms).filter fun x => importsWanted ops || !x.2.isImport).map fun x =>
          if infoWanted ops then x.1 else { x.1 with sourceCodeInfo := none } := by
      intro l
      induction l with
      | nil => intro ms hm; simp at hm; subst hm; rfl
      | cons a l ih =>
        intro ms hm
        obtain ⟨b, r', h1, h2, rfl⟩ := mapM_cons_some hm
        have hem : (s.emitted a == some true) = (importsWanted ops || !b.isImport) := by
          unfold Compiler.emitted
          rw [← f1]
          by_cases hi : s.includeImports = true
          · simp [hi]
          · simp [hi, h1]
        rw [List.zip_cons_cons, List.filter_cons, List.filter_cons, hem]
        split
        · rw [List.map_cons, List.map_cons, ih _ h2]
          congr 1
          unfold strip
          rw [f2]
        · exact ih _ h2
    exact key _ _ hms

end

/-! ## A concrete case -/
namespace ScriptDemo
open Compiler.ReadsDemo Compiler.Demo

/-- Settings before, between and after the openings; the first opening fails. -/
def calls : List Op := [.setIncludeImports true, .openFile b!"a", .setIncludeSourceInfo true, .openFiles [b!"a"],
  .setIncludeImports false, .openFile b!"nowhere"]

-- `a` is opened by the second call; `b` and `c` are imports and are not wanted
example : (script changing lk 9 .init calls).1.map (fun o => decide (o = .ok)) = [true, false, true, true, true, false] ∧
    importsWanted calls = false ∧ infoWanted calls = true ∧
    (fileDescriptorSet (script changing lk 9 .init calls).2).map (·.map (·.getName)) = some [b!"a"] ∧
    (filesOut (script changing lk 9 .init calls).2).map (·.map fun m => (m.name, m.isImport)) =
      some [(b!"b", true), (b!"c", true), (b!"a", false)] := by decide
-- nothing is asked for: neither imports nor source information
example : importsWanted (calls.filter opening) = false ∧ infoWanted (calls.filter opening) = false := by decide
-- the theorems apply
example := C74_output ReadsDemo.wellNamed lawful 9 calls
example := (C74_opening (R := changing) (link := lk) 9 calls).1

end ScriptDemo
end Verif
