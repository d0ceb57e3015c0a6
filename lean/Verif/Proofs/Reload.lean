import Verif.Props.Confined
import Verif.Props.Resolver
/-!
Compiling again from a descriptor set.
-/
namespace Verif
open Verif.Spec
open Compiler PureResolver
section
variable {link : Linker}

/-- `compile` on a resolver that does not change. -/
theorem compile_pure {r : PureResolver} (hwn : r.toResolver.WellNamed) (hlaw : link.Lawful) (U : List Bytes)
    (hg : ValidGraph r link U) (ps : List Bytes) (hno : ∀ p ∈ ps, r.resolvePath p = none)
    (hn : ∀ p ∈ ps, ∃ n ∈ U, r.nameOf p = some n) (fuel : Nat) (hfuel : U.length ≤ fuel) :
    ∃ out, compile r.toResolver link fuel ps = .ok out ∧
      ∀ n, n ∈ fileNames out ↔ ∃ p ∈ ps, ∃ m, r.nameOf p = some m ∧ Reach r m n := by
  have key : ∀ (qs : List Bytes) (s : Compiler), (∀ p ∈ qs, p ∈ ps) → Reachable r.toResolver link s →
      (openFiles r.toResolver link fuel s qs).1 = .ok := by
    intro qs
    induction qs with
    | nil => intro s _ _; rfl
    | cons p qs ih =>
      intro s hps hs
      obtain ⟨n, hnU, hname⟩ := hn p (hps p (.head _))
      have hr := resolveName_nameOf (r := r) s p
      rw [hname] at hr
      obtain ⟨x, hx, hx1⟩ := Option.map_eq_some_iff.1 hr
      obtain ⟨n', b⟩ := x
      simp only at hx1
      subst hx1
      have h1 := (C13_valid_accepted hwn hlaw hs U hg p n' b hx hnU (by
        rintro rfl
        have := (resolveName_nameOf' hx).2 rfl
        rw [hno p (hps p (.head _))] at this
        cases this) fuel hfuel).1
      rw [openFiles]
      have h2 := Reachable.step (R := r.toResolver) (link := link) fuel s (.openFile p) hs
      simp only [step] at h2
      cases hy : openFile r.toResolver link fuel s p with
      | mk o s' =>
        rw [hy] at h1 h2
        simp only at h1
        subst h1
        exact ih s' (fun q hq => hps q (.tail _ hq)) h2
  have h1 := key ps _ (fun _ h => h) (compile_start _ link)
  cases hx : openFiles r.toResolver link fuel { Compiler.init with includeSourceInfo := true, includeImports := true } ps with
  | mk o s =>
    rw [hx] at h1
    simp only at h1
    subst h1
    obtain ⟨hi, hp, -, hheld⟩ := openFiles_char hwn hlaw fuel ps _ s []
      (reachable_inv hwn hlaw (compile_start _ link)) (reachable_pinv hwn hlaw (compile_start _ link))
      (compile_history _ link) hx
    have hflags := openFiles_flags (R := r.toResolver) (link := link) fuel ps
      { Compiler.init with includeSourceInfo := true, includeImports := true }
    rw [hx] at hflags
    simp only at hflags
    have hout : fileDescriptorSet s = some s.pool := by
      unfold fileDescriptorSet
      have hem : ∀ d ∈ s.pool, s.emitted d = some true := by intro d _; simp [emitted, hflags.1]
      cases hf : filterP s.emitted s.pool with
      | none => exact absurd hf (filterP_total (fun d hd => by rw [hem d hd]; exact nofun))
      | some fs =>
        have hfs := (filterP_some hf).2
        rw [List.filter_eq_self.2] at hfs
        · rw [hfs, hflags.2]
          exact congrArg some (List.map_id' _)
        · intro d hd; rw [hem d hd]; rfl
    refine ⟨s.pool, ?_, ?_⟩
    · show finally' fileDescriptorSet (openFiles r.toResolver link fuel
        { Compiler.init with includeSourceInfo := true, includeImports := true } ps) = _
      rw [hx]
      simp only [finally', hout]
    · intro n
      rw [← hi.held_iff, hheld]
      simp [Compiler.init]

theorem setOpen_mem : ∀ {set : List (FileDescriptorProto × Option Bytes)} {n : Bytes} {f : File},
    setOpen set n = .ok f → ∃ x ∈ set, f = ⟨none, none, x.1, x.2⟩ ∧ x.1.getName = n
  | [], _, _, h => by cases h
  | (fd, enc) :: rest, n, f, h => by
    unfold setOpen at h
    split at h
    · rename_i hn; cases h; exact ⟨_, .head _, rfl, hn⟩
    · obtain ⟨x, hx, h'⟩ := setOpen_mem h
      exact ⟨x, .tail _ hx, h'⟩

theorem setOpen_some : ∀ {set : List (FileDescriptorProto × Option Bytes)} {n : Bytes},
    n ∈ fileNames (set.map (·.1)) → ∃ f, setOpen set n = .ok f
  | [], _, h => by cases h
  | (fd, enc) :: rest, n, h => by
    unfold setOpen
    split
    · exact ⟨_, rfl⟩
    · rename_i hn
      refine setOpen_some ?_
      simp only [List.map_cons, fileNames, List.mem_cons] at h
      rcases h with h | h
      · exact absurd h.symm hn
      · exact h

/-- A sorted set with its imports is a valid graph. -/
theorem set_valid {set : List (FileDescriptorProto × Option Bytes)} (hnd : (fileNames (set.map (·.1))).Nodup)
    (htopo : TopoSorted (set.map (·.1))) (hdep : ∀ x ∈ set, x.1.dependency.Nodup)
    (hlink : ∀ x ∈ set, ∀ pool, TopoSorted pool → x.1.getName ∉ fileNames pool →
      (∀ d ∈ x.1.dependency, d ∈ fileNames pool) → ∃ d, link pool ⟨none, none, x.1, x.2⟩ = .ok d) :
    ValidGraph (setResolver set) link (fileNames (set.map (·.1))) := by
  have hpre : ∀ x ∈ set, ∃ pre post, set.map (·.1) = pre ++ x.1 :: post ∧ ∀ d ∈ x.1.dependency, d ∈ fileNames pre := by
    intro x hx
    obtain ⟨pre, post, h⟩ := List.append_of_mem hx
    exact ⟨pre.map (·.1), post.map (·.1), by rw [h]; simp, htopo _ _ _ (by rw [h, List.map_append, List.map_cons])⟩
  have hedge : ∀ a b, Edge (setResolver set) a b → (fileNames (set.map (·.1))).idxOf b < (fileNames (set.map (·.1))).idxOf a := by
    rintro a b ⟨f, hf, hb⟩
    obtain ⟨x, hx, rfl, rfl⟩ := setOpen_mem hf
    obtain ⟨pre, post, h1, h2⟩ := hpre x hx
    have hb' := h2 b hb
    rw [h1] at hnd ⊢
    have : fileNames (pre ++ x.1 :: post) = fileNames pre ++ x.1.getName :: fileNames post := by simp [fileNames]
    rw [this] at hnd ⊢
    have hx' : x.1.getName ∉ fileNames pre := by
      intro hm
      exact (List.nodup_append.1 hnd).2.2 _ hm _ (.head _) rfl
    have h3 : (fileNames pre ++ x.1.getName :: fileNames post).idxOf b = (fileNames pre).idxOf b := by
      rw [List.idxOf_append, if_pos hb']
    have h4 : (fileNames pre ++ x.1.getName :: fileNames post).idxOf x.1.getName = (fileNames pre).length := by
      rw [List.idxOf_append, if_neg hx', List.idxOf_cons_self]
      omega
    rw [h3, h4]
    exact List.idxOf_lt_length_of_mem hb'
  have hreach : ∀ a b, Reach (setResolver set) a b →
      (fileNames (set.map (·.1))).idxOf b ≤ (fileNames (set.map (·.1))).idxOf a := by
    intro a b h
    induction h with
    | refl => exact Nat.le_refl _
    | step he _ ih => exact Nat.le_trans ih (Nat.le_of_lt (hedge _ _ he))
  constructor
  · intro a ha
    obtain ⟨f, hf⟩ := setOpen_some ha
    obtain ⟨x, hx, rfl, rfl⟩ := setOpen_mem hf
    obtain ⟨pre, post, h1, h2⟩ := hpre x hx
    refine ⟨_, hf, hdep x hx, fun d hd => ?_⟩
    rw [h1]
    simp only [fileNames, List.map_append, List.mem_append]
    exact .inl (h2 d hd)
  · rintro a _ ⟨b, he, hr⟩
    have h1 := hedge _ _ he
    have h2 := hreach _ _ hr
    omega
  · intro a _ f hf pool ht hna hd
    obtain ⟨x, hx, rfl, rfl⟩ := setOpen_mem hf
    exact hlink x hx pool ht hna hd

end
end Verif
