import Verif.Proofs.Compiler3
namespace Verif.Compiler
variable {R : Resolver} {link : Linker}

theorem filterP_some {p : FileDescriptorProto → Option Bool} {l r : List FileDescriptorProto}
    (h : filterP p l = some r) :
    (∀ f ∈ l, p f ≠ none) ∧ r = l.filter (fun f => p f == some true) := by
  induction l generalizing r with
  | nil => simp [filterP] at h; simp [h]
  | cons f fs ih =>
    rw [filterP] at h
    split at h
    · rename_i r' h1 h2
      cases h
      obtain ⟨h3, h4⟩ := ih h2
      refine ⟨?_, ?_⟩
      · intro g hg; rcases List.mem_cons.1 hg with rfl | hg
        · simp [h1]
        · exact h3 g hg
      · rw [List.filter_cons]; simp [h1, ← h4]
    · rename_i r' h1 h2
      cases h
      obtain ⟨h3, h4⟩ := ih h2
      refine ⟨?_, ?_⟩
      · intro g hg; rcases List.mem_cons.1 hg with rfl | hg
        · simp [h1]
        · exact h3 g hg
      · rw [List.filter_cons]; simp [h1, ← h4]
    · cases h

theorem filterP_total {p : FileDescriptorProto → Option Bool} {l : List FileDescriptorProto}
    (h : ∀ f ∈ l, p f ≠ none) : filterP p l ≠ none := by
  induction l with
  | nil => simp [filterP]
  | cons f fs ih =>
    have h1 := h f (by simp)
    have h2 := ih (fun g hg => h g (by simp [hg]))
    rw [filterP]
    cases hp : p f with
    | none => exact absurd hp h1
    | some b =>
      cases hq : filterP p fs with
      | none => exact absurd hq h2
      | some r => cases b <;> simp

/-- Clearing (or keeping) the source info. -/
def strip (b : Bool) (f : FileDescriptorProto) : FileDescriptorProto :=
  if b then f else { f with sourceCodeInfo := none }

@[simp] theorem strip_name (b : Bool) (f : FileDescriptorProto) : (strip b f).getName = f.getName := by
  unfold strip; split <;> rfl
@[simp] theorem strip_deps (b : Bool) (f : FileDescriptorProto) : (strip b f).dependency = f.dependency := by
  unfold strip; split <;> rfl

theorem fileNames_strip (b : Bool) (l : List FileDescriptorProto) :
    fileNames (l.map (strip b)) = fileNames l := by
  simp [fileNames, Function.comp_def]

theorem fileDescriptorSet_some {s : Compiler} {out : List FileDescriptorProto} (h : fileDescriptorSet s = some out) :
    out = (s.pool.filter (fun f => s.emitted f == some true)).map (strip s.includeSourceInfo) := by
  unfold fileDescriptorSet at h
  split at h
  · cases h
  · rename_i fs hfs
    cases h
    rw [(filterP_some hfs).2]
    rfl

theorem mapM_some_of {α β : Type} (f : α → Option β) (l : List α) (h : ∀ a ∈ l, (f a).isSome) :
    ∃ r, l.mapM f = some r ∧ r.length = l.length := by
  induction l with
  | nil => exact ⟨[], rfl, rfl⟩
  | cons a l ih =>
    obtain ⟨b, hb⟩ := Option.isSome_iff_exists.1 (h a (by simp))
    obtain ⟨r, hr, hl⟩ := ih (fun x hx => h x (by simp [hx]))
    exact ⟨b :: r, by simp [List.mapM_cons, hb, hr], by simp [hl]⟩

theorem mapM_cons_some {α β : Type} {f : α → Option β} {a : α} {l : List α} {r : List β}
    (h : (a :: l).mapM f = some r) : ∃ b r', f a = some b ∧ l.mapM f = some r' ∧ r = b :: r' := by
  rw [List.mapM_cons] at h
  cases hf : f a with
  | none => simp [hf] at h
  | some b =>
    cases hl : l.mapM f with
    | none => simp [hf, hl] at h
    | some r' => simp [hf, hl] at h; exact ⟨b, r', rfl, rfl, h.symm⟩

theorem Inv.emitted {s : Compiler} (hs : Inv s) {f : FileDescriptorProto} (hf : f ∈ s.pool) : s.emitted f ≠ none := by
  unfold Compiler.emitted
  split
  · simp
  · split
    · simp
    · rename_i h
      have := (hs.held_iff f.getName).2 (by rw [fileNames, List.mem_map]; exact ⟨f, hf, rfl⟩)
      rw [h] at this; cases this

/-- Filtering preserves the order relation to imports. -/
theorem topo_filter {l : List FileDescriptorProto} (ht : TopoSorted l) (hnd : (fileNames l).Nodup)
    (q : FileDescriptorProto → Bool) :
    ∀ pre d post, l.filter q = pre ++ d :: post → ∀ dep ∈ d.dependency,
      dep ∈ fileNames (l.filter q) → dep ∈ fileNames pre := by
  intro pre d post h dep hdep hmem
  obtain ⟨l1, l2, hl, h1, h2⟩ := List.filter_eq_append_iff.1 h
  obtain ⟨l3, l4, hl2, h3, h4, h5⟩ := List.filter_eq_cons_iff.1 h2
  subst hl2
  have hl' : l = (l1 ++ l3) ++ d :: l4 := by rw [hl]; simp
  have hd := ht _ _ _ hl' dep hdep
  rw [fileNames, List.mem_map] at hmem
  obtain ⟨e, he, hen⟩ := hmem
  have hel := (List.mem_filter.1 he)
  rw [hl'] at hel hnd
  have hmem1 : e ∈ l1 ++ l3 := by
    rcases List.mem_append.1 hel.1 with h | h
    · exact h
    · exfalso
      rw [fileNames, List.map_append, List.nodup_append] at hnd
      exact hnd.2.2 dep hd dep (List.mem_map.2 ⟨e, h, hen⟩) rfl
  rcases List.mem_append.1 hmem1 with h | h
  · rw [← h1, fileNames, List.mem_map]
    exact ⟨e, List.mem_filter.2 ⟨h, hel.2⟩, hen⟩
  · exact absurd hel.2 (h3 e h)

end Verif.Compiler
