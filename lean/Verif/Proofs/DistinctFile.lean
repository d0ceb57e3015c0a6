import Verif.Proofs.DistinctMsg
/-!
No two locations of a file have the same path and the same start.
-/
namespace Verif.Dist
open Verif.Ast Verif.Gen

def impLo (i j k : Nat) : Int → Nat := fun t => if t = 3 then i else if t = 10 then j else if t = 11 then k else 0

theorem impLo_mono {i j k i' j' k' : Nat} (h1 : i ≤ i') (h2 : j ≤ j') (h3 : k ≤ k') (t) : impLo i j k t ≤ impLo i' j' k' t := by
  unfold impLo
  (repeat' split) <;> omega

theorem imports_step {a b : List Mark} {i j k i' j' k' : Nat} (n1 : ND a) (r1 : Rng (impLo i j k) (impLo i' j' k') [] a)
    (h1 : i ≤ i') (h2 : j ≤ j') (h3 : k ≤ k')
    (h : ND b ∧ ∃ hi, Rng (impLo i' j' k') hi [] b) : ND (a ++ b) ∧ ∃ hi, Rng (impLo i j k) hi [] (a ++ b) := by
  obtain ⟨n2, hi, r2⟩ := h
  refine ⟨n1.rng n2 r1 r2 nofun, fun t => max (hi t) (impLo i' j' k' t), .app ?_ ?_⟩
  · exact r1.mono (fun _ => Nat.le_refl _) (fun _ => Nat.le_max_right ..) nofun
  · exact r2.mono (impLo_mono h1 h2 h3) (fun _ => Nat.le_max_left ..) nofun

theorem imports_nd : ∀ (i j k : Nat) (xs : List Import), ND (importMarks i j k xs) ∧ ∃ hi, Rng (impLo i j k) hi [] (importMarks i j k xs)
  | _, _, _, [] => ⟨.nil, fun _ => 0, .nil⟩
  | i, j, k, ⟨some (.publ, sp), v, vs, c, s⟩ :: xs => by
    refine imports_step (a := [_, _]) ?_ (.cons (.one (Nat.le_refl _) (Nat.lt_succ_self _)) (.one (Nat.le_refl _) (Nat.lt_succ_self _)))
      (Nat.le_succ _) (Nat.le_succ _) (Nat.le_refl _) (imports_nd (i + 1) (j + 1) k xs)
    simp [ND, Sep, Tag.fileDependency, Tag.filePublicDependency]
  | i, j, k, ⟨some (.weak, sp), v, vs, c, s⟩ :: xs => by
    refine imports_step (a := [_, _]) ?_ (.cons (.one (Nat.le_refl _) (Nat.lt_succ_self _)) (.one (Nat.le_refl _) (Nat.lt_succ_self _)))
      (Nat.le_succ _) (Nat.le_refl _) (Nat.le_succ _) (imports_nd (i + 1) j (k + 1) xs)
    simp [ND, Sep, Tag.fileDependency, Tag.fileWeakDependency]
  | i, j, k, ⟨none, v, vs, c, s⟩ :: xs => by
    refine imports_step (a := [_]) ?_ (.one (Nat.le_refl _) (Nat.lt_succ_self _))
      (Nat.le_succ _) (Nat.le_refl _) (Nat.le_refl _) (imports_nd (i + 1) j k xs)
    simp [ND]

theorem imports_top : ∀ (i j k : Nat) (xs : List Import), Top [some 3, some 10, some 11] (importMarks i j k xs)
  | _, _, _, [] => .nil
  | i, j, k, ⟨some (.publ, sp), v, vs, c, s⟩ :: xs => .cons (by simp [Tag.fileDependency]) (.cons (by simp [Tag.filePublicDependency]) (imports_top _ _ _ xs))
  | i, j, k, ⟨some (.weak, sp), v, vs, c, s⟩ :: xs => .cons (by simp [Tag.fileDependency]) (.cons (by simp [Tag.fileWeakDependency]) (imports_top _ _ _ xs))
  | i, j, k, ⟨none, v, vs, c, s⟩ :: xs => .cons (by simp [Tag.fileDependency]) (imports_top _ _ _ xs)

def fcntLo (c : FCnt) : Int → Nat := fun t =>
  if t = 4 then c.msg else if t = 5 then c.enum else if t = 6 then c.service else if t = 7 then c.ext else 0

theorem fcntLo_next (c : FCnt) (x : FileItem) (t : Int) : fcntLo c t ≤ fcntLo (c.next x) t := by
  cases x <;> simp only [FCnt.next, fcntLo] <;> (repeat' split) <;> omega

abbrev fileTags : List (Option Int) := [some 4, some 5, some 6, some 7]

theorem fileItem_nd (s c) : ∀ b : FileItem, FileItemD b →
    ND (fileItemMarks s c b) ∧ Rng (fcntLo c) (fcntLo (c.next b)) (fextStart b) (fileItemMarks s c b) ∧
    Top fileTags (fileItemMarks s c b)
  | .enum e, h => ⟨(enumMarks_nd h).under, .under (Nat.le_refl _) (Nat.lt_succ_self _), .under (by decide)⟩
  | .message x, h => ⟨(message_nd s x h).under, .under (Nat.le_refl _) (Nat.lt_succ_self _), .under (by decide)⟩
  | .service x, h => ⟨(serviceMarks_nd h).under, .under (Nat.le_refl _) (Nat.lt_succ_self _), .under (by decide)⟩
  | .extend e, h => by
    obtain ⟨n, r, t⟩ := extend_nd s Tag.fileExtension Tag.fileMessageType c.ext c.msg (by decide) e h
    exact ⟨n, r _ _ (Nat.le_refl _) (Nat.le_refl _) (Nat.le_refl _) (Nat.le_refl _), t.mono (by decide)⟩

theorem fileItems_nd (s) : ∀ (c : FCnt) (b : List FileItem), (∀ x ∈ b, FileItemD x) → (fextStarts b).Nodup →
    ND (fileItemsMarks s c b) ∧ (∃ hi, Rng (fcntLo c) hi (fextStarts b) (fileItemsMarks s c b)) ∧ Top fileTags (fileItemsMarks s c b)
  | _, [], _, _ => ⟨.nil, ⟨fun _ => 0, .nil⟩, .nil⟩
  | c, x :: xs, h, hn => by
    have hn' : (fextStart x ++ fextStarts xs).Nodup := hn
    obtain ⟨_, hn2, hn3⟩ := List.nodup_append.1 hn'
    obtain ⟨n1, r1, t1⟩ := fileItem_nd s c x (h x (.head _))
    obtain ⟨n2, ⟨hi, r2⟩, t2⟩ := fileItems_nd s (c.next x) xs (fun y hy => h y (.tail _ hy)) hn2
    refine ⟨n1.rng n2 r1 r2 (fun a ha hb => hn3 a ha a hb rfl), ⟨fun t => max (hi t) (fcntLo (c.next x) t), .app ?_ ?_⟩, .app t1 t2⟩
    · exact r1.mono (fun _ => Nat.le_refl _) (fun _ => Nat.le_max_right ..) (fun a ha => List.mem_append_left _ ha)
    · exact r2.mono (fcntLo_next c x) (fun _ => Nat.le_max_left ..) (fun a ha => List.mem_append_right _ ha)

theorem file_nd {f : File} (h : FileD f) : ND (fileMarks f) := by
  have n1 : ND (packageMarks f.package) := by cases f.package <;> simp [packageMarks, ND]
  have t1 : Top [some 2] (packageMarks f.package) := by
    cases f.package
    · exact .nil
    · exact .cons (by decide) .nil
  have n2 := (imports_nd 0 0 0 f.imports).1
  have t2 := imports_top 0 0 0 f.imports
  obtain ⟨n3, _, t3⟩ := fileItems_nd f.syntax' {} f.items h.items h.exts
  have n4 := (optsMarks_nd 0 f.options h.opts).under (p := [Tag.fileOptions])
  have t4 : Top [some 8] (under [Tag.fileOptions] (optsMarks 0 f.options)) := .under (by decide)
  have n5 : ND (syntaxMarks f.syntaxSpan) := by cases f.syntaxSpan <;> simp [syntaxMarks, ND]
  have t5 : Top [some 12] (syntaxMarks f.syntaxSpan) := by
    cases f.syntaxSpan
    · exact .nil
    · exact .cons (by decide) .nil
  have t12 : Top [some 2, some 3, some 10, some 11] _ := .app (t1.mono (by decide)) (t2.mono (by decide))
  have t123 : Top [some 2, some 3, some 10, some 11, some 4, some 5, some 6, some 7] _ := .app (t12.mono (by decide)) (t3.mono (by decide))
  have t1234 : Top [some 2, some 3, some 10, some 11, some 4, some 5, some 6, some 7, some 8] _ :=
    .app (t123.mono (by decide)) (t4.mono (by decide))
  have n := (((n1.tops n2 t1 t2 (by decide)).tops n3 t12 t3 (by decide)).tops n4 t123 t4 (by decide)).tops n5 t1234 t5 (by decide)
  refine n.topc (T' := [some 2, some 3, some 10, some 11, some 4, some 5, some 6, some 7, some 8, some 12]) ?_ (by decide)
  exact .app (t1234.mono (by decide)) (t5.mono (by decide))

end Verif.Dist
