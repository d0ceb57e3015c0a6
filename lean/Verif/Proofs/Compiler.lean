import Verif.Spec.Compiler
namespace Verif.Compiler

/-- What the import loop makes of a failed `add_import`. -/
def mapOut (f : File) (i : Nat) : Out → Out
  | .err e => match intoImportError e f i with
    | some e' => .err e'
    | none => .panic
  | o => o

/-- What the import loop returns for a duplicate. -/
def dupOut (d : Bytes) (f : File) (i : Nat) : Out :=
  match duplicatedImport d f i with
  | some e => .err e
  | none => .panic

theorem mapOut_ok_iff (f : File) (i : Nat) (o : Out) : mapOut f i o = .ok ↔ o = .ok := by
  cases o <;> simp [mapOut]
  split <;> simp

theorem dupOut_ne_ok (d : Bytes) (f : File) (i : Nat) : dupOut d f i ≠ .ok := by
  unfold dupOut; split <;> simp

theorem dupOut_ne_oof (d : Bytes) (f : File) (i : Nat) : dupOut d f i ≠ .oof := by
  unfold dupOut; split <;> simp

/-- Hoare rule for the import loop. -/
theorem importLoop_rule (add : Bytes → Compiler → Out × Compiler) (f : File)
    (I : List Bytes → Compiler → Prop) :
    ∀ (ds : List Bytes) (i : Nat) (seen : List Bytes) (s : Compiler), I seen s →
      (∀ seen' d s, I seen' s → d ∈ ds → d ∉ seen' → (add d s).1 = .ok → I (seen' ++ [d]) (add d s).2) →
      let r := importLoop add f i seen ds s
      (r.1 = .ok ∧ I (seen ++ ds) r.2 ∧ (seen.Nodup → (seen ++ ds).Nodup)) ∨
      (r.1 ≠ .ok ∧ ∃ pre d post s1, ds = pre ++ d :: post ∧ I (seen ++ pre) s1 ∧
        (seen.Nodup → (seen ++ pre).Nodup) ∧
        ((d ∈ seen ++ pre ∧ r = (dupOut d f (i + pre.length), s1)) ∨
         (d ∉ seen ++ pre ∧ (add d s1).1 ≠ .ok ∧
          r = (mapOut f (i + pre.length) (add d s1).1, (add d s1).2)))) := by
  intro ds
  induction ds with
  | nil => intro i seen s hI _; left; simp [importLoop, hI]
  | cons d ds ih =>
    intro i seen s hI hstep
    rw [importLoop]
    by_cases hd : d ∈ seen
    · rw [if_pos hd]
      right
      refine ⟨?_, [], d, ds, s, rfl, by simpa using hI, by simp, Or.inl ⟨by simpa using hd, ?_⟩⟩
      · split <;> simp
      · unfold dupOut; split <;> simp_all
    · rw [if_neg hd]
      rcases hadd : add d s with ⟨o, s'⟩
      cases o with
      | ok =>
        have hI' := hstep seen d s hI (by simp) hd (by simp [hadd])
        rw [hadd] at hI'
        have hnd : seen.Nodup → (seen ++ [d]).Nodup := by
          intro h; rw [List.nodup_append]; refine ⟨h, by simp, ?_⟩
          intro a ha b hb; simp at hb; subst hb; rintro rfl; exact hd ha
        have := ih (i + 1) (seen ++ [d]) s' hI'
          (fun seen' d' s h1 h2 h3 h4 => hstep seen' d' s h1 (by simp [h2]) h3 h4)
        rcases this with ⟨h1, h2, h3⟩ | ⟨h1, pre, d', post, s1, h2, h3, hn, h4⟩
        · left; exact ⟨h1, by simpa using h2, fun h => by simpa using h3 (hnd h)⟩
        · right
          refine ⟨h1, d :: pre, d', post, s1, by simp [h2], by simpa using h3,
            fun h => by simpa using hn (hnd h), ?_⟩
          have e : i + (d :: pre).length = i + 1 + pre.length := by simp; omega
          rw [e]
          simpa using h4
      | err e =>
        right
        refine ⟨?_, [], d, ds, s, rfl, by simpa using hI, by simp, Or.inr ⟨by simpa using hd, by simp [hadd], ?_⟩⟩
        · simp only; split <;> simp
        · simp only [hadd, mapOut, List.length_nil, Nat.add_zero]; split <;> simp_all
      | panic =>
        right
        exact ⟨by simp, [], d, ds, s, rfl, by simpa using hI, by simp, Or.inr ⟨by simpa using hd, by simp [hadd], by simp [hadd, mapOut]⟩⟩
      | oof =>
        right
        exact ⟨by simp, [], d, ds, s, rfl, by simpa using hI, by simp, Or.inr ⟨by simpa using hd, by simp [hadd], by simp [hadd, mapOut]⟩⟩

end Verif.Compiler
