import Verif.Spec.Opening
/-!
The default resolver is the relation of `Spec/Opening.lean`.
-/
namespace Verif

variable {parse : ParseFn} {fs : Bytes → FsEntry} {text : Bytes → Bytes} {name path : Bytes}

/-- `File::open` finds something or says that there is nothing. -/
theorem fileOpen_cases (parse : ParseFn) (fs : Bytes → FsEntry) (name path : Bytes) :
    (SaysNotFound fs path ∧ fileOpen parse fs name path = .error (.fileNotFound name)) ∨
    FoundAt parse fs name path (fileOpen parse fs name path) := by
  unfold fileOpen
  cases h : fs path with
  | err e =>
    cases e with
    | notFound => exact .inl ⟨.atOpen h, rfl⟩
    | invalidData => exact .inr (.invalid h)
    | other c => exact .inr (.refused h)
  | file k content =>
    simp only
    split
    · rename_i hk
      exact .inr (.large hk h)
    · rename_i hk
      have hk' : k ≤ 2147483647 := by simp only [maxFileLen] at hk; omega
      cases content with
      | error e =>
        cases e with
        | notFound => exact .inl ⟨.atRead hk' h, rfl⟩
        | invalidData => exact .inr (.invalidRead hk' h)
        | other c => exact .inr (.unreadable hk' h)
      | ok bytes =>
        simp only
        split
        · rename_i hu
          cases hp : parse name (bytes.take maxFileLen) with
          | error e => exact .inr (.notProto hk' h hu hp)
          | ok d => exact .inr (.proto hk' h hu hp)
        · rename_i hu
          exact .inr (.notText hk' h (by simpa [maxFileLen] using hu))

theorem FoundAt.not_notFound {r} (h : FoundAt parse fs name path r) : ¬ SaysNotFound fs path := by
  intro hs
  cases h <;> rcases hs with hs | ⟨hk, hs⟩ <;> rename_i h' <;> simp_all
  omega

theorem FoundAt.not_missing {e} (h : FoundAt parse fs name path (.error e)) : e.isFileNotFound = false := by
  cases h <;> rfl

/-- The relation of one file is a function. -/
theorem FoundAt.unique {r r'} (h : FoundAt parse fs name path r) (h' : FoundAt parse fs name path r') : r = r' := by
  cases h <;> cases h' <;> simp_all <;> omega

theorem first_unique {α : Type} {P : α → Prop} : ∀ {pre pre' : List α} {a a' : α} {post post' : List α},
    pre ++ a :: post = pre' ++ a' :: post' → (∀ x ∈ pre, P x) → ¬ P a → (∀ x ∈ pre', P x) → ¬ P a' → a = a'
  | [], [], _, _, _, _, h, _, _, _, _ => by cases h; rfl
  | [], x :: _, _, _, _, _, h, _, ha, hx, _ => by cases h; exact absurd (hx _ (.head _)) ha
  | x :: _, [], _, _, _, _, h, hx, _, _, ha => by cases h; exact absurd (hx _ (.head _)) ha
  | x :: _, y :: _, _, _, _, _, h, h1, h2, h3, h4 => by
    rw [List.cons_append, List.cons_append, List.cons.injEq] at h
    exact first_unique h.2 (fun z hz => h1 z (.tail _ hz)) h2 (fun z hz => h3 z (.tail _ hz)) h4

/-- The relation of the default resolver is a function. -/
theorem Opens.unique {includes} {r r'} (h : Opens parse fs text includes name r) (h' : Opens parse fs text includes name r') :
    r = r' := by
  have key : ∀ {pre incl post r}, includes = pre ++ incl :: post → FoundAt parse fs name (Path.includeTarget incl name) r →
      ¬ ∀ i ∈ includes, SaysNotFound fs (Path.includeTarget i name) := by
    intro pre incl post r he hf hall
    exact hf.not_notFound (hall incl (by rw [he]; simp))
  cases h with
  | included he hp hf =>
    cases h' with
    | included he' hp' hf' =>
      have := first_unique (P := fun i => SaysNotFound fs (Path.includeTarget i name)) (he.symm.trans he') hp
        hf.not_notFound hp' hf'.not_notFound
      subst this
      exact hf.unique hf'
    | bundled ha => exact absurd ha (key he hf)
    | bundledBad ha => exact absurd ha (key he hf)
    | nowhere ha => exact absurd ha (key he hf)
  | bundled ha hg hp =>
    cases h' with
    | included he' hp' hf' => exact absurd ha (key he' hf')
    | bundled _ _ hp' => rw [hp] at hp'; cases hp'; rfl
    | bundledBad _ _ hp' => rw [hp] at hp'; cases hp'
    | nowhere _ hn => exact absurd hg hn
  | bundledBad ha hg hp =>
    cases h' with
    | included he' hp' hf' => exact absurd ha (key he' hf')
    | bundled _ _ hp' => rw [hp] at hp'; cases hp'
    | bundledBad _ _ hp' => rw [hp] at hp'; cases hp'; rfl
    | nowhere _ hn => exact absurd hg hn
  | nowhere ha hn =>
    cases h' with
    | included he' hp' hf' => exact absurd ha (key he' hf')
    | bundled _ hg _ => exact absurd hg hn
    | bundledBad _ hg _ => exact absurd hg hn
    | nowhere => rfl

theorem Opens.cons {includes} {i : Bytes} {r} (hi : SaysNotFound fs (Path.includeTarget i name))
    (h : Opens parse fs text includes name r) : Opens parse fs text (i :: includes) name r := by
  have hall : (∀ j ∈ includes, SaysNotFound fs (Path.includeTarget j name)) →
      ∀ j ∈ i :: includes, SaysNotFound fs (Path.includeTarget j name) := by
    intro h j hj
    rcases List.mem_cons.1 hj with rfl | hj
    · exact hi
    · exact h j hj
  cases h with
  | @included pre incl post r he hp hf =>
    refine .included (pre := i :: pre) (by rw [he]; rfl) ?_ hf
    intro j hj
    rcases List.mem_cons.1 hj with rfl | hj
    · exact hi
    · exact hp j hj
  | bundled ha hg hp => exact .bundled (hall ha) hg hp
  | bundledBad ha hg hp => exact .bundledBad (hall ha) hg hp
  | nowhere ha hn => exact .nowhere (hall ha) hn

/-- The default resolver answers as the relation says. -/
theorem opens_default (parse : ParseFn) (fs : Bytes → FsEntry) (text : Bytes → Bytes) (includes : List Bytes) (name : Bytes) :
    Opens parse fs text includes name ((defaultResolver parse fs text includes).openFile name) := by
  induction includes with
  | nil =>
    show Opens _ _ _ _ _ (chainOpen [googleResolver parse text] name)
    simp only [chainOpen, googleResolver, googleOpen]
    split
    · rename_i f hf
      split at hf
      · rename_i hg
        unfold fromSource at hf
        split at hf
        · cases hf
        · rename_i d hd
          cases hf
          exact .bundled nofun hg hd
      · cases hf
    · rename_i e hf
      split at hf
      · rename_i hg
        unfold fromSource at hf
        split at hf
        · rename_i e' hd
          cases hf
          exact .bundledBad nofun hg hd
        · cases hf
      · rename_i hg
        cases hf
        exact .nowhere nofun hg
  | cons i is ih =>
    show Opens _ _ _ _ _ (chainOpen (includeResolver parse fs i :: (is.map (includeResolver parse fs) ++ [googleResolver parse text])) name)
    rw [chainOpen]
    have hr : (includeResolver parse fs i).openFile name = fileOpen parse fs name (Path.includeTarget i name) := rfl
    rw [hr]
    rcases fileOpen_cases parse fs name (Path.includeTarget i name) with ⟨h1, h2⟩ | h
    · rw [h2]
      exact ih.cons h1
    · cases hf : fileOpen parse fs name (Path.includeTarget i name) with
      | ok f =>
        rw [hf] at h
        exact .included (pre := []) rfl nofun h
      | error e =>
        rw [hf] at h
        simp only [h.not_missing, Bool.false_eq_true, if_false]
        exact .included (pre := []) rfl nofun h

end Verif
