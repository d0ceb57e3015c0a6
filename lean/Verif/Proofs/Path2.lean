import Verif.Proofs.Path
/-! Helper lemmas about file names and joining. -/
namespace Verif.Path

theorem body_normal {s : Bytes} {c : Component} (h : bodyComponent s = some c) :
    (c = .parent) ∨ (c = .normal s ∧ s ≠ [] ∧ s ≠ b!"." ∧ s ≠ b!"..") := by
  unfold bodyComponent at h
  repeat' split at h
  all_goals simp_all

theorem mem_body {p : Bytes} {c : Component} (h : c ∈ (splitAt 47 p).filterMap bodyComponent) :
    c = .parent ∨ ∃ s, c = .normal s ∧ s ≠ [] ∧ s ≠ b!"." ∧ s ≠ b!".." ∧ (47 : UInt8) ∉ s := by
  obtain ⟨s, hs, hc⟩ := List.mem_filterMap.1 h
  rcases body_normal hc with h | ⟨h, h1, h2, h3⟩
  · exact .inl h
  · exact .inr ⟨s, h, h1, h2, h3, splitAt_no_sep 47 p s hs⟩

theorem components_normal {p s : Bytes} (h : Component.normal s ∈ components p) :
    s ≠ [] ∧ s ≠ b!"." ∧ s ≠ b!".." ∧ (47 : UInt8) ∉ s := by
  have key : Component.normal s ∈ (splitAt 47 p).filterMap bodyComponent := by
    unfold components at h
    simp only at h
    split at h
    · simpa using h
    · split at h
      · simpa using h
      · exact h
  rcases mem_body key with h | ⟨s', h, h1, h2, h3, h4⟩
  · cases h
  · cases h; exact ⟨h1, h2, h3, h4⟩

theorem components_tail_no_cur (p : Bytes) : Component.cur ∉ (components p).tail := by
  have key : Component.cur ∉ (splitAt 47 p).filterMap bodyComponent := by
    intro h
    rcases mem_body h with h | ⟨_, h, _⟩ <;> cases h
  unfold components
  simp only
  split
  · simpa using key
  · split
    · simpa using key
    · exact fun h => key (List.mem_of_mem_tail h)

theorem noCur_of_not_mem {cs : List Component} (h : .cur ∉ cs) : noCur cs = cs := by
  rw [noCur, List.filter_eq_self]
  intro a ha
  simp only [ne_eq, decide_not, Bool.not_eq_eq_eq_not, Bool.not_true, decide_eq_false_iff_not]
  rintro rfl; exact h ha

theorem suffix_no_cur {l rest : List Component} (ht : .cur ∉ l.tail) (hs : rest <:+ l)
    (hh : rest.head? ≠ some .cur) : .cur ∉ rest := by
  obtain ⟨pre, rfl⟩ := hs
  cases pre with
  | nil =>
    cases rest with
    | nil => simp
    | cons a as => simp at ht hh ⊢; exact ⟨fun h => hh h.symm, ht⟩
  | cons b bs => simp at ht; exact ht.2

theorem fileNameLoop_map (name : Bytes) (ps : List Bytes) (hne : ∀ p ∈ ps, p ≠ [])
    (hu : ∀ p ∈ ps, utf8Valid p = true) :
    fileNameLoop name (ps.map .normal) =
      some (if name = [] then joinWith 47 ps else joinWith 47 (name :: ps)) := by
  induction ps generalizing name with
  | nil => simp [fileNameLoop, joinWith]
  | cons p ps ih =>
    have hp := hne p (by simp)
    have hup := hu p (by simp)
    simp only [List.map_cons, fileNameLoop, hup, if_true]
    rw [ih _ (fun q hq => hne q (by simp [hq])) (fun q hq => hu q (by simp [hq]))]
    by_cases hn : name = []
    · subst hn; simp [hp]
    · have : name.isEmpty = false := by simpa using hn
      simp only [this, Bool.false_eq_true, if_false, hn]
      rw [if_neg (by simp)]
      cases ps with
      | nil => simp [joinWith]
      | cons q qs => simp [joinWith]

theorem fileNameLoop_some {name n : Bytes} {cs : List Component} (h : fileNameLoop name cs = some n) :
    ∃ ps, cs = List.map .normal ps ∧ ∀ p ∈ ps, utf8Valid p = true := by
  induction cs generalizing name with
  | nil => exact ⟨[], rfl, by simp⟩
  | cons c cs ih =>
    cases c <;> simp only [fileNameLoop] at h <;> try (cases h; done)
    rename_i s
    split at h
    · obtain ⟨ps, rfl, hps⟩ := ih h
      exact ⟨s :: ps, rfl, by rename_i hs; simpa [hs] using hps⟩
    · cases h

theorem joinWith_ne_nil {sep : UInt8} {ps : List Bytes} (h : ps ≠ []) (hne : ∀ p ∈ ps, p ≠ []) :
    joinWith sep ps ≠ [] := by
  cases ps with
  | nil => exact absurd rfl h
  | cons p ps =>
    have hp := hne p (by simp)
    cases ps <;> simp [joinWith, hp]

theorem fileName_iff (cs : List Component) (hgood : ∀ s, .normal s ∈ cs → s ≠ []) (n : Bytes) :
    fileName cs = some n ↔
      ∃ ps : List Bytes, ps ≠ [] ∧ cs = ps.map .normal ∧ (∀ p ∈ ps, utf8Valid p = true) ∧ n = joinWith 47 ps := by
  constructor
  · intro h
    unfold fileName at h
    split at h
    · cases h
    · rename_i name hl
      split at h
      · cases h
      · rename_i hne
        simp at h; subst h
        obtain ⟨ps, rfl, hu⟩ := fileNameLoop_some hl
        rw [fileNameLoop_map [] ps (fun p hp => hgood p (by simp [hp])) hu] at hl
        simp at hl; subst hl
        refine ⟨ps, ?_, rfl, hu, rfl⟩
        rintro rfl; simp [joinWith] at hne
  · rintro ⟨ps, hne, rfl, hu, rfl⟩
    have hne' : ∀ p ∈ ps, p ≠ [] := fun p hp => hgood p (by simp [hp])
    unfold fileName
    rw [fileNameLoop_map [] ps hne' hu]
    simp [joinWith_ne_nil hne hne']

/-- A relative path whose first piece is not `.` contributes just its body components after joining. -/
theorem components_join (base p : Bytes) (habs : isAbsolute p = false)
    (hdot : (splitAt 47 p).head? ≠ some b!".") :
    components (join base p) = components base ++ (splitAt 47 p).filterMap bodyComponent := by
  have hp0 : p.head? ≠ some 47 := by simpa [isAbsolute] using habs
  have hb0 : bodyComponent [] = none := by simp [bodyComponent]
  have hbd : bodyComponent b!"." = none := by simp [bodyComponent]
  unfold join
  rw [habs]
  simp only [Bool.false_eq_true, if_false]
  split
  · rename_i h
    obtain ⟨h1, h2⟩ := h
    unfold components
    simp only [splitAt_append]
    have e1 : (base ++ 47 :: p).head? = base.head? := by cases base <;> simp_all
    have e2 : (splitAt 47 base ++ splitAt 47 p).head? = (splitAt 47 base).head? := by
      have := splitAt_ne_nil 47 base
      cases h : splitAt 47 base <;> simp_all
    rw [e1, e2]
    split
    · simp
    · split <;> simp
  · rename_i h
    by_cases hb : base = []
    · subst hb
      simp only [List.nil_append]
      unfold components
      simp only [hp0, if_false, hdot]
      simp [splitAt, hb0]
    · have hl : base.getLast? = some 47 := by
        by_cases hl : base.getLast? = some 47
        · exact hl
        · exact absurd ⟨hb, hl⟩ h
      obtain ⟨a, rfl⟩ : ∃ a, base = a ++ [47] := by
        rw [List.getLast?_eq_some_iff] at hl; exact hl
      unfold components
      rw [List.append_assoc, List.singleton_append]
      simp only [splitAt_append]
      have e1 : (a ++ 47 :: p).head? = (a ++ [47]).head? := by cases a <;> simp
      have e2 : (splitAt 47 a ++ splitAt 47 p).head? = (splitAt 47 a ++ splitAt 47 []).head? := by
        have := splitAt_ne_nil 47 a
        cases h : splitAt 47 a <;> simp_all
      rw [e1, e2]
      simp only [splitAt, List.filterMap_append, List.filterMap_cons, List.filterMap_nil, hb0, List.append_nil]
      split
      · simp
      · split <;> simp

theorem filterMap_body_good (ps : List Bytes) (h : ∀ c ∈ ps, c ≠ [] ∧ c ≠ b!"." ∧ c ≠ b!"..") :
    ps.filterMap bodyComponent = ps.map .normal := by
  induction ps with
  | nil => rfl
  | cons p ps ih =>
    obtain ⟨h1, h2, h3⟩ := h p (by simp)
    rw [List.filterMap_cons, ih (fun c hc => h c (by simp [hc]))]
    simp [bodyComponent, h1, h2, h3]

theorem components_join_pieces (base : Bytes) (ps : List Bytes) (hne : ps ≠ [])
    (h : ∀ c ∈ ps, c ≠ [] ∧ c ≠ b!"." ∧ c ≠ b!".." ∧ (47 : UInt8) ∉ c) :
    components (join base (joinWith 47 ps)) = components base ++ ps.map .normal := by
  have hs : splitAt 47 (joinWith 47 ps) = ps := splitAt_joinWith 47 ps hne (fun c hc => (h c hc).2.2.2)
  rw [components_join, hs, filterMap_body_good ps (fun c hc => ⟨(h c hc).1, (h c hc).2.1, (h c hc).2.2.1⟩)]
  · cases ps with
    | nil => exact absurd rfl hne
    | cons p ps =>
      obtain ⟨h1, h2, h3, h4⟩ := h p (by simp)
      cases p with
      | nil => exact absurd rfl h1
      | cons x xs =>
        simp at h4
        have : (joinWith 47 ((x :: xs) :: ps)).head? = some x := by cases ps <;> simp [joinWith]
        simp only [isAbsolute, this]
        simp; exact fun h => h4.1 h.symm
  · rw [hs]
    cases ps with
    | nil => simp
    | cons p ps => simp only [List.head?_cons, ne_eq, Option.some.injEq]; exact (h p (by simp)).2.1

end Verif.Path
