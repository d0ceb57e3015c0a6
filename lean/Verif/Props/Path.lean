import Verif.Proofs.Path2
/-!
Properties C19, C20, C22 and the path part of C21.
-/
namespace Verif.Path

/-- C19/C20 (full characterisation of `IncludeFileResolver::resolve_path`): a path gets the name `n`
iff, `.` components aside, it is the include path followed by a non-empty list of normal UTF-8
components, and `n` is those components joined with `/`. -/
theorem C19_resolve_path_iff (incl p n : Bytes) :
    includeResolve incl p = some n ↔
      ∃ pieces : List Bytes, pieces ≠ [] ∧ (∀ c ∈ pieces, GoodPiece c) ∧
        noCur (components p) = noCur (components incl) ++ pieces.map .normal ∧
        n = joinWith 47 pieces := by
  have hmem : ∀ rest, rest <:+ components p → ∀ s, .normal s ∈ rest →
      s ≠ [] ∧ s ≠ b!"." ∧ s ≠ b!".." ∧ (47 : UInt8) ∉ s :=
    fun rest hr s hs => components_normal (hr.mem hs)
  unfold includeResolve stripPrefix
  obtain ⟨hsome, hnone⟩ := iterAfter_spec (components p) (components incl)
  constructor
  · intro h
    split at h
    · rename_i rest hrest
      obtain ⟨h1, h2, h3⟩ := hsome rest hrest
      obtain ⟨ps, hne, rfl, hu, rfl⟩ := (fileName_iff rest (fun s hs => (hmem rest h2 s hs).1) n).1 h
      refine ⟨ps, hne, fun c hc => ?_, by simpa using h1, rfl⟩
      have := hmem _ h2 c (by simp [hc])
      exact ⟨this.1, this.2.1, this.2.2.1, this.2.2.2, hu c hc⟩
    · cases h
  · rintro ⟨ps, hne, hg, heq, rfl⟩
    split
    · rename_i rest hrest
      obtain ⟨h1, h2, h3⟩ := hsome rest hrest
      have hnc : noCur rest = rest :=
        noCur_of_not_mem (suffix_no_cur (components_tail_no_cur p) h2 h3)
      rw [heq, hnc] at h1
      have hr : rest = ps.map .normal := (List.append_cancel_left h1).symm
      rw [fileName_iff rest (fun s hs => (hmem rest h2 s hs).1)]
      exact ⟨ps, hne, hr, fun c hc => (hg c hc).2.2.2.2, rfl⟩
    · rename_i hn
      exact absurd ⟨_, heq⟩ (hnone hn)

/-- Test: the documented example. -/
example : includeResolve b!"/path/to/include" b!"/path/to/include/dir/foo.proto"
    = some b!"dir/foo.proto" := by
  rw [C19_resolve_path_iff]
  refine ⟨[b!"dir", b!"foo.proto"], by simp, ?_, by decide, by decide⟩
  intro c hc; simp at hc; rcases hc with rfl | rfl <;> (unfold GoodPiece; decide)

/-- C19: a name produced for a path never has empty, `.` or `..` components and is non-empty. -/
theorem C19_name_canonical (incl p n : Bytes) (h : includeResolve incl p = some n) :
    n ≠ [] ∧ ∀ c ∈ splitAt 47 n, c ≠ [] ∧ c ≠ b!"." ∧ c ≠ b!".." ∧ utf8Valid c = true := by
  obtain ⟨ps, hne, hg, -, rfl⟩ := (C19_resolve_path_iff incl p n).1 h
  refine ⟨joinWith_ne_nil hne (fun p hp => (hg p hp).1), ?_⟩
  rw [splitAt_joinWith 47 ps hne (fun c hc => (hg c hc).2.2.2.1)]
  exact fun c hc => ⟨(hg c hc).1, (hg c hc).2.1, (hg c hc).2.2.1, (hg c hc).2.2.2.2⟩

/-- C19: below the include directory a `..` or root component (or nothing at all) gives no name. -/
theorem C19_no_name_for_parent (incl p : Bytes) (rest : List Component)
    (h : noCur (components p) = noCur (components incl) ++ rest)
    (hbad : rest = [] ∨ .parent ∈ rest ∨ .root ∈ rest) : includeResolve incl p = none := by
  cases hr : includeResolve incl p with
  | none => rfl
  | some n =>
    obtain ⟨ps, hne, -, heq, -⟩ := (C19_resolve_path_iff incl p n).1 hr
    rw [h] at heq
    have := List.append_cancel_left heq
    subst this
    rcases hbad with h | h | h
    · simp at h; exact absurd h hne
    · simp at h
    · simp at h

example : includeResolve b!"inc" b!"inc/a/../b.proto" = none :=
  C19_no_name_for_parent _ _ [.normal b!"a", .parent, .normal b!"b.proto"] (by decide) (by decide)

/-- C20: the path opened for the name given to `p` is `p` up to `.` components (and the code's own
comparison `path_eq` says so). -/
theorem C20_resolve_open_agree (incl p n : Bytes) (h : includeResolve incl p = some n) :
    noCur (components (includeTarget incl n)) = noCur (components p) ∧
    pathEq (components (includeTarget incl n)) (components p) = true := by
  obtain ⟨ps, hne, hg, heq, rfl⟩ := (C19_resolve_path_iff incl p n).1 h
  have : noCur (components (includeTarget incl (joinWith 47 ps))) = noCur (components p) := by
    rw [includeTarget, components_join_pieces incl ps hne
      (fun c hc => ⟨(hg c hc).1, (hg c hc).2.1, (hg c hc).2.2.1, (hg c hc).2.2.2.1⟩), heq]
    simp
  exact ⟨this, (pathEq_iff _ _).2 this⟩

example : includeResolve b!"./inc/" b!"inc/./x.proto" = some b!"x.proto" := by
  rw [C19_resolve_path_iff]
  refine ⟨[b!"x.proto"], by simp, ?_, by decide, by decide⟩
  intro c hc; simp at hc; subst hc; unfold GoodPiece; decide

/-- C20: every path made of the include path and normal components is given its relative name. -/
theorem C20_resolve_complete (incl : Bytes) (pieces : List Bytes) (hne : pieces ≠ [])
    (hg : ∀ c ∈ pieces, GoodPiece c) :
    includeResolve incl (join incl (joinWith 47 pieces)) = some (joinWith 47 pieces) := by
  rw [C19_resolve_path_iff]
  refine ⟨pieces, hne, hg, ?_, rfl⟩
  rw [components_join_pieces incl pieces hne
    (fun c hc => ⟨(hg c hc).1, (hg c hc).2.1, (hg c hc).2.2.1, (hg c hc).2.2.2.1⟩)]
  simp

/-- C21 (path part): the comparison used for shadowing is exactly equality up to `.` components. -/
theorem C21_path_eq_iff (l r : Bytes) :
    pathEq (components l) (components r) = true ↔ noCur (components l) = noCur (components r) :=
  pathEq_iff _ _

/-- C22: an import accepted by the parser, joined to any include directory, stays below it: its
components are those of the directory followed by one or more normal components. -/
theorem C22_import_stays_below (incl s : Bytes) (h : isValidImport s = true) :
    ∃ pieces : List Bytes, pieces ≠ [] ∧ joinWith 47 pieces = s ∧
      (∀ c ∈ pieces, c ≠ [] ∧ c ≠ b!"." ∧ c ≠ b!".." ∧ (47 : UInt8) ∉ c ∧ (92 : UInt8) ∉ c) ∧
      components (includeTarget incl s) = components incl ++ pieces.map .normal := by
  simp only [isValidImport, Bool.and_eq_true, List.all_eq_true, Bool.not_eq_true',
    Bool.or_eq_false_iff] at h
  obtain ⟨hall, -⟩ := h
  have hp : ∀ c ∈ splitAt 47 s, c ≠ [] ∧ c ≠ b!"." ∧ c ≠ b!".." ∧ (47 : UInt8) ∉ c ∧ (92 : UInt8) ∉ c := by
    intro c hc
    have h0 := splitAt_no_sep 47 s c hc
    obtain ⟨⟨⟨h1, h2⟩, h3⟩, h4⟩ := hall c hc
    refine ⟨by simpa using h1, by simpa using h3, by simpa using h4, h0, by simpa using h2⟩
  refine ⟨splitAt 47 s, splitAt_ne_nil _ _, joinWith_splitAt _ _, hp, ?_⟩
  have := components_join_pieces incl (splitAt 47 s) (splitAt_ne_nil _ _)
    (fun c hc => ⟨(hp c hc).1, (hp c hc).2.1, (hp c hc).2.2.1, (hp c hc).2.2.2.1⟩)
  rwa [joinWith_splitAt] at this

example : isValidImport b!"google/protobuf/any.proto" = true := by decide
/-- Test: escapes are refused. -/
example : isValidImport b!"../x" = false ∧ isValidImport b!"/etc/passwd" = false ∧
    isValidImport b!"a//b" = false ∧ isValidImport b!"" = false ∧ isValidImport b!"a\\b" = false := by decide

end Verif.Path
