import Verif.Proofs.ErDesc
/-!
`parse` accepts a source exactly if it lexes, derives in the grammar, and its tree has no errors; the descriptor is
made from the tree.
-/
namespace Verif.Gen
open Verif.Ast Verif.Spec Verif.Grammar Verif.Parse

section
variable [FloatFmt] [LocSort]

/-- Once there is a tree, what `parse` returns depends on the errors in the tree. -/
theorem parse_of_file {name src : Bytes} {f : File} (hl : src.length ≤ 2147483647)
    (h : parseFile src = .ok (.ok f)) :
    (fileErrs f = [] → ∃ fd, parse name src = some (.ok fd)) ∧
    (∀ k ks, fileErrs f = k :: ks → parse name src = some (.error ⟨k, ks, name, src⟩)) := by
  have hlen : ¬ src.length > maxParseLen := Nat.not_lt.2 hl
  rcases parseFile_spec src with ⟨errs, h1, h2, h3⟩ | ⟨f', ts, h1, h2, h3, h4, h5⟩
  · rw [h] at h1; cases h1
  · rw [h] at h1; cases h1
    have hsmall : fileSmall 2147483647 f := by
      refine file_small h3 ?_
      have := sigToks_length (src.length + 1) 0 src (by omega)
      rw [h2] at this
      simp only [List.length_map, bare] at this ⊢
      omega
    have hsp : f.span.start ≤ src.length ∧ f.span.stop ≤ src.length := by
      rcases h5 with ⟨_, h⟩ | h
      · rw [h]; exact ⟨Nat.le_refl _, Nat.zero_le _⟩
      · omega
    obtain ⟨g1, g2, g3⟩ := generateFile_eq (src := src) name hl h4 hsp hsmall
    constructor
    · intro he
      rw [if_pos he] at g1
      refine ⟨{ fileDesc name f with sourceCodeInfo := some (LocSort.sort ((fileMarks f).map (Mark.loc src))) }, ?_⟩
      unfold parse; rw [if_neg hlen, h]; simp only [g1]
    · intro k ks hk
      rw [if_neg (by rw [hk]; nofun), hk] at g1
      unfold parse; rw [if_neg hlen, h]; simp only [g1]; rfl

/-- A source that lexes and derives in the grammar. -/
theorem file_of_tree {src : Bytes} {f : File} (hl : lexOk src = true) (h : TreeOf src f) :
    ∃ f', parseFile src = .ok (.ok f') ∧ er f' = er f := by
  obtain ⟨f', h1, h2, _⟩ := parseFile_complete h
  exact ⟨f', h2 hl, h1⟩

theorem parse_accepts {name src : Bytes} : (∃ fd, parse name src = some (.ok fd)) ↔
    src.length ≤ 2147483647 ∧ lexOk src = true ∧ ∃ f, TreeOf src f ∧ fileErrs f = [] := by
  constructor
  · rintro ⟨fd, h⟩
    obtain ⟨f, ts, hp⟩ := parsed_of_ok h
    refine ⟨hp.len, ?_, f, ⟨ts, hp.toks, hp.gram⟩, hp.noErrs⟩
    have hf : ∃ f, parseFile src = .ok (.ok f) := by
      rcases parseFile_spec src with ⟨errs, h1, h2, h3⟩ | ⟨f', ts, h1, _⟩
      · unfold parse at h
        have hlen : ¬ src.length > maxParseLen := Nat.not_lt.2 hp.len
        rw [if_neg hlen, h1] at h
        cases errs <;> cases h
      · exact ⟨f', h1⟩
    exact (parseFile_accepts.1 hf).1
  · rintro ⟨hl, hx, f, ht, he⟩
    obtain ⟨f', h1, h2⟩ := file_of_tree hx ht
    exact (parse_of_file hl h1).1 ((fileErrs_same h2).2 he)

/-- The descriptor is made from any tree of the source. -/
theorem made_of_tree {name src : Bytes} {fd} {f : File} (h : parse name src = some (.ok fd)) (ht : TreeOf src f) :
    Made name f fd := by
  obtain ⟨g, ts, hp⟩ := parsed_of_ok h
  have he : er f = er g := tree_unique ht ⟨ts, hp.toks, hp.gram⟩
  exact ⟨(fileErrs_same he).2 hp.noErrs, hp.made.desc.trans (fileDesc_same name he).symm⟩

end
end Verif.Gen
