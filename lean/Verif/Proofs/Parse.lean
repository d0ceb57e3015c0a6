import Verif.Proofs.Small
/-!
What `parse` returns.
-/
namespace Verif.Gen
open Verif.Ast Verif.Grammar Verif.Parse Verif.Spec Verif.Lex

/-- A successful parse of `src`: the syntax tree `f` is derived from the tokens `ts`, has no semantic errors, and the
descriptor is the one made from it. -/
structure Parsed [FloatFmt] [LocSort] (name src : Bytes) (fd : FileDescriptorProto) (f : File) (ts : List STok) : Prop where
  len : src.length ≤ 2147483647
  run : Parse.parseFile src = .ok (.ok f)
  toks : sigToks 0 src = ts.map some
  gram : FileG (bare ts) f
  spans : f.In src.length
  span : (ts = [] ∧ f.span = ⟨src.length, 0⟩) ∨ (f.span.start < f.span.stop ∧ f.span.stop ≤ src.length)
  noErrs : fileErrs f = []
  desc : fd = { fileDesc name f with sourceCodeInfo := some (LocSort.sort ((fileMarks f).map (Mark.loc src))) }
  marks : ∀ x ∈ restMarks f, SpIn 0 src.length x.span

/-- `parse` never panics; it fails with at least one error, all spans inside the source, or succeeds. -/
theorem parse_spec [FloatFmt] [LocSort] (name src : Bytes) :
    (src.length > 2147483647 ∧ parse name src = some (.error ⟨.fileTooLarge, [], name, []⟩)) ∨
    (src.length ≤ 2147483647 ∧ ∃ k ks, parse name src = some (.error ⟨k, ks, name, src⟩) ∧
      ErrsOk src.length (k :: ks)) ∨
    (∃ fd f ts, parse name src = some (.ok fd) ∧ Parsed name src fd f ts) := by
  by_cases hlen : src.length > maxParseLen
  · refine .inl ⟨hlen, ?_⟩
    unfold parse; rw [if_pos hlen]; rfl
  · refine .inr ?_
    have hl : src.length ≤ 2147483647 := Nat.le_of_not_lt hlen
    rcases parseFile_spec src with ⟨errs, h1, h2, h3⟩ | ⟨f, ts, h1, h2, h3, h4, h5⟩
    · refine .inl ⟨hl, ?_⟩
      cases errs with
      | nil => exact absurd rfl h2
      | cons k ks =>
        refine ⟨k, ks, ?_, h3⟩
        unfold parse; rw [if_neg hlen, h1]; rfl
    · have hsmall : fileSmall 2147483647 f := by
        refine file_small h3 ?_
        have := sigToks_length (src.length + 1) 0 src (by omega)
        rw [h2] at this
        simp only [List.length_map, bare] at this ⊢
        omega
      have hsp : f.span.start ≤ src.length ∧ f.span.stop ≤ src.length := by
        rcases h5 with ⟨_, h⟩ | h
        · rw [h]; exact ⟨Nat.le_refl _, Nat.zero_le _⟩
        · omega
      obtain ⟨g1, g2, g3⟩ := generateFile_eq (src := src) name hl h4 hsp hsmall
      by_cases he : fileErrs f = []
      · rw [if_pos he] at g1
        refine .inr ⟨_, f, ts, ?_, ⟨hl, h1, h2, h3, h4, h5, he, rfl, g3⟩⟩
        unfold parse; rw [if_neg hlen, h1]; simp only [g1]
      · rw [if_neg he] at g1
        cases hk : fileErrs f with
        | nil => exact absurd hk he
        | cons k ks =>
          rw [hk] at g1 g2
          refine .inl ⟨hl, k, ks, ?_, fun e he s hs => ?_⟩
          · unfold parse; rw [if_neg hlen, h1]; simp only [g1]; rfl
          · have := g2 e he s hs; exact ⟨Nat.le_of_lt this.2.1, this.2.2⟩

/-- A successful parse has a syntax tree. -/
theorem parsed_of_ok [FloatFmt] [LocSort] {name src : Bytes} {fd} (h : parse name src = some (.ok fd)) :
    ∃ f ts, Parsed name src fd f ts := by
  rcases parse_spec name src with ⟨_, h'⟩ | ⟨_, k, ks, h', _⟩ | ⟨fd', f, ts, h', hp⟩
  · rw [h] at h'; cases h'
  · rw [h] at h'; cases h'
  · rw [h] at h'; cases h'; exact ⟨f, ts, hp⟩

end Verif.Gen
