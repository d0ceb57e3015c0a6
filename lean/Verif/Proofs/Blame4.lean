import Verif.Proofs.Blame3
import Verif.Spec.Blame
/-! Where the reported bad tokens are: invariants of a run. -/
namespace Verif.Blame
open Parse Lex

theorem utSpan_norm (e) : utSpan (norm e) = utSpan e := by cases e <;> rfl
theorem utTok_norm (e) : utTok (norm e) = utTok e := by cases e <;> rfl
theorem invSpan_norm (e) : invSpan (norm e) = invSpan e := by cases e <;> rfl
theorem utSpan_lex {e} (h : isLexical e = true) : utSpan e = none := by cases e <;> first | rfl | cases h
theorem utTok_lex {e} (h : isLexical e = true) : utTok e = none := by cases e <;> first | rfl | cases h
theorem invSpan_lex {e} (h : isLexical e = true) : invSpan e = none := by cases e <;> first | rfl | cases h

theorem ext_filterMap {β : Type} {f : ParseErrorKind → Option β} (hn : ∀ e, f (norm e) = f e) (hl : ∀ e, isLexical e = true → f e = none)
    {errs out} (h : LexExt errs out) : out.filterMap f = errs.filterMap f := by
  obtain ⟨l, h1, h2⟩ := h
  have key : ∀ x : List ParseErrorKind, (x.map norm).filterMap f = x.filterMap f := by
    intro x
    rw [List.filterMap_map]
    exact congrArg (fun g => x.filterMap g) (funext hn)
  rw [← key out, h1, List.filterMap_append, key, List.filterMap_eq_nil_iff.2 (fun e he => hl e (h2 e he)), List.append_nil]

theorem mem_ut {errs : List ParseErrorKind} {sp} : sp ∈ errs.filterMap utSpan ↔ ∃ ex t, .unexpectedToken ex t sp ∈ errs := by
  rw [List.mem_filterMap]
  constructor
  · rintro ⟨e, he, h⟩
    cases e <;> cases h
    exact ⟨_, _, he⟩
  · exact fun ⟨_, _, h⟩ => ⟨_, h, rfl⟩

theorem mem_utTok {errs : List ParseErrorKind} {x} : x ∈ errs.filterMap utTok ↔ ∃ ex, .unexpectedToken ex x.1 x.2 ∈ errs := by
  rw [List.mem_filterMap]
  constructor
  · rintro ⟨e, he, h⟩
    cases e <;> cases h
    exact ⟨_, he⟩
  · exact fun ⟨_, h⟩ => ⟨_, h, rfl⟩

/-- The state in terms of the tokens of the source: what has been read, what is cached, what has been reported. -/
structure Tk (src : Bytes) (s : PState) : Prop where
  toks : ∃ pre, rawToks 0 src = pre ++ rawToks s.pos s.rest ∧ s.errs.filterMap invSpan = pre.filterMap badSpan
  cached : ∀ x, s.peek = some (.ok x) → (some x.1, x.2) ∈ rawToks 0 src
  ut : ∀ x ∈ s.errs.filterMap utTok, x.1.isTrivia = false ∧ (some x.1, x.2) ∈ rawToks 0 src

theorem tk_init (src) : Tk src (PState.init src) := ⟨⟨[], rfl, rfl⟩, nofun, nofun⟩

theorem tk_stable (src : Bytes) : StableU (Tk src) where
  peekComments := by
    intro s hs
    unfold P.peekComments
    split
    · exact hs
    · exact hs
    · simp only
      obtain ⟨pre, h1, h2⟩ := hs.toks
      obtain ⟨c1, c2, c3⟩ := next_same s.tf s.pos s.rest s.errs
      have hx := next_ext s.tf s.pos s.rest s.errs
      have hf := next_facts s.tf s.pos s.rest s.errs
      rw [rawToks_unfold s.pos, ← c1, ← c2, ← c3] at h1
      revert h1 hx hf
      generalize Lex.next s.tf s.pos s.rest s.errs = o
      intro h1 hx hf
      have hu := ext_filterMap utTok_norm (fun _ => utTok_lex) hx
      have hi := ext_filterMap invSpan_norm (fun _ => invSpan_lex) hx
      split
      · rename_i hr
        rw [hr] at h1
        refine ⟨⟨pre, ?_, hi.trans h2⟩, hs.cached, by intro sp; rw [hu]; exact hs.ut sp⟩
        have hnil : ∀ p, rawToks p [] = [] := by
          intro p; rw [rawToks_unfold p]; rfl
        rw [h1, (hf.eof_rest hr).1, hnil]
      · rename_i t hr
        rw [hr] at h1
        refine ⟨⟨pre ++ [(some t, o.span)], by simpa using h1, ?_⟩, ?_, by intro sp; rw [hu]; exact hs.ut sp⟩
        · rw [List.filterMap_append]
          show _ = _ ++ []
          rw [List.append_nil]; exact hi.trans h2
        · intro x hx
          injection hx with hx; injection hx with hx; subst hx
          rw [h1]
          exact List.mem_append_right _ (List.mem_cons_self ..)
      · rename_i hr
        rw [hr] at h1
        refine ⟨⟨pre ++ [(none, o.span)], by simpa using h1, ?_⟩, nofun, ?_⟩
        · rw [List.filterMap_append, List.filterMap_append, hi, h2]; rfl
        · intro sp hsp
          rw [List.filterMap_append, hu] at hsp
          exact hs.ut sp (by simpa [utTok] using hsp)
  bump := by
    intro s hs
    unfold P.bump
    split
    · simp only; split <;> exact ⟨hs.toks, nofun, hs.ut⟩
    · exact hs
  comments := fun _ _ h => ⟨h.toks, h.cached, h.ut⟩
  tf := fun _ _ h => ⟨h.toks, h.cached, h.ut⟩
  clear := fun _ h => ⟨h.toks, nofun, h.ut⟩
  add := by
    intro s e h hc hi
    refine ⟨?_, h.cached, ?_⟩
    · obtain ⟨pre, h1, h2⟩ := h.toks
      refine ⟨pre, h1, ?_⟩
      show (s.errs ++ [e]).filterMap invSpan = _
      rw [List.filterMap_append, h2]
      cases e <;> first | exact List.append_nil _ | exact absurd rfl (hi _)
    · intro sp (hsp : sp ∈ (s.errs ++ [e]).filterMap utTok)
      rw [List.filterMap_append] at hsp
      rcases List.mem_append.1 hsp with hsp | hsp
      · exact h.ut sp hsp
      · obtain ⟨ex, he⟩ := mem_utTok.1 hsp
        obtain ⟨ht, hp⟩ := hc ex sp.1 sp.2 (List.mem_singleton.1 he).symm
        exact ⟨ht, h.cached _ hp⟩

end Verif.Blame
