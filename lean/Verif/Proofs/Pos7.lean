import Verif.Proofs.Pos6
/-!
Places and comments: the parser as a whole, and the step to the grammar without places.
-/
namespace Verif.Pos
open Verif.Parse Verif.Spec Verif.Ast Verif.Places

theorem init_R (src : Bytes) : R (PState.init src) ⟨annotated src, .fresh, none⟩ :=
  ⟨⟨rfl, fun h => absurd rfl h⟩, fun h => absurd rfl h, rfl, rfl, fun _ => ⟨rfl, rfl⟩, nofun⟩

theorem parseHeader_snd (fuel len : Nat) {st : AS} {Q : Syntax' × Option (Span × Comments) × Span → AS → Prop}
    (hl : st.lead = true)
    (h0 : ∀ st', st.toks = [] → st'.toks = [] → st'.lead = true → Q (.proto2, none, ⟨len, 0⟩) st')
    (h1 : ∀ st' a r, st.toks = a :: r → st'.toks = a :: r → st'.lead = true → a.tok ≠ kw b!"syntax" → Q (.proto2, none, a.span) st')
    (h2 : ∀ u syn x st', st.toks = u ++ st'.toks → st'.lead = true → SyntaxG u syn x → Q (syn, some x, x.1) st') :
    wp (parseHeader fuel len) Q st := by
  unfold parseHeader
  refine peekO (fun e => ?_) (fun a r st' e e' hl' => ?_)
  · exact h0 _ e (by simpa using e) (by rw [look_lead]; exact hl)
  · simp only
    split
    · refine (parseSyntax_snd fuel).elem hl (e'.trans e.symm) hl' fun u v st2 e2 l g => ?_
      exact h2 u _ _ st2 e2 l g
    · rename_i hne
      exact h1 _ _ _ e e' (hl'.trans hl) hne

theorem syntaxG_extent {u syn x} (h : SyntaxG u syn x) : x.1 = extent u ∧ u ≠ [] := by
  cases h <;> exact ⟨rfl, by simp⟩

theorem mem_sig {src : Bytes} {ts : List STok} (h : sigToks 0 src = ts.map some) : ∀ x ∈ rawToks 0 src, x.1 ≠ none := by
  intro x hx hn
  have : (none : Option STok) ∈ sigToks 0 src := by
    unfold sigToks significant
    exact List.mem_filterMap.2 ⟨x, hx, by rw [hn]⟩
  rw [h] at this
  simp at this

/-- An accepted source has a tree with its places and comments. -/
theorem parseFile_places [FloatFmt] {src : Bytes} {f : File} (h : parseFile src = .ok (.ok f)) : PlacedTree src f := by
  refine ⟨?_, ?_⟩
  · rcases parseFile_spec src with ⟨e, h1, _⟩ | ⟨f', ts, _, h2, _⟩
    · rw [h1] at h; cases h
    · exact mem_sig h2
  · unfold parseFile at h
    split at h
    · rename_i ast s he
      split at h
      · rename_i hes
        cases h
        unfold P.parseFile at he
        obtain ⟨⟨syn, synSpan, span⟩, s1, hh, he⟩ := bind_ok he
        simp only at he
        obtain ⟨acc, s2, hl, he⟩ := bind_ok he
        cases he
        have hes1 : s1.errs = [] := by
          cases hs : s1.errs with
          | nil => rfl
          | cons e l =>
            have := stable_errs.fileLoop (src.length + 3) (src.length + 3) { span } s1 (by simp [hs])
            rw [hl] at this
            exact absurd hes this
        have hw := parseHeader_snd (src.length + 3) src.length (st := ⟨annotated src, .fresh, none⟩) rfl
          (Q := fun r st' => st'.lead = true ∧ ((annotated src = [] ∧ st'.toks = [] ∧ r = (.proto2, none, ⟨src.length, 0⟩)) ∨
            (∃ a l, annotated src = a :: l ∧ st'.toks = a :: l ∧ a.tok ≠ kw b!"syntax" ∧ r = (.proto2, none, a.span)) ∨
            (∃ u syn x, annotated src = u ++ st'.toks ∧ SyntaxG u syn x ∧ r = (syn, some x, x.1))))
          (fun st' e1 e2 l => ⟨l, .inl ⟨e1, e2, rfl⟩⟩) (fun st' a r e1 e2 l hn => ⟨l, .inr (.inl ⟨a, r, e1, e2, hn, rfl⟩)⟩)
          (fun u syn x st' e l g => ⟨l, .inr (.inr ⟨u, syn, x, e, g, rfl⟩)⟩)
        obtain ⟨st1, hR, hlead, hc⟩ := run_sound _ (init_R src) hw hh hes1
        rcases hc with ⟨e1, e2, hr⟩ | ⟨a, l, e1, e2, hn, hr⟩ | ⟨u, syn', x, e1, g, hr⟩
        · cases hr
          have key := fileLoop_places (src.length + 3) (annotated src) st1.toks _ (acc := { span := ⟨src.length, 0⟩ }) []
            hR hlead rfl .nil ⟨[], by rw [e1, e2]; rfl, .inl ⟨rfl, e1⟩⟩ hl hes
          obtain ⟨k1, ⟨k2, k3⟩ | ⟨k2, k3⟩⟩ := key
          · subst k3
            rw [e1, ← e2]
            have : (⟨src.length, 0⟩ : Span) = fileSpan src.length st1.toks := by rw [e2]; rfl
            rw [this]
            exact .noSyntax k1 (by intro n _; rw [e2]; simp)
          · exact absurd e1 k2
        · cases hr
          have key := fileLoop_places (src.length + 3) (annotated src) st1.toks _ (acc := { span := a.span }) []
            hR hlead rfl .nil ⟨[], by rw [e1, e2]; rfl, .inr (.inl ⟨rfl, a, by rw [e1]; rfl, rfl⟩)⟩ hl hes
          obtain ⟨k1, ⟨k2, k3⟩ | ⟨k2, k3⟩⟩ := key
          · rw [k2] at e1; cases e1
          · have : acc.span = fileSpan src.length (annotated src) := by rw [fileSpan, if_neg k2, k3]
            rw [this]
            rw [e2, ← e1] at k1
            refine .noSyntax k1 ?_
            exact noKw_of (a := a) (by rw [e1]; rfl) (by simpa using hn)
        · cases hr
          obtain ⟨hx, hne⟩ := syntaxG_extent g
          have key := fileLoop_places (src.length + 3) (annotated src) st1.toks _ (acc := { span := x.1 }) []
            hR hlead rfl .nil ⟨u, e1, .inr (.inr ⟨hne, hx⟩)⟩ hl hes
          have hne' : annotated src ≠ [] := by rw [e1]; simp [hne]
          obtain ⟨k1, ⟨k2, k3⟩ | ⟨k2, k3⟩⟩ := key
          · exact absurd k2 hne'
          · have : acc.span = fileSpan src.length (u ++ st1.toks) := by rw [← e1, fileSpan, if_neg k2, k3]
            rw [this, e1]
            exact .withSyntax g k1
      · cases h
    · cases h
    · cases h
    · cases h

end Verif.Pos
