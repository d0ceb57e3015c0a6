import Verif.Proofs.Reports
import Verif.Proofs.Homog
import Verif.Proofs.Lexeme4
import Verif.Spec.Lexeme
import Verif.Spec.Viable
/-! The tokens before the first syntactic diagnostic are well-formed. -/
namespace Verif.Blame
open Parse Lex Spec

/-- Diagnostics about tokens, of the lexer or of the parser. -/
abbrev syntactic : ParseErrorKind → Bool := aboutTokens

/-- The token is one, and its text is an instance of it. -/
def Fine (src : Bytes) (x : Option Token × Span) : Prop := ∃ t, x.1 = some t ∧ Lexeme true (textOf src x.2) t

theorem lexeme_true {tf text t} (h : Lexeme tf text t) : Lexeme true text t := by
  cases tf with
  | true => exact h
  | false =>
    cases h with
    | int h1 h2 => exact .int h1 h2
    | malformedOctal h1 h2 => exact .malformedOctal h1 h2
    | float h1 => exact .float h1
    | floatSuffix h1 => cases h1
    | intSuffix h1 => cases h1
    | hashComment h1 => cases h1
    | lineComment h1 h2 => exact .lineComment h1 h2
    | blockComment h1 h2 h3 h4 h5 => exact .blockComment h1 h2 h3 h4 h5
    | ident h => exact .ident h
    | string h1 h2 => exact .string h1 h2
    | _ => constructor

theorem syntactic_norm {e} : syntactic (norm e) = syntactic e := by cases e <;> rfl
theorem syntactic_lex {e} (h : isLexical e = true) : syntactic e = true := by cases e <;> first | rfl | cases h

theorem filter_map_norm (l : List ParseErrorKind) : (l.map norm).filter syntactic = (l.filter syntactic).map norm := by
  rw [List.filter_map]
  exact congrArg (fun g => (l.filter g).map norm) (funext fun e => syntactic_norm)

theorem ext_filter {errs out} (h : LexExt errs out) : ∃ l, (out.filter syntactic).map norm = (errs.filter syntactic).map norm ++ l ∧
    ∀ e ∈ l, isLexical e = true := by
  obtain ⟨l, h1, h2⟩ := h
  refine ⟨l, ?_, h2⟩
  rw [← filter_map_norm, h1, List.filter_append, filter_map_norm, List.filter_eq_self.2 fun e he => syntactic_lex (h2 e he)]

theorem ext_nil {errs out} (h : LexExt errs out) (ho : out.filter syntactic = []) : errs.filter syntactic = [] := by
  obtain ⟨l, h1, _⟩ := ext_filter h
  rw [ho] at h1
  have := (List.append_eq_nil_iff.1 h1.symm).1
  exact List.map_eq_nil_iff.1 this

theorem ext_head {errs out} (h : LexExt errs out) {k} (ho : (out.filter syntactic).head? = some k) (hk : isLexical k = false) :
    (errs.filter syntactic).head? = some k := by
  obtain ⟨l, h1, h2⟩ := ext_filter h
  cases ho' : out.filter syntactic with
  | nil => rw [ho'] at ho; cases ho
  | cons k' ks =>
    rw [ho'] at ho h1
    cases ho
    cases he : errs.filter syntactic with
    | nil =>
      rw [he, List.map_cons, List.map_nil, List.nil_append] at h1
      have := h2 (norm k) (by rw [← h1]; exact .head _)
      rw [lexical_norm, hk] at this
      cases this
    | cons e es =>
      rw [he, List.map_cons, List.map_cons, List.cons_append] at h1
      have := (List.cons.inj h1).1
      rw [norm_id hk] at this
      exact congrArg some (norm_eq hk this.symm)

/-- A step of the lexer that reports nothing. -/
theorem next_clean {tf pos s errs} (h : (next tf pos s errs).errs.filter syntactic = []) : (next tf pos s []).errs = [] := by
  have h0 := ext_nil (next_ext tf pos s errs) h
  have hf : Fresh errs := fresh_of (List.filter_eq_nil_iff.2 fun e he hl => List.filter_eq_nil_iff.1 h0 e he (syntactic_lex hl))
  rw [next_app hf, List.filter_append, h0, List.nil_append] at h
  obtain ⟨l, h1, h2⟩ := next_ext tf pos s []
  refine List.eq_nil_iff_forall_not_mem.2 fun e he => List.filter_eq_nil_iff.1 h e he (syntactic_lex ?_)
  rw [← lexical_norm]
  exact h2 _ (by rw [List.map_nil, List.nil_append] at h1; rw [← h1]; exact List.mem_map_of_mem he)

/-- The state in terms of the tokens of the source. -/
structure Wr (src : Bytes) (s : PState) : Prop where
  cut : ∃ p, src = p ++ s.rest ∧ s.pos = p.length
  toks : ∃ pre, rawToks 0 src = pre ++ rawToks s.pos s.rest ∧ (s.errs.filter syntactic = [] → ∀ x ∈ pre, Fine src x) ∧
    ∀ x, s.peek = some (.ok x) → (some x.1, x.2) ∈ pre
  tok : ∀ ex t sp, (s.errs.filter syntactic).head? = some (.unexpectedToken ex t sp) → ∀ x ∈ rawToks 0 src, x.2.stop ≤ sp.start → Fine src x
  eof : ∀ ex, (s.errs.filter syntactic).head? = some (.unexpectedEof ex) → lexEnd ex = false → ∀ x ∈ rawToks 0 src, Fine src x

theorem wr_init (src) : Wr src (PState.init src) := ⟨⟨[], rfl, rfl⟩, ⟨[], rfl, nofun, nofun⟩, nofun, nofun⟩

/-- The reports of the parser: about what it has just looked at. -/
def Seen (c : Option (Option STok)) (e : ParseErrorKind) : Prop :=
  (∀ ex t sp, e = .unexpectedToken ex t sp → c = some (some (t, sp))) ∧ (∀ ex, e = .unexpectedEof ex → c = some none)

theorem seen_sane : Sane Seen where
  weak h := ⟨fun ex t sp he => (nomatch h.1 ex t sp he), fun ex he => (nomatch h.2 ex he)⟩
  tok := ⟨fun _ _ _ h => by cases h; rfl, nofun⟩
  eof := ⟨nofun, fun _ h => by cases h; rfl⟩
  utf8 := ⟨nofun, nofun⟩
  ident := ⟨nofun, nofun⟩
  group := ⟨nofun, nofun⟩
  import' := ⟨nofun, nofun⟩

theorem head_snoc {l : List ParseErrorKind} {e k} (h : ((l ++ [e]).filter syntactic).head? = some k) :
    (l.filter syntactic).head? = some k ∨ l.filter syntactic = [] ∧ k = e := by
  rw [List.filter_append] at h
  cases hl : l.filter syntactic with
  | nil =>
    rw [hl, List.nil_append] at h
    have hk : k ∈ [e] := (List.mem_filter.1 (List.mem_of_head? h)).1
    exact .inr ⟨rfl, List.mem_singleton.1 hk⟩
  | cons a as => rw [hl] at h; exact .inl h

theorem wr_stable (src : Bytes) : StableQ Seen (Wr src) where
  peekComments := by
    intro s hs
    unfold P.peekComments
    split
    · exact hs
    · exact hs
    · simp only
      obtain ⟨p, hp, hpos⟩ := hs.cut
      obtain ⟨pre, h1, h2, h3⟩ := hs.toks
      obtain ⟨c1, c2, c3⟩ := next_same s.tf s.pos s.rest s.errs
      have hx := next_ext s.tf s.pos s.rest s.errs
      have hf := next_facts s.tf s.pos s.rest s.errs
      have hcl := next_clean (tf := s.tf) (pos := s.pos) (s := s.rest) (errs := s.errs)
      obtain ⟨b, text, e1, hb, e2, e3, e4, e5⟩ := next_split s.tf s.pos s.rest []
      obtain ⟨d1, d2, d3⟩ := next_same s.tf s.pos s.rest []
      rw [d1, ← c1] at e5
      rw [d2, ← c2] at e1
      rw [d3, ← c3] at e2 e3
      have hlex : ∀ k, (Lex.next s.tf s.pos s.rest s.errs).res = .tok k → (Lex.next s.tf s.pos s.rest s.errs).errs.filter syntactic = [] → Lexeme s.tf text k :=
        fun k hk he => e5 k hk rfl (hcl he)
      rw [rawToks_unfold s.pos, ← c1, ← c2, ← c3] at h1
      clear c1 c2 c3 d1 d2 d3 e4 e5 hcl
      revert h1 hx hf hlex e1 e2 e3
      generalize Lex.next s.tf s.pos s.rest s.errs = o
      intro h1 hx hf e1 e2 e3 hlex
      have hcut : src = p ++ b ++ text ++ o.rest ∧ o.span.stop = (p ++ b ++ text).length ∧ o.span.start = (p ++ b).length := by
        refine ⟨by rw [hp, e1]; simp, ?_, ?_⟩
        · rw [e3, hpos]; simp [Nat.add_assoc]
        · rw [e2, hpos]; simp
      have htext : textOf src o.span = text := by
        rw [hcut.1]
        exact textOf_mid (p ++ b) text o.rest _ hcut.2.2 (by rw [hcut.2.1, List.length_append])
      have htok : ∀ ex t sp, (o.errs.filter syntactic).head? = some (.unexpectedToken ex t sp) → ∀ x ∈ rawToks 0 src, x.2.stop ≤ sp.start → Fine src x :=
        fun ex t sp h => hs.tok ex t sp (ext_head hx h rfl)
      have heof : ∀ ex, (o.errs.filter syntactic).head? = some (.unexpectedEof ex) → lexEnd ex = false → ∀ x ∈ rawToks 0 src, Fine src x :=
        fun ex h hl => hs.eof ex (ext_head hx h hl) hl
      split
      · rename_i hr
        rw [hr] at h1
        refine ⟨⟨p ++ b ++ text, hcut.1, hcut.2.1⟩, ⟨pre, ?_, fun h => h2 (ext_nil hx h), h3⟩, htok, heof⟩
        have hnil : ∀ p, rawToks p [] = [] := by
          intro p; rw [rawToks_unfold p]; rfl
        show rawToks 0 src = pre ++ rawToks o.span.stop o.rest
        rw [h1, (hf.eof_rest hr).1, hnil]
      · rename_i t hr
        rw [hr] at h1
        refine ⟨⟨p ++ b ++ text, hcut.1, hcut.2.1⟩, ⟨pre ++ [(some t, o.span)], by simpa using h1, fun h x hxm => ?_, ?_⟩, htok, heof⟩
        · rcases List.mem_append.1 hxm with hxm | hxm
          · exact h2 (ext_nil hx h) x hxm
          · rw [List.mem_singleton.1 hxm]
            exact ⟨t, rfl, by rw [htext]; exact lexeme_true (hlex t hr h)⟩
        · intro x hx
          injection hx with hx; injection hx with hx; subst hx
          simp
      · rename_i hr
        rw [hr] at h1
        refine ⟨⟨p ++ b ++ text, hcut.1, hcut.2.1⟩, ⟨pre ++ [(none, o.span)], by simpa using h1, fun h => ?_, nofun⟩, ?_, ?_⟩
        · rw [List.filter_append] at h
          exact nomatch (List.append_eq_nil_iff.1 h).2
        · intro ex t sp h
          rcases head_snoc h with h | ⟨_, h⟩
          · exact htok ex t sp h
          · cases h
        · intro ex h hl
          rcases head_snoc h with h | ⟨_, h⟩
          · exact heof ex h hl
          · cases h
  bump := by
    intro s hs
    obtain ⟨pre, h1, h2, h3⟩ := hs.toks
    unfold P.bump
    split
    · simp only; split <;> exact ⟨hs.cut, ⟨pre, h1, h2, nofun⟩, hs.tok, hs.eof⟩
    · exact hs
  comments := fun _ _ h => ⟨h.cut, h.toks, h.tok, h.eof⟩
  tf := fun _ _ h => ⟨h.cut, h.toks, h.tok, h.eof⟩
  clear := fun _ h => ⟨h.cut, h.toks.imp fun _ h => ⟨h.1, h.2.1, nofun⟩, h.tok, h.eof⟩
  add := by
    intro s c e h hq hc hc'
    obtain ⟨pre, h1, h2, h3⟩ := h.toks
    refine ⟨h.cut, ⟨pre, h1, fun he => h2 ?_, h3⟩, ?_, ?_⟩
    · rw [List.filter_append] at he
      exact (List.append_eq_nil_iff.1 he).1
    · intro ex t sp hk x hx hstop
      rcases head_snoc hk with hk | ⟨hn, hk⟩
      · exact h.tok ex t sp hk x hx hstop
      · have hm := h3 _ (hc _ (hq.1 _ _ _ hk.symm)).2
        rw [h1] at hx
        rcases List.mem_append.1 hx with hx | hx
        · exact h2 hn x hx
        · obtain ⟨f1, f2, _⟩ := rawToks_facts src (src.length + 1) [] src (by omega) rfl
          have f2 : (rawToks 0 src).Pairwise (fun x y => x.2.stop ≤ y.2.start) := f2
          have f1 : ∀ x ∈ rawToks 0 src, 0 ≤ x.2.start ∧ x.2.start < x.2.stop ∧ x.2.stop ≤ src.length := f1
          have := f1 x (by rw [h1]; exact List.mem_append_right _ hx)
          have h4 := f1 (some t, sp) (by rw [h1]; exact List.mem_append_left _ hm)
          rw [h1] at f2
          have h5 := (List.pairwise_append.1 f2).2.2 _ hm _ hx
          dsimp only at h4 h5
          omega
    · intro ex hk hl
      rcases head_snoc hk with hk | ⟨hn, hk⟩
      · exact h.eof ex hk hl
      · have := hc' (hq.2 _ hk.symm)
        have hnil : ∀ p, rawToks p [] = [] := by
          intro p; rw [rawToks_unfold p]; rfl
        rw [this, hnil, List.append_nil] at h1
        rw [h1]
        exact h2 hn

theorem wr_parseFile [FloatFmt] (src : Bytes) (fuel len : Nat) : Wr src (P.parseFile fuel len (PState.init src)).2 :=
  keepsQ_parseFile seen_sane (fun _ _ => ⟨nofun, nofun⟩) (fun _ _ => ⟨nofun, nofun⟩) (wr_stable src) fuel len _ (wr_init src)

end Verif.Blame
