import Verif.Proofs.Cpl6
import Verif.Spec.Source
/-! Completeness of the parser as a whole. -/
namespace Verif.Parse
open Lex Verif.Ast Verif.Grammar Verif.Spec

section
variable [FloatFmt]

theorem statement_noSyntax {t : List Token} {p p' : Parts} (h : StatementG t p p') : t.head? ≠ some (kw b!"syntax") := by
  cases h with
  | package h => obtain ⟨_, rfl⟩ := package_head h; exact nofun
  | import' h => obtain ⟨_, rfl⟩ := import_head h; exact nofun
  | option h => obtain ⟨_, rfl⟩ := option_head h; exact nofun
  | extend h => obtain ⟨_, rfl⟩ := extend_head h; exact nofun
  | message h => obtain ⟨_, rfl⟩ := message_head h; exact nofun
  | enum h => obtain ⟨_, rfl⟩ := enum_head h; exact nofun
  | service h => obtain ⟨_, rfl⟩ := service_head h; exact nofun
  | empty => exact nofun

theorem init_Rc {src : Bytes} {ts : List STok} (h : sigToks 0 src = ts.map some) :
    Rc src.length (lexOk src = true) (PState.init src) (At' (ts.map (·.1)) false false) := by
  refine ⟨⟨ts, rfl, ?_⟩, rfl, ?_⟩
  · have := init_R src false nofun
    rw [h] at this
    exact this
  · simp [PState.init, modeAt, okFrom, lexOk]

theorem er_file {a b : File} (h1 : a.syntax' = b.syntax') (h2 : a.syntaxSpan.isSome = b.syntaxSpan.isSome) (h3 : er a.package = er b.package)
    (h4 : er a.imports = er b.imports) (h5 : er a.options = er b.options) (h6 : er a.items = er b.items) : er a = er b := by
  show File.mk _ _ _ _ _ _ _ = File.mk _ _ _ _ _ _ _
  have h7 : er a.syntaxSpan = er b.syntaxSpan := by
    cases ha : a.syntaxSpan <;> cases hb : b.syntaxSpan <;> rw [ha, hb] at h2 <;> first | rfl | cases h2
  rw [h1, h7, h3, h4, h5, h6]; rfl

/-- The run of the parser on a source the grammar derives. -/
theorem parseFile_run {src : Bytes} {f : File} (h : TreeOf src f) :
    ∃ f' s', P.parseFile (src.length + 3) src.length (PState.init src) = (.ok f', s') ∧ er f' = er f ∧ s'.rest = [] ∧
      Rc src.length (lexOk src = true) s' (At' [] false false) := by
  obtain ⟨ts, hts, hg⟩ := h
  have hR := init_Rc hts
  have hlen := sigToks_length (src.length + 1) 0 src (by omega)
  rw [hts, List.length_map] at hlen
  have hloop : ∀ (us : List Token) (p : Parts) (s1 : PState) (pk : Bool) (sp : Span), Many StatementG us {} p → us.length ≤ src.length + 1 →
      Rc src.length (lexOk src = true) s1 (At' us pk false) →
      ∃ acc' s', P.fileLoop (src.length + 3) (src.length + 3) { span := sp } s1 = (.ok acc', s') ∧ SameParts acc' p ∧
        Rc src.length (lexOk src = true) s' (At' [] false false) ∧ s'.rest = [] := by
    intro us p s1 pk sp hm hl hR1
    obtain ⟨acc', s', e1, h1, h2⟩ := fileLoop_cpl (n := src.length) (fuel := src.length + 3) (by omega) us {} p hm { span := sp } s1 pk
      (src.length + 3) ⟨rfl, rfl, rfl, rfl⟩ hl (by omega) hR1
    exact ⟨acc', s', e1, h1, h2, fileLoop_end _ _ _ _ _ e1⟩
  generalize hus : ts.map (·.1) = us at hg hR
  have hul : us.length ≤ src.length := by rw [← hus, List.length_map]; exact hlen
  cases hg with
  | @noSyntax us p sp hm =>
    have hw : wpc (parseHeader (src.length + 3) src.length) (fun r st => r.1 = .proto2 ∧ r.2.1 = none ∧ ∃ pk, st = At' us pk false)
        (At' us false false) := by
      unfold parseHeader
      cases us with
      | nil =>
        rw [wpc_bind, wpc_peek_nil]
        exact ⟨rfl, rfl, _, rfl⟩
      | cons t r =>
        refine peek_b fun sp => ?_
        dsimp only
        have h0 : t ≠ Parse.kw b!"syntax" := by
          rintro rfl
          rcases many_cons_inv hm with h | ⟨t1, r1, _, h, h1, _⟩
          · cases h
          · have := statement_noSyntax h1
            have hne := statement_ne h1
            cases t1 with
            | nil => exact hne rfl
            | cons a b => cases h; exact this rfl
        rw [if_neg h0]
        exact ⟨rfl, rfl, _, rfl⟩
    obtain ⟨⟨syn, ss, sp1⟩, s1, st1, e1, hR1, h1, h2, pk, rfl⟩ := run_complete _ hR hw
    simp only at h1 h2
    subst h1 h2
    obtain ⟨acc', s', e2, h3, h4, h5⟩ := hloop us p s1 pk sp1 hm (by omega) hR1
    refine ⟨⟨acc'.span, .proto2, none, acc'.package, acc'.imports, acc'.options, acc'.items⟩, s', ?_, ?_, h5, h4⟩
    · unfold P.parseFile
      rw [bind_eq, e1]
      dsimp only
      rw [bind_eq, e2]
      rfl
    · exact er_file rfl rfl h3.package h3.imports h3.options h3.items
  | @withSyntax sts s us p sp ssp hs hm =>
    have hw : wpc (parseHeader (src.length + 3) src.length) (fun r st => r.1 = s ∧ r.2.1.isSome = true ∧ ∃ pk, st = At' us pk false)
        (At' (sts ++ us) false false) := by
      unfold parseHeader
      have : ∃ r, sts = kw b!"syntax" :: r := by cases hs <;> exact ⟨_, rfl⟩
      obtain ⟨r, hr⟩ := this
      rw [show sts ++ us = kw b!"syntax" :: (r ++ us) by rw [hr]; rfl]
      refine peek_b fun sp => ?_
      dsimp only
      rw [if_pos rfl, ← List.cons_append, ← hr]
      refine syntax_b (n := src.length) (by omega) hs hul fun sp c pk' => ?_
      exact ⟨rfl, rfl, _, rfl⟩
    obtain ⟨⟨syn, ss, sp1⟩, s1, st1, e1, hR1, h1, h2, pk, rfl⟩ := run_complete _ hR hw
    simp only at h1 h2
    subst h1
    rw [List.length_append] at hul
    obtain ⟨acc', s', e2, h3, h4, h5⟩ := hloop us p s1 pk sp1 hm (by omega) hR1
    refine ⟨⟨acc'.span, syn, ss, acc'.package, acc'.imports, acc'.options, acc'.items⟩, s', ?_, ?_, h5, h4⟩
    · unfold P.parseFile
      rw [bind_eq, e1]
      dsimp only
      rw [bind_eq, e2]
      rfl
    · exact er_file rfl (by simpa using h2) h3.package h3.imports h3.options h3.items

/-- The parser returns the tree the grammar derives, and records an error only if there is one in lexing. -/
theorem parseFile_complete {src : Bytes} {f : File} (h : TreeOf src f) :
    ∃ f', er f' = er f ∧ (lexOk src = true → parseFile src = .ok (.ok f')) ∧
      (lexOk src = false → ∃ errs, parseFile src = .ok (.error errs)) := by
  obtain ⟨f', s', e1, e2, hr, hR'⟩ := parseFile_run h
  have hc : lexOk src = true ↔ s'.errs = [] := by
    have hpk : s'.peek = none := by
      obtain ⟨ts', _, hR''⟩ := hR'.r
      have := hR''.peeked
      simp only at this
      cases hp : s'.peek with
      | none => rfl
      | some x => rw [hp] at this; cases this
    rw [hR'.clean, hpk, hr]
    have : okFrom (modeAt (.top false) none) s'.pos [] = true := by
      rw [okFrom_unfold]
      simp [Lex.next]
    rw [this]
    simp
  refine ⟨f', e2, fun hl => ?_, fun hl => ?_⟩
  · unfold parseFile
    rw [e1]
    simp only [hc.1 hl, if_true]
  · have : s'.errs ≠ [] := fun h0 => by rw [hc.2 h0] at hl; cases hl
    refine ⟨s'.errs, ?_⟩
    unfold parseFile
    rw [e1]
    simp only [this, if_false]

/-- A tree of a source is unique, apart from positions and comments. -/
theorem tree_unique {src : Bytes} {f g : File} (hf : TreeOf src f) (hg : TreeOf src g) : er f = er g := by
  obtain ⟨f', _, h1, e1, _⟩ := parseFile_run hf
  obtain ⟨g', _, h2, e2, _⟩ := parseFile_run hg
  rw [h1] at h2
  cases h2
  rw [← e1, ← e2]

/-- The sources the parser accepts. -/
theorem parseFile_accepts {src : Bytes} :
    (∃ f, parseFile src = .ok (.ok f)) ↔ lexOk src = true ∧ ∃ f, TreeOf src f := by
  constructor
  · rintro ⟨f, h⟩
    have ht : TreeOf src f := by
      rcases parseFile_spec src with ⟨errs, h1, _⟩ | ⟨f', ts, h1, h2, h3, _⟩
      · rw [h] at h1; cases h1
      · rw [h] at h1; cases h1
        exact ⟨ts, h2, h3⟩
    refine ⟨?_, f, ht⟩
    obtain ⟨f', _, _, h2⟩ := parseFile_complete ht
    cases hl : lexOk src with
    | true => rfl
    | false =>
      obtain ⟨errs, h3⟩ := h2 hl
      rw [h] at h3; cases h3
  · rintro ⟨hl, f, h⟩
    obtain ⟨f', _, h1, _⟩ := parseFile_complete h
    exact ⟨f', h1 hl⟩

end
end Verif.Parse
