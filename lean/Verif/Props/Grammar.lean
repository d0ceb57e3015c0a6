import Verif.Props.Names
import Verif.Proofs.Project
/-! C48: comments and layout do not change the meaning. C49: the parser accepts exactly the grammar. -/
namespace Verif
open Verif.Spec Verif.Ast Verif.Gen Verif.Grammar Verif.Parse

/-- The significant tokens of a source without their positions (`none`: text that is no token). -/
def words (src : Bytes) : List (Option Token) := (sigToks 0 src).map (·.map (·.1))

section
variable [FloatFmt]

theorem words_of {src : Bytes} {ts : List STok} (h : sigToks 0 src = ts.map some) : words src = (ts.map (·.1)).map some := by
  simp [words, h, Function.comp_def]

/-- The trees of a source depend only on its words. -/
theorem tree_iff {src : Bytes} {f : File} : TreeOf src f ↔ ∃ ws : List Token, words src = ws.map some ∧ FileG ws f := by
  constructor
  · rintro ⟨ts, h1, h2⟩
    exact ⟨_, words_of h1, h2⟩
  · rintro ⟨ws, h1, h2⟩
    have : ∀ (l : List (Option STok)) (ws : List Token), l.map (·.map (·.1)) = ws.map some →
        ∃ ts : List STok, l = ts.map some ∧ ts.map (·.1) = ws := by
      intro l
      induction l with
      | nil => intro ws h; cases ws with
        | nil => exact ⟨[], rfl, rfl⟩
        | cons => cases h
      | cons x l ih =>
        intro ws h
        cases ws with
        | nil => cases h
        | cons w ws =>
          simp only [List.map_cons, List.cons.injEq] at h
          obtain ⟨ts, h3, h4⟩ := ih ws h.2
          cases x with
          | none => cases h.1
          | some t =>
            refine ⟨t :: ts, by rw [h3]; rfl, ?_⟩
            rw [List.map_cons, h4]
            congr
            exact Option.some.inj h.1
    obtain ⟨ts, h3, h4⟩ := this _ ws h1
    exact ⟨ts, h3, h4 ▸ h2⟩

/-- C49: the parser accepts a source exactly if it lexes without errors and its words derive a file in the grammar. -/
theorem C49_accepts (src : Bytes) : (∃ f, parseFile src = .ok (.ok f)) ↔
    lexOk src = true ∧ ∃ ws f, words src = ws.map some ∧ FileG ws f := by
  rw [parseFile_accepts]
  refine and_congr Iff.rfl ⟨?_, ?_⟩
  · rintro ⟨f, h⟩
    obtain ⟨ws, h1, h2⟩ := tree_iff.1 h
    exact ⟨ws, f, h1, h2⟩
  · rintro ⟨ws, f, h1, h2⟩
    exact ⟨f, tree_iff.2 ⟨ws, h1, h2⟩⟩

/-- C49: the tree returned is one the grammar derives, and the only one up to source positions and comments. -/
theorem C49_tree {src : Bytes} {f : File} (h : parseFile src = .ok (.ok f)) :
    TreeOf src f ∧ ∀ g, TreeOf src g → er g = er f := by
  have ht : TreeOf src f := by
    rcases parseFile_spec src with ⟨errs, h1, _⟩ | ⟨f', ts, h1, h2, h3, _⟩
    · rw [h] at h1; cases h1
    · rw [h] at h1; cases h1
      exact ⟨ts, h2, h3⟩
  exact ⟨ht, fun g hg => tree_unique hg ht⟩

/-- C49: the tree returned, with all its source positions and comments, is exactly the one that the grammar with places and
comments (`PlacedTree`, Spec/Places.lean) assigns to the source. -/
theorem C49_exact (src : Bytes) (f : File) : parseFile src = .ok (.ok f) ↔ lexOk src = true ∧ PlacedTree src f :=
  Pos.parseFile_iff

/-- C49: no accepted source has two trees with places and comments. -/
theorem C49_one_tree {src : Bytes} {f g : File} (hl : lexOk src = true) (hf : PlacedTree src f) (hg : PlacedTree src g) : f = g :=
  Pos.parseFile_unique ((C49_exact src f).2 ⟨hl, hf⟩) hg

/-- C49: the grammar is unambiguous on the words of any source. -/
theorem C49_unambiguous {src : Bytes} {ws : List Token} {f g : File} (h : words src = ws.map some) (hf : FileG ws f)
    (hg : FileG ws g) : er f = er g :=
  tree_unique (tree_iff.2 ⟨ws, h, hf⟩) (tree_iff.2 ⟨ws, h, hg⟩)

variable [LocSort]

/-- C49: a source without a derivation, or with lexical errors, is rejected by `parse`. -/
theorem C49_rejects {name src : Bytes} {fd} (h : parse name src = some (.ok fd)) :
    lexOk src = true ∧ ∃ f, TreeOf src f := by
  obtain ⟨_, h1, f, h2, _⟩ := parse_accepts.1 ⟨fd, h⟩
  exact ⟨h1, f, h2⟩

/-- C48: two accepted sources with the same words have the same descriptor, apart from `source_code_info`. -/
theorem C48_same_descriptor {name src src' : Bytes} {fd fd'} (hw : words src = words src')
    (h : parse name src = some (.ok fd)) (h' : parse name src' = some (.ok fd')) :
    { fd with sourceCodeInfo := none } = { fd' with sourceCodeInfo := none } := by
  obtain ⟨f, ht, hm, _⟩ := tree_of_ok h
  have ht' : TreeOf src' f := by
    obtain ⟨ws, h1, h2⟩ := tree_iff.1 ht
    exact tree_iff.2 ⟨ws, hw ▸ h1, h2⟩
  exact hm.desc.trans (made_of_tree h' ht').desc.symm

/-- C48: of two sources with the same words, if one is accepted so is the other, provided it is not too long and its
comments (and other text) lex without errors. -/
theorem C48_same_acceptance {name src src' : Bytes} {fd} (hw : words src = words src')
    (h : parse name src = some (.ok fd)) (hlen : src'.length ≤ 2147483647) (hlex : lexOk src' = true) :
    ∃ fd', parse name src' = some (.ok fd') := by
  obtain ⟨_, _, f, ht, he⟩ := parse_accepts.1 ⟨fd, h⟩
  obtain ⟨ws, h1, h2⟩ := tree_iff.1 ht
  exact parse_accepts.2 ⟨hlen, hlex, f, tree_iff.2 ⟨ws, hw ▸ h1, h2⟩, he⟩

end

namespace Demo

/-- Two layouts of the same words. -/
def tight : Bytes := b!"message A{optional B x=1[default=C];}"
def loose : Bytes := b!"// A\nmessage A {\n\n  /* first */ optional B\n x = 1 // number\n [ default = C ] ;\n}\n// end\n"

example : words tight = words loose ∧ accepts tight = true ∧ accepts loose = true := by decide +kernel
example : lexOk tight = true ∧ lexOk loose = true := by decide +kernel
example : words tight = [.ident b!"message", .ident b!"A", .leftBrace, .ident b!"optional", .ident b!"B", .ident b!"x",
    .equals, .int 1, .leftBracket, .ident b!"default", .equals, .ident b!"C", .rightBracket, .semicolon,
    .rightBrace].map some := by decide +kernel

/-- `#` comments are lexical errors outside aggregate values: same words, not accepted. -/
def hashed : Bytes := b!"message A{optional B x=1[default=C];} # end"
example : words hashed = words tight ∧ lexOk hashed = false ∧ rejects hashed = true := by decide +kernel
example : lexOk b!"option (x) = { a: 1.5f # ok\n };" = true := by decide +kernel

/-- The hypotheses of C49 are met: this source has a tree. -/
example : ∃ f, TreeOf loose f := by
  have h : accepts loose = true := by decide +kernel
  unfold accepts at h
  split at h
  · rename_i fd hp; exact (C49_rejects hp).2
  · cases h

end Demo
end Verif
