import Verif.Proofs.CommAt2
import Verif.Proofs.Gaps
import Verif.Props.Locations
/-!
C47: which comments a source location has.
-/
namespace Verif
open Verif.Spec Verif.Ast Verif.Gen Verif.Places

section
variable [FloatFmt] [LocSort]

/-- C47: every location either has no comments at all, or is the location of a piece of source `ts` (tokens one after the
other) and has the detached and leading comments of its first token `a`, and the trailing comment of its last token `e`
(a semicolon or a closing brace) or of the brace that opens its block. -/
theorem C47_locations {name src : Bytes} {fd} (h : parse name src = some (.ok fd)) :
    ∃ locs, fd.sourceCodeInfo = some locs ∧ ∀ loc ∈ locs,
      (loc.leadingComments = none ∧ loc.trailingComments = none ∧ loc.leadingDetachedComments = []) ∨
      ∃ ts a e z, ts <:+: annotated src ∧ ts.head? = some a ∧ ts.getLast? = some e ∧ z ∈ ts ∧
        loc.span = spanNumbers src a.span.start e.span.stop ∧
        ((z = e ∧ (e.tok = .semicolon ∨ e.tok = .rightBrace)) ∨ (z.tok = .leftBrace ∧ e.tok = .rightBrace)) ∧
        loc.leadingDetachedComments = a.detached ∧ loc.leadingComments = a.leading ∧ loc.trailingComments = z.trailing := by
  obtain ⟨f, hrun, ht, hm, locs, h1, h2, h3⟩ := locations_of_ok h
  refine ⟨locs, h1, fun loc hl => ?_⟩
  obtain ⟨r, hr, rfl⟩ := (h3 loc).1 hl
  rcases Pos.rowOf_here (Pos.parseFile_places hrun).2 hr with hc | ⟨ts, a, e, z, k1, k2, k3, k4, k5, k6, k7⟩
  · left; simp only [Row.location, hc]; exact ⟨trivial, trivial, trivial⟩
  · right
    refine ⟨ts, a, e, z, k1, k2, k3, k4, ?_, ?_, ?_, ?_, ?_⟩
    · simp only [Row.location, k7]
    · rcases k5 with ⟨rfl, k5⟩ | k5
      · exact .inl ⟨rfl, k5⟩
      · exact .inr k5
    · simp only [Row.location, k6]
    · simp only [Row.location, k6]
    · simp only [Row.location, k6]

end

/-- C47: the comments of a token `a` are found in the gaps (comments and newlines) around it: detached and leading
comments are the ones that `split` gives for the gap `g` before it, the trailing comment the one for the gap `g'` after
it.  The gaps are maximal: what stands before `g` and after `g'` is a token, or the start or the end of the source. -/
theorem C47_gaps {src : Bytes} {a : ATok} (h : a ∈ annotated src) :
    ∃ pre g g' post, allToks src = pre ++ g ++ (a.tok, a.span) :: (g' ++ post) ∧
      a.tok.isTrivia = false ∧ (∀ x ∈ g, x.1.isTrivia = true) ∧ (∀ x ∈ g', x.1.isTrivia = true) ∧
      (∀ x, pre.getLast? = some x → x.1.isTrivia = false) ∧ (∀ x, post.head? = some x → x.1.isTrivia = false) ∧
      a.detached = (split pre.isEmpty (closes [(a.tok, a.span)]) (g.map (·.1))).detached ∧
      a.leading = (split pre.isEmpty (closes [(a.tok, a.span)]) (g.map (·.1))).leading ∧
      a.trailing = (split false (closes post) (g'.map (·.1))).trailing := by
  obtain ⟨pre, g, post, h1, h2, h3, h4, h5, h6, h7⟩ := annotate_mem (allToks src) [] [] true a h nofun (by simp) nofun
  obtain ⟨g', k1, k2⟩ := gap_append post
  have k3 := trivia_gapOf post
  have hc : closes ((a.tok, a.span) :: post) = closes [(a.tok, a.span)] := rfl
  refine ⟨pre, g, g', afterGap post, by rw [← k1]; simpa using h1, h3, ?_, ?_, h4, ?_, hc ▸ h5, hc ▸ h6, ?_⟩
  · intro x hx; exact h2 _ (List.mem_map_of_mem hx)
  · intro x hx; exact k3 _ (k2 ▸ List.mem_map_of_mem hx)
  · clear h1 h5 h6 h7 k1 k2 k3 hc
    induction post with
    | nil => nofun
    | cons t r ih =>
      unfold afterGap
      split
      · exact ih
      · rename_i ht
        intro x hx
        cases hx
        simpa using ht
  · rw [h7, k2]; rfl

/-- C47: the comments of a gap are all given to the token before it (trailing) or the token after it (detached, leading),
in order, each of them once (`JoinedFrom`: line comments on consecutive lines are joined); or none of them is, if the gap
begins with a block comment and something else follows on the same line. -/
theorem C47_conserved {start closed : Bool} {gap : List Token} (h : ∀ t ∈ gap, t.isTrivia = true) :
    JoinedFrom (split start closed gap).all (commentTexts gap) ∨
    (start = false ∧ split start closed gap = {} ∧ ∃ c r, gap = .blockComment c :: r ∧ r.head? ≠ some .newline) :=
  split_all h

/-- C47: a leading comment ends directly before its token (no blank line between them), which does not close a block. -/
theorem C47_leading {start closed : Bool} {gap : List Token} {t} (hg : ∀ t ∈ gap, t.isTrivia = true)
    (h : (split start closed gap).leading = some t) :
    closed = false ∧ ∃ pre run, gap = pre ++ run ∧ OneComment run t :=
  split_leading hg h

/-- C47: a trailing comment follows a token; it is a line comment on the line of the token, or a block comment that ends
this line, or a comment on the next line; in the last two cases it is separated from the next token, or the next token
closes a block. -/
theorem C47_trailing {start closed : Bool} {gap : List Token} {t} (hg : ∀ t ∈ gap, t.isTrivia = true)
    (h : (split start closed gap).trailing = some t) :
    start = false ∧ ((∃ r, gap = .lineComment t :: r) ∨
      (∃ r, gap = .blockComment t :: .newline :: r ∧ (closed = true ∨ r ≠ [])) ∨
      ∃ run r, gap = .newline :: (run ++ r) ∧ OneComment run t ∧ (closed = true ∨ r ≠ [])) :=
  split_trailing hg h

/-- C47: no comment of a source belongs to two tokens, or twice to the same: the comments of all the tokens are a selection
of the comments in the source, in order (with line comments on consecutive lines joined). -/
theorem C47_once (src : Bytes) :
    ∃ inp, JoinedFrom ((annotated src).flatMap fun a => a.detached ++ a.leading.toList ++ a.trailing.toList) inp ∧
      inp.Sublist (commentTexts ((allToks src).map (·.1))) := by
  have := annotate_joined (allToks src) [] true nofun
  obtain ⟨inp, h1, h2⟩ := this
  have ht : (split true (closes (afterGap (allToks src))) ([] ++ gapOf (allToks src))).trailing = none := (before_all _ _).2
  rw [ht] at h1
  exact ⟨inp, by simpa [annotated] using h1, by simpa using h2⟩

namespace Demo
set_option synthInstance.maxHeartbeats 400000
set_option synthInstance.maxSize 1000

/-- The locations of a source that have comments: path, detached, leading, trailing. -/
def commentsOf (src : Bytes) : Option (List (List Int × List Bytes × Option Bytes × Option Bytes)) :=
  ofFile src fun fd => ((fd.sourceCodeInfo.getD []).map fun l =>
    (l.path, l.leadingDetachedComments, l.leadingComments, l.trailingComments)).filter fun x => !(x.2.1.isEmpty && x.2.2.1.isNone && x.2.2.2.isNone)

/-- Detached, leading and trailing comments of a message and of its fields. -/
example : commentsOf b!"// d1\n// d2\n\n/* d3 */\n\n// l1\n// l2\nmessage M { // tm\n optional int32 a = 1; // ta\n // lb\n optional int32 b = 2;\n // tb\n}" =
    some [([4, 0], [b!" d1\n d2\n", b!" d3 "], some b!" l1\n l2\n", some b!" tm\n"),
      ([4, 0, 2, 0], [], none, some b!" ta\n"), ([4, 0, 2, 1], [], some b!" lb\n", some b!" tb\n")] := by decide +kernel

/-- A comment on the next line that touches the next element is its leading comment; after a closing brace on the same
line no trailing comment is recorded. -/
example : commentsOf b!"message A {}\n// x\n\nmessage B {}\n// y\nmessage C {}" = some [([4, 2], [], some b!" y\n", none)] := by
  decide +kernel

/-- A comment on the next line that does not touch the next element is a trailing comment. -/
example : commentsOf b!"import 'a';\n// x\n\nmessage B {}\n// y\nmessage C {}" =
    some [([3, 0], [], none, some b!" x\n"), ([4, 1], [], some b!" y\n", none)] := by decide +kernel

/-- A block comment with something else after it on its line: none of the comments is recorded. -/
example : commentsOf b!"import 'a'; /* x */ // y\n\n// z\nmessage B {}" = some [] := by decide +kernel

end Demo
end Verif
