import Verif.Proofs.Concat2
import Verif.Proofs.ErDesc
import Verif.Proofs.Accept
import Verif.Spec.Joined
/-! A source that consists of two, each with its tokens. -/
namespace Verif.Parse
open Lex Verif.Ast Verif.Grammar Verif.Spec

/-- The tokens, without their places. -/
def toksOf (pos : Nat) (s : Bytes) : List (Option Token) := (sigToks pos s).map (Option.map (·.1))

theorem toksOf_pos : ∀ (k : Nat) {s : Bytes}, s.length < k → ∀ pos pos', toksOf pos s = toksOf pos' s
  | 0, _, h => absurd h (Nat.not_lt_zero _)
  | k + 1, s, hk => by
    intro pos pos'
    obtain ⟨e1, e2, _, _⟩ := next_indep false false pos pos' s [] []
    have hlt := next_rest_lt' false pos s
    have one : ∀ (o : Option Token) (sp sp' : Span) (p p' : Nat) (r : Bytes), toksOf p r = toksOf p' r →
        (significant ((o, sp) :: rawToks p r)).map (Option.map (·.1)) = (significant ((o, sp') :: rawToks p' r)).map (Option.map (·.1)) := by
      intro o sp sp' p p' r h
      have c : ∀ sp p, significant ((o, sp) :: rawToks p r) = significant [(o, sp)] ++ sigToks p r := fun sp p => significant_append [_] _
      rw [c, c, List.map_append, List.map_append]
      refine congr (congrArg _ ?_) h
      cases o with
      | none => rfl
      | some t => cases ht : t.isTrivia <;> simp [significant, ht]
    show (significant (rawToks pos s)).map _ = (significant (rawToks pos' s)).map _
    rw [rawToks_unfold pos, rawToks_unfold pos', ← e1, ← e2]
    cases hr : (next false pos s []).res with
    | eof => rfl
    | tok t => exact one _ _ _ _ _ _ (toksOf_pos k (by have := hlt (by simp [hr]); omega) _ _)
    | error => exact one _ _ _ _ _ _ (toksOf_pos k (by have := hlt (by simp [hr]); omega) _ _)

section
variable [FloatFmt]

theorem treeOf_iff {src : Bytes} {f : File} : TreeOf src f ↔ ∃ ts : List Token, toksOf 0 src = ts.map some ∧ FileG ts f := by
  constructor
  · rintro ⟨ts, h, hg⟩
    exact ⟨ts.map (·.1), by rw [toksOf, h]; simp, hg⟩
  · rintro ⟨ts, h, hg⟩
    have : ∀ (l : List (Option STok)) (ts : List Token), l.map (Option.map (·.1)) = ts.map some → ∃ us : List STok, l = us.map some ∧ us.map (·.1) = ts := by
      intro l
      induction l with
      | nil => intro ts h; cases ts with
        | nil => exact ⟨[], rfl, rfl⟩
        | cons => cases h
      | cons x l ih => intro ts h; cases ts with
        | nil => cases h
        | cons t ts =>
          simp only [List.map_cons, List.cons.injEq] at h
          obtain ⟨us, rfl, rfl⟩ := ih ts h.2
          cases x with
          | none => cases h.1
          | some x => exact ⟨x :: us, rfl, by have := h.1; simp only [Option.map_some, Option.some.injEq] at this; simp [this]⟩
    obtain ⟨us, h1, h2⟩ := this _ _ h
    exact ⟨us, h1, h2 ▸ hg⟩

/-- Lexing a text that is a file by itself and, on a new line, another text. -/
theorem lex_cat {a b : Bytes} {f : File} (hl : lexOk a = true) (ht : TreeOf a f) :
    lexOk (joinLines a b) = lexOk b ∧ toksOf 0 (joinLines a b) = toksOf 0 a ++ toksOf 0 b := by
  obtain ⟨ts, h1, h2⟩ := ht
  obtain ⟨g1, g2⟩ := ok_app b (a.length + 1) (Nat.lt_succ_self _) (m := .top false) (pos := 0) hl
  have e : joinLines a b = a ++ 10 :: b := by simp [joinLines]
  have hm : ∀ (ts : List STok) m, modeAfter m (ts.map some) = (ts.map (·.1)).foldl Mode.step m := by
    intro ts
    induction ts with
    | nil => intro m; rfl
    | cons t ts ih => intro m; exact ih _
  rw [h1, hm, file_mode h2, okFrom_pos _ (0 + a.length + 1) 0] at g1
  rw [e]
  refine ⟨g1, ?_⟩
  rw [toksOf, g2, List.map_append]
  exact congrArg _ (toksOf_pos _ (Nat.lt_succ_self _) _ _)

/-- The tree of a file with more statements behind it. -/
def _root_.Verif.Ast.File.more (f : File) (q : Parts) : File :=
  ⟨f.span, f.syntax', f.syntaxSpan, f.package.or q.package, f.imports ++ q.imports, f.options ++ q.options, f.items ++ q.items⟩

theorem file_more {ts us : List Token} {f : File} {q : Parts} (h : FileG ts f) (hq : Many StatementG us {} q)
    (hp : f.package = none ∨ q.package = none) : FileG (ts ++ us) (f.more q) := by
  cases h with
  | @noSyntax ts p sp h =>
    have := many_append h (join_nil p ▸ many_unshift hq p hp)
    exact FileG.noSyntax (p := p.join q) this
  | @withSyntax ss s ts p sp ssp hs h =>
    have := many_append h (join_nil p ▸ many_unshift hq p hp)
    rw [List.append_assoc]
    exact FileG.withSyntax (p := p.join q) hs this

theorem many_noSyntax {ts us : List Token} {p q : Parts} (h : Many StatementG ts p q) (hne : ts ≠ []) : (ts ++ us).head? ≠ some (kw b!"syntax") := by
  rcases many_cons_inv h with h0 | ⟨t1, r1, _, e, h1, _⟩
  · exact absurd h0 hne
  · subst e
    have h2 := statement_noSyntax h1
    have hne := statement_ne h1
    cases t1 with
    | nil => exact absurd rfl hne
    | cons a b => exact h2

omit [FloatFmt] in
theorem syntax_head {ss us : List Token} {s} (h : SyntaxG ss s) : (ss ++ us).head? = some (kw b!"syntax") := by
  cases h <;> rfl

/-- If the beginning is a file by itself (and not empty), what follows are statements. -/
theorem file_split {ts us : List Token} {f g : File} (h : FileG ts f) (hg : FileG (ts ++ us) g) (hne : ts ≠ []) :
    ∃ f' q, FileG ts f' ∧ Many StatementG us {} q ∧ (f'.package = none ∨ q.package = none) ∧ g = f'.more q := by
  generalize hx : ts ++ us = xs at hg
  cases h with
  | @noSyntax ts p sp hm =>
    cases hg with
    | @noSyntax xs r sp' hg =>
      subst hx
      obtain ⟨q', h1, h2⟩ := many_split hm hg
      obtain ⟨d, h3, h4, h5⟩ := many_shift h2
      subst h4
      exact ⟨_, d, FileG.noSyntax (sp := sp') h1, h3, h5, rfl⟩
    | @withSyntax ss s xs r sp' ssp hs hg =>
      exact absurd (hx ▸ syntax_head hs) (many_noSyntax hm hne)
  | @withSyntax ss s ts p sp ssp hs hm =>
    cases hg with
    | @noSyntax xs r sp' hg =>
      refine absurd ?_ (many_noSyntax (us := []) hg ?_)
      · rw [← hx, List.append_assoc, List.append_assoc]; exact syntax_head hs
      · rintro rfl; exact hne (List.append_eq_nil_iff.1 hx).1
    | @withSyntax ss' s' xs r sp' ssp' hs' hg =>
      rw [List.append_assoc] at hx
      obtain ⟨rfl, rfl⟩ := syntax_det hs hs' hx
      obtain ⟨q', h1, h2⟩ := many_split hm hg
      obtain ⟨d, h3, h4, h5⟩ := many_shift h2
      subst h4
      exact ⟨_, d, FileG.withSyntax (sp := sp') (ssp := ssp') hs' h1, h3, h5, rfl⟩

end
end Verif.Parse
