import Verif.Proofs.Concat
import Verif.Proofs.Cpl7
/-! The statements of a file that is put together from two: the grammar splits where the files do, and aggregate values do not
reach from one to the other. -/
namespace Verif.Parse
open Lex Verif.Ast Verif.Grammar

/-- A method that succeeds takes some tokens, and the mode changes along. -/
theorem wpc_trace {α : Type} (p : Prog α) {Q : α → TS → Prop} {st : TS} (h : wpc p Q st) :
    ∃ a st' used, Q a st' ∧ st.toks = used ++ st'.toks ∧ st'.mode = used.foldl Mode.step st.mode := by
  induction p generalizing st with
  | ret a => exact ⟨a, st, [], h, rfl, rfl⟩
  | peekThen k ih => exact ih _ (st := st.look) (h.2 ⟨0, 0⟩)
  | peekSkipThen k ih => exact ih _ (st := st.look) (h.2 ⟨0, 0⟩)
  | bumpThen k ih =>
    simp only [wpc] at h
    split at h
    · rename_i t r heq
      obtain ⟨a, st', used, h1, h2, h3⟩ := ih _ (h.2 ⟨0, 0⟩)
      refine ⟨a, st', t :: used, h1, ?_, h3⟩
      rw [heq]
      exact congrArg (t :: ·) h2
    · exact h.elim
  | addErrorThen e k ih => exact h.elim
  | leadingThen k ih => exact ih _ (st := st.look) (h.2 default)
  | trailingThen l k ih => exact ih _ (st := st.look) (h.2 default)
  | setTextModeThen b k ih => exact ih (st := { st with tf := b }) h.2
  | assertNoPeekThen k ih => exact ih h.2
  | failed => exact h.elim
  | panicked => exact h.elim
  | outOfFuel => exact h.elim

theorem wpc_and {α : Type} (p : Prog α) {Q Q' : α → TS → Prop} {st : TS} (h : wpc p Q st) (h' : wpc p Q' st) :
    wpc p (fun a st => Q a st ∧ Q' a st) st := by
  induction p generalizing st with
  | ret a => exact ⟨h, h'⟩
  | peekThen k ih => exact ⟨h.1, fun sp => ih _ (h.2 sp) (h'.2 sp)⟩
  | peekSkipThen k ih => exact ⟨h.1, fun sp => ih _ (h.2 sp) (h'.2 sp)⟩
  | bumpThen k ih =>
    simp only [wpc] at h h' ⊢
    split at h
    · rename_i heq
      rw [heq] at h'
      exact ⟨h.1, fun sp => ih _ (h.2 sp) (h'.2 sp)⟩
    · exact h.elim
  | addErrorThen e k ih => exact h.elim
  | leadingThen k ih => exact ⟨h.1, fun sp => ih _ (h.2 sp) (h'.2 sp)⟩
  | trailingThen l k ih => exact ⟨h.1, fun sp => ih _ (h.2 sp) (h'.2 sp)⟩
  | setTextModeThen b k ih => exact ⟨h.1, ih h.2 h'.2⟩
  | assertNoPeekThen k ih => exact ⟨h.1, ih h.2 h'.2⟩
  | failed => exact h.elim
  | panicked => exact h.elim
  | outOfFuel => exact h.elim

section
variable [FloatFmt]

/-- A statement ends outside of aggregate values. -/
theorem statement_mode {t : List Token} {p p' : Parts} (h : StatementG t p p') : t.foldl Mode.step (.top false) = .top false := by
  have hw := statement_cpl (n := t.length) (fuel := t.length + 2) (rest := []) (acc := ⟨⟨0, 0⟩, p.package, p.imports, p.options, p.items⟩) (pk := false)
    (by omega) h ⟨rfl, rfl, rfl, rfl⟩ (by simp)
  obtain ⟨a, st', used, ⟨_, pk', _, _, _, rfl⟩, h2, h3⟩ := wpc_trace _ hw
  simp only [List.append_nil] at h2
  subst h2
  exact h3.symm

theorem many_mode {ts : List Token} {p p' : Parts} (h : Many StatementG ts p p') : ts.foldl Mode.step (.top false) = .top false := by
  induction h with
  | nil => rfl
  | cons h _ ih => rw [List.foldl_append, statement_mode h, ih]

omit [FloatFmt] in
theorem strs_mode : ∀ (ps : List Bytes) (b : Bool), ∃ b', (ps.map Token.string).foldl Mode.step (.top b) = .top b'
  | [], b => ⟨b, rfl⟩
  | p :: ps, b => by
    have : Mode.step (.top b) (.string p) = .top false := by cases b <;> rfl
    rw [List.map_cons, List.foldl_cons, this]
    exact strs_mode ps false

omit [FloatFmt] in
theorem syntax_mode {ss : List Token} {s} (h : SyntaxG ss s) : ss.foldl Mode.step (.top false) = .top false := by
  have key : ∀ ts v, StrG ts v → (kw b!"syntax" :: .equals :: ts ++ [Token.semicolon]).foldl Mode.step (.top false) = .top false := by
    rintro ts v ⟨ps, _, rfl, _⟩
    obtain ⟨b, hb⟩ := strs_mode ps true
    have e1 : Mode.step (.top false) (kw b!"syntax") = .top false := rfl
    have e2 : Mode.step (.top false) .equals = .top true := rfl
    have e3 : (kw b!"syntax" :: .equals :: ps.map Token.string).foldl Mode.step (.top false) = .top b := by
      rw [List.foldl_cons, e1, List.foldl_cons, e2, hb]
    rw [List.foldl_append, e3]
    cases b <;> rfl
  cases h with
  | proto2 h => exact key _ _ h
  | proto3 h => exact key _ _ h

theorem file_mode {ts : List Token} {f : File} (h : FileG ts f) : ts.foldl Mode.step (.top false) = .top false := by
  cases h with
  | noSyntax h => exact many_mode h
  | withSyntax hs h => rw [List.foldl_append, syntax_mode hs, many_mode h]

/-- Where a statement ends is determined by the tokens. -/
theorem statement_det {t t' rest rest' : List Token} {p p' q q' : Parts} (h : StatementG t p p') (h' : StatementG t' q q')
    (e : t ++ rest = t' ++ rest') : t = t' ∧ rest = rest' := by
  have w1 := statement_cpl (n := (t ++ rest).length) (fuel := (t ++ rest).length + 2) (rest := rest) (acc := ⟨⟨0, 0⟩, p.package, p.imports, p.options, p.items⟩) (pk := false)
    (by omega) h ⟨rfl, rfl, rfl, rfl⟩ (by omega)
  have w2 := statement_cpl (n := (t' ++ rest').length) (fuel := (t' ++ rest').length + 2) (rest := rest') (acc := ⟨⟨0, 0⟩, q.package, q.imports, q.options, q.items⟩) (pk := false)
    (by omega) h' ⟨rfl, rfl, rfl, rfl⟩ (by omega)
  rw [← e] at w2
  obtain ⟨a, st', used, ⟨⟨_, _, _, _, _, e1⟩, ⟨_, _, _, _, _, e2⟩⟩, _, _⟩ := wpc_trace _ (wpc_and _ w1 w2)
  have hr : rest = rest' := congrArg TS.toks (e1.symm.trans e2)
  subst hr
  exact ⟨List.append_cancel_right e, rfl⟩

omit [FloatFmt] in
theorem syntax_det {ss ss' rest rest' : List Token} {s s'} (h : SyntaxG ss s) (h' : SyntaxG ss' s') (e : ss ++ rest = ss' ++ rest') :
    ss = ss' ∧ rest = rest' := by
  have shape : ∀ {ss s}, SyntaxG ss s → ∃ ps : List Bytes, ss = kw b!"syntax" :: .equals :: ps.map Token.string ++ [.semicolon] := by
    intro ss s h
    cases h with
    | proto2 h => obtain ⟨ps, _, rfl, _⟩ := h; exact ⟨ps, rfl⟩
    | proto3 h => obtain ⟨ps, _, rfl, _⟩ := h; exact ⟨ps, rfl⟩
  obtain ⟨ps, rfl⟩ := shape h
  obtain ⟨ps', rfl⟩ := shape h'
  have key : ∀ (ps ps' : List Bytes), ps.map Token.string ++ .semicolon :: rest = ps'.map Token.string ++ .semicolon :: rest' → ps = ps' ∧ rest = rest' := by
    intro ps
    induction ps with
    | nil =>
      intro ps' h
      cases ps' with
      | nil => simp at h; exact ⟨rfl, h⟩
      | cons x xs => simp at h
    | cons x xs ih =>
      intro ps' h
      cases ps' with
      | nil => simp at h
      | cons y ys =>
        simp only [List.map_cons, List.cons_append, List.cons.injEq, Token.string.injEq] at h
        obtain ⟨rfl, h⟩ := h
        obtain ⟨e1, e2⟩ := ih ys h
        exact ⟨by rw [e1], e2⟩
  simp only [List.cons_append, List.append_assoc, List.nil_append, List.cons.injEq, true_and] at e
  obtain ⟨rfl, h⟩ := key _ _ e
  exact ⟨rfl, h⟩

/-! ## Parts -/

/-- One part and then another. -/
def _root_.Verif.Grammar.Parts.join (p q : Parts) : Parts :=
  ⟨p.package.or q.package, p.imports ++ q.imports, p.options ++ q.options, p.items ++ q.items⟩

omit [FloatFmt] in
theorem join_nil (p : Parts) : p.join {} = p := by
  simp [Parts.join]

omit [FloatFmt] in
theorem join_assoc (p q r : Parts) : (p.join q).join r = p.join (q.join r) := by
  simp [Parts.join, Option.or_assoc]

/-- What a statement contributes does not depend on what is there. -/
theorem statement_shift {t : List Token} {p p' : Parts} (h : StatementG t p p') :
    ∃ d, StatementG t {} d ∧ p' = p.join d ∧ (p.package = none ∨ d.package = none) := by
  cases h with
  | package h hp => exact ⟨_, .package h rfl, by simp [Parts.join, hp], .inl hp⟩
  | import' h => exact ⟨_, .import' h, by simp [Parts.join], .inr rfl⟩
  | option h => exact ⟨_, .option h, by simp [Parts.join], .inr rfl⟩
  | message h => exact ⟨_, .message h, by simp [Parts.join], .inr rfl⟩
  | enum h => exact ⟨_, .enum h, by simp [Parts.join], .inr rfl⟩
  | extend h => exact ⟨_, .extend h, by simp [Parts.join], .inr rfl⟩
  | service h => exact ⟨_, .service h, by simp [Parts.join], .inr rfl⟩
  | empty => exact ⟨_, .empty, by simp [Parts.join], .inr rfl⟩

theorem statement_unshift {t : List Token} {q d : Parts} (h : StatementG t q d) (p : Parts) (hp : p.package = none ∨ d.package = none) :
    StatementG t (p.join q) (p.join d) := by
  cases h with
  | package h hq =>
    have hp : p.package = none := hp.resolve_right nofun
    rename_i x _
    have : p.join { q with package := some x } = { p.join q with package := some x } := by simp [Parts.join, hp]
    rw [this]
    exact .package h (by simp [Parts.join, hp, hq])
  | import' h => rename_i x; rw [show p.join { q with imports := q.imports ++ [x] } = { p.join q with imports := (p.join q).imports ++ [x] } by simp [Parts.join]]; exact .import' h
  | option h => rename_i x; rw [show p.join { q with options := q.options ++ [x] } = { p.join q with options := (p.join q).options ++ [x] } by simp [Parts.join]]; exact .option h
  | message h => rename_i x; rw [show p.join { q with items := q.items ++ [.message x] } = { p.join q with items := (p.join q).items ++ [.message x] } by simp [Parts.join]]; exact .message h
  | enum h => rename_i x; rw [show p.join { q with items := q.items ++ [.enum x] } = { p.join q with items := (p.join q).items ++ [.enum x] } by simp [Parts.join]]; exact .enum h
  | extend h => rename_i x; rw [show p.join { q with items := q.items ++ [.extend x] } = { p.join q with items := (p.join q).items ++ [.extend x] } by simp [Parts.join]]; exact .extend h
  | service h => rename_i x; rw [show p.join { q with items := q.items ++ [.service x] } = { p.join q with items := (p.join q).items ++ [.service x] } by simp [Parts.join]]; exact .service h
  | empty => exact .empty

theorem statement_pkg {t : List Token} {p p' : Parts} (h : StatementG t p p') (hp : p'.package = none) : p.package = none := by
  cases h <;> first | exact hp | cases hp

theorem many_package {ts : List Token} {p p' : Parts} (h : Many StatementG ts p p') (hp : p'.package = none) : p.package = none := by
  induction h with
  | nil => exact hp
  | cons h _ ih => exact statement_pkg h (ih hp)

theorem many_unshift {ts : List Token} {q d : Parts} (h : Many StatementG ts q d) (p : Parts) (hp : p.package = none ∨ d.package = none) :
    Many StatementG ts (p.join q) (p.join d) := by
  induction h with
  | nil => exact .nil
  | cons h hm ih => exact .cons (statement_unshift h p (hp.imp id (many_package hm))) (ih hp)

theorem many_shift {ts : List Token} {p p' : Parts} (h : Many StatementG ts p p') :
    ∃ d, Many StatementG ts {} d ∧ p' = p.join d ∧ (p.package = none ∨ d.package = none) := by
  induction h with
  | nil => exact ⟨{}, .nil, (join_nil _).symm, .inr rfl⟩
  | @cons t ts p p1 p2 h hm ih =>
    obtain ⟨d1, h1, e1, c1⟩ := statement_shift h
    obtain ⟨d2, h2, e2, c2⟩ := ih
    subst e1
    have c3 : d1.package = none ∨ d2.package = none := by
      refine c2.imp ?_ id
      intro hx
      simp [Parts.join] at hx
      exact hx.2
    have := many_unshift h2 d1 c3
    rw [join_nil] at this
    refine ⟨d1.join d2, .cons h1 this, by rw [e2, join_assoc], ?_⟩
    cases hpp : p.package with
    | none => exact .inl rfl
    | some x =>
      refine .inr ?_
      have hd1 := c1.resolve_left (by rw [hpp]; nofun)
      have hd2 := c2.resolve_left (by simp [Parts.join, hpp])
      simp [Parts.join, hd1, hd2]

theorem many_append {ts us : List Token} {p q r : Parts} (h : Many StatementG ts p q) (h' : Many StatementG us q r) : Many StatementG (ts ++ us) p r := by
  induction h with
  | nil => exact h'
  | cons h _ ih => rw [List.append_assoc]; exact .cons h (ih h')

/-- If the tokens of a list of statements are the beginning of another one, the rest are statements too. -/
theorem many_split {ts us : List Token} {p q p' r : Parts} (h : Many StatementG ts p q) (h' : Many StatementG (ts ++ us) p' r) :
    ∃ q', Many StatementG ts p' q' ∧ Many StatementG us q' r := by
  induction h generalizing p' with
  | nil => exact ⟨p', .nil, h'⟩
  | @cons t ts p p1 p2 h hm ih =>
    rw [List.append_assoc] at h'
    rcases many_cons_inv h' with h0 | ⟨t1, r1, s1, h1, h2, h3⟩
    · exact absurd (List.append_eq_nil_iff.1 h0).1 (statement_ne h)
    · obtain ⟨rfl, rfl⟩ := statement_det h h2 h1
      obtain ⟨q', g1, g2⟩ := ih h3
      exact ⟨q', .cons h2 g1, g2⟩

end
end Verif.Parse
