import Verif.Spec.Erase
import Verif.Proofs.Cpl0
/-! Completeness of the grammar methods: primitive steps, numbers, strings, names. -/
namespace Verif.Parse
open Lex Verif.Ast Verif.Grammar

/-- The state between two tokens outside of aggregate values. -/
abbrev At' (ts : List Token) (pk e : Bool) : TS := ⟨ts, pk, false, .top e⟩

theorem step_top {e : Bool} {t : Token} (h : t ≠ .leftBrace ∨ e = false) (ht : t.isTrivia = false) :
    Mode.step (.top e) t = .top (t = .equals) := by
  cases t <;> cases e <;> first | rfl | (cases ht; done) | simp at h

section prim
variable {α β : Type} {Q : β → TS → Prop} {t : Token} {r : List Token} {pk e : Bool}

theorem wpc_pure {b : β} {st : TS} : wpc (pure b : Prog β) Q st ↔ Q b st := Iff.rfl

theorem wpc_peek {Q : Option STok → TS → Prop} :
    wpc Prog.peek Q (At' (t :: r) pk e) ↔ ∀ sp, Q (some (t, sp)) (At' (t :: r) true e) := by
  simp [Prog.peek, wpc, TS.ready, TS.look, Mode.text]

theorem wpc_peekSkip {Q : Option STok → TS → Prop} :
    wpc Prog.peekSkip Q (At' (t :: r) pk e) ↔ ∀ sp, Q (some (t, sp)) (At' (t :: r) true e) := by
  simp [Prog.peekSkip, wpc, TS.ready, TS.look, Mode.text]

theorem wpc_peek_nil {Q : Option STok → TS → Prop} : wpc Prog.peek Q (At' [] pk e) ↔ Q none (At' [] false e) := by
  simp only [Prog.peek, wpc, TS.ready, TS.look, Mode.text]
  simp

theorem wpc_peekSkip_nil {Q : Option STok → TS → Prop} : wpc Prog.peekSkip Q (At' [] pk e) ↔ Q none (At' [] false e) := by
  simp only [Prog.peekSkip, wpc, TS.ready, TS.look, Mode.text]
  simp

theorem wpc_bump {Q : Span → TS → Prop} (h : t ≠ .leftBrace ∨ e = false) (ht : t.isTrivia = false) :
    wpc Prog.bump Q (At' (t :: r) true e) ↔ ∀ sp, Q sp (At' r false (t = .equals)) := by
  simp [Prog.bump, wpc, step_top h ht]

theorem wpc_leading {Q : List Bytes × Option Bytes → TS → Prop} {ts} :
    wpc Prog.leading Q (At' ts pk e) ↔ ∀ c, Q c (At' ts (!ts.isEmpty) e) := by
  simp [Prog.leading, wpc, TS.ready, TS.look, Mode.text]

theorem wpc_trailing {Q : Comments → TS → Prop} {ts l} :
    wpc (Prog.trailing l) Q (At' ts pk e) ↔ ∀ c, Q c (At' ts (!ts.isEmpty) e) := by
  simp [Prog.trailing, wpc, TS.ready, TS.look, Mode.text]

theorem wpc_expectEq {Q : Span → TS → Prop} (h : t ≠ .leftBrace ∨ e = false) (ht : t.isTrivia = false) :
    wpc (expectEq t) Q (At' (t :: r) pk e) ↔ ∀ sp, Q sp (At' r false (t = .equals)) := by
  unfold expectEq
  rw [wpc_bind, wpc_peekSkip]
  simp only [if_true, wpc_bump h ht]
  exact ⟨fun h => h ⟨0, 0⟩, fun h _ => h⟩

theorem wpc_parseIdent {Q : Ident → TS → Prop} {v : Bytes} (h : ∀ sp, Q ⟨v, sp⟩ (At' r false false)) :
    wpc parseIdent Q (At' (.ident v :: r) pk e) := by
  unfold parseIdent
  rw [wpc_bind, wpc_peekSkip]
  intro sp
  simp only
  rw [wpc_bind, wpc_bump (by simp) rfl]
  intro _
  exact h sp

end prim

/-- `p` accepts what the grammar `G` derives if it is followed by something with `F`, and returns a tree that differs
from the derived one only in positions and comments. `n` bounds the number of tokens, `e` tells whether an `=` precedes. -/
def Cpl {α : Type} [Erase α] (n : Nat) (e : Bool) (p : Prog α) (G : List Token → α → Prop) (F : List Token → Prop) : Prop :=
  ∀ (ts : List Token) (v : α) (rest : List Token) (pk : Bool) (Q : α → TS → Prop), (ts ++ rest).length ≤ n → G ts v → F rest →
    (∀ v' pk', er v' = er v → Q v' (At' rest pk' false)) → wpc p Q (At' (ts ++ rest) pk e)

/-- Any continuation. -/
def Any (_ : List Token) : Prop := True
/-- Followed by one of these tokens. -/
def By (cs : List Token) (rest : List Token) : Prop := ∃ c ∈ cs, rest.head? = some c

section
variable {n fuel : Nat} {e : Bool}

theorem er_span (s : Span) : er s = ⟨0, 0⟩ := rfl

theorem parseIdent_cpl : Cpl n e parseIdent IdentG Any := by
  intro ts v rest pk Q hn hg hf hQ
  cases hg
  exact wpc_parseIdent fun sp => hQ _ _ rfl

theorem parseInt_cpl : Cpl n e parseInt IntG Any := by
  intro ts v rest pk Q hn hg hf hQ
  cases hg with
  | pos =>
    unfold parseInt
    rw [wpc_bind, wpc_bind, List.singleton_append, wpc_peekSkip]
    intro sp
    simp only [reduceCtorEq, if_false]
    rw [wpc_pure, wpc_bind, wpc_peekSkip]
    intro sp
    simp only
    rw [wpc_bind, wpc_bump (by simp) rfl]
    intro _
    exact hQ _ _ rfl
  | neg =>
    unfold parseInt
    rw [wpc_bind, wpc_bind, List.cons_append, wpc_peekSkip]
    intro sp
    simp only [if_true]
    rw [wpc_bind, wpc_bump (by simp) rfl]
    intro _
    rw [wpc_pure, wpc_bind, List.singleton_append, wpc_peekSkip]
    intro sp
    simp only
    rw [wpc_bind, wpc_bump (by simp) rfl]
    intro _
    exact hQ _ _ rfl

end

/-! ## Loops -/

/-- The loop ends with a result that satisfies `Q`. -/
def DoneQ {σ β : Type} (Q : β → TS → Prop) : Step σ β → TS → Prop
  | .next _, _ => False
  | .done b, st => Q b st

/-- A loop reads a sequence of elements, then ends. -/
theorem loop_cpl {σ β : Type} [Erase σ] {step : σ → Prog (Step σ β)} {elem : List Token → σ → σ → Prop} {F : List Token → Prop}
    {Q : β → TS → Prop} {e : Bool} {n : Nat}
    (hstep : ∀ (t : List Token) (s s' s1 : σ) (rest : List Token) (pk : Bool) (R : Step σ β → TS → Prop), elem t s s' → er s1 = er s →
      (t ++ rest).length ≤ n → F rest → (∀ s2 pk', er s2 = er s' → R (.next s2) (At' rest pk' e)) → wpc (step s1) R (At' (t ++ rest) pk e))
    (hne : ∀ t s s', elem t s s' → t ≠ [])
    (hF : ∀ t s s' rest, elem t s s' → F rest → F (t ++ rest)) {rest : List Token} (hrest : F rest) :
    ∀ (ts : List Token) (s s' : σ), Many elem ts s s' → ∀ (s1 : σ) (pk : Bool) (fuel : Nat), er s1 = er s →
      (ts ++ rest).length ≤ n → ts.length < fuel → (∀ s2 pk, er s2 = er s' → wpc (step s2) (DoneQ Q) (At' rest pk e)) →
      wpc (loopM step fuel s1) Q (At' (ts ++ rest) pk e) := by
  intro ts s s' hm
  have hrest' : F (ts ++ rest) := by
    induction hm with
    | nil => exact hrest
    | cons h1 _ ih => rw [List.append_assoc]; exact hF _ _ _ _ h1 ih
  induction hm with
  | nil =>
    intro s1 pk fuel he hl hf hfin
    cases fuel with
    | zero => omega
    | succ k =>
      unfold loopM
      rw [wpc_bind]
      refine wpc_mono _ ?_ (hfin s1 pk he)
      intro a st h
      cases a with
      | next => exact h.elim
      | done b => exact h
  | @cons t ts s s' s'' h1 h2 ih =>
    intro s1 pk fuel he hl hf hfin
    cases fuel with
    | zero => omega
    | succ k =>
      have hlen : 0 < t.length := by
        cases t with
        | nil => exact absurd rfl (hne _ _ _ h1)
        | cons => simp
      have hF' : F (ts ++ rest) := by
        clear ih hrest' hf hl h1 hne
        induction h2 with
        | nil => exact hrest
        | cons h1 _ ih => rw [List.append_assoc]; exact hF _ _ _ _ h1 (ih hfin)
      unfold loopM
      rw [List.append_assoc] at hl
      rw [wpc_bind, List.append_assoc]
      refine hstep t s s' s1 _ pk _ h1 he hl hF' fun s2 pk' h3 => ?_
      rw [List.length_append] at hf hl
      refine ih hF' s2 pk' k h3 ?_ ?_ hfin <;> omega

section
variable {n fuel : Nat} {e : Bool}

/-! ## Strings -/

/-- Not followed by a string literal. -/
def NoStr (rest : List Token) : Prop := ∀ v, rest.head? ≠ some (.string v)

theorem many_strings : ∀ (ps : List Bytes) (s : Str), Many (fun ts (s s' : Str) => ∃ v, ts = [.string v] ∧ s' = ⟨s.value ++ v, s.span⟩)
    (ps.map .string) s ⟨s.value ++ ps.flatten, s.span⟩
  | [], s => by
    have : (⟨s.value ++ ([] : List Bytes).flatten, s.span⟩ : Str) = s := by cases s; simp
    rw [this]; exact .nil
  | p :: ps, s => by
    have := many_strings ps ⟨s.value ++ p, s.span⟩
    have h2 := Many.cons (elem := fun ts (s s' : Str) => ∃ v, ts = [.string v] ∧ s' = ⟨s.value ++ v, s.span⟩) (t := [.string p])
      (s := s) ⟨p, rfl, rfl⟩ this
    simpa using h2

theorem er_str {s s' : Str} : er s = er s' ↔ s.value = s'.value := by
  cases s; cases s'
  simp [er]

theorem parseString_cpl (hf : n < fuel) : Cpl n e (parseString fuel) StrG NoStr := by
  intro ts v rest pk Q hn hg hF hQ
  obtain ⟨ps, hne, rfl, hv⟩ := hg
  cases ps with
  | nil => exact absurd rfl hne
  | cons p ps =>
    unfold parseString
    rw [wpc_bind, List.map_cons, List.cons_append, wpc_peekSkip]
    intro sp
    simp only
    rw [wpc_bind, wpc_bump (by simp) rfl]
    intro _
    refine loop_cpl (F := Any) ?_ ?_ (fun _ _ _ _ _ _ => trivial) trivial (ps.map .string) _ _ (many_strings ps ⟨p, sp⟩) ⟨p, sp⟩
      false fuel rfl (n := n) ?_ ?_ ?_
    · rintro t s s' s1 r pk R ⟨w, rfl, rfl⟩ he _ _ hR
      unfold stringStep
      rw [wpc_bind, List.singleton_append, wpc_peekSkip]
      intro sp
      simp only
      rw [wpc_bind, wpc_bump (by simp) rfl]
      intro _
      rw [wpc_pure]
      refine hR _ _ (er_str.2 ?_)
      rw [er_str.1 he]
    · rintro t s s' ⟨w, rfl, _⟩; simp
    · simp at hn ⊢; omega
    · simp at hn ⊢; omega
    · intro s2 pk he
      have h2 : ∀ pk, Q s2 (At' rest pk false) := by
        intro pk
        refine hQ _ _ (er_str.2 ?_)
        rw [er_str.1 he, hv]
        simp
      unfold stringStep
      rw [wpc_bind]
      cases rest with
      | nil =>
        rw [wpc_peekSkip_nil]
        exact h2 _
      | cons c r =>
        rw [wpc_peekSkip]
        intro sp
        cases c <;> first | exact h2 _ | exact absurd rfl (hF _)

end

end Verif.Parse
