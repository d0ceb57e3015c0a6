import Verif.Proofs.GoodM
import Verif.Spec.Lexeme
/-! Whatever a grammar method has taken so far, there are tokens with which it would come to an end. -/
namespace Verif.Exec
open Parse Prog Spec

/-- A run to the end without complaint about a token or the end of the file (`b` allows other failures). -/
def Ok (b : Bool) {α : Type} : Ex α → Prop
  | .done _ w => w = []
  | .stop none _ => b = true
  | _ => False

/-- A token that can be written. -/
def Plain (t : Token) : Prop := t.isTrivia = false ∧ ∃ text, Lexeme false text t

/-- A condition on the first token of a completion. -/
abbrev Pred := Option Token → Prop
abbrev Top : Pred := fun _ => True
abbrev Is (t : Token) : Pred := fun o => o = some t

/-- The method can come to an end, with tokens whose first one is as described. -/
def Can (b : Bool) (P : Pred) (q : Prog Unit) : Prop :=
  ∃ z : List Token, (∀ t ∈ z, Plain t) ∧ P z.head? ∧ Ok b (exec q (z.map some))

/-- After every token that it takes, up to the given number of them, the method can come to an end. -/
def AC (b : Bool) : Prog Unit → Nat → Prop
  | .ret _, _ => True
  | .peekThen k, m => ∀ t, AC b (k (some (t, sp0))) m
  | .peekSkipThen k, m => ∀ t, AC b (k (some (t, sp0))) m
  | .bumpThen k, m => match m with
    | 0 => True
    | m + 1 => Can b Top (k sp0) ∧ AC b (k sp0) m
  | .addErrorThen e k, m => blame? e = none → eof? e = none → AC b k m
  | .leadingThen k, m => AC b (k ld0) m
  | .trailingThen _ k, m => AC b (k cm0) m
  | .setTextModeThen _ k, m => AC b k m
  | .assertNoPeekThen k, m => AC b k m
  | .failed, _ => True
  | .panicked, _ => True
  | .outOfFuel, _ => True

theorem ac_zero {b} (q : Prog Unit) : AC b q 0 := by
  induction q with
  | peekThen k ih => exact fun t => ih _
  | peekSkipThen k ih => exact fun t => ih _
  | addErrorThen e k ih => exact fun _ _ => ih
  | leadingThen k ih => exact ih _
  | trailingThen l k ih => exact ih _
  | setTextModeThen b k ih => exact ih
  | assertNoPeekThen k ih => exact ih
  | _ => trivial

theorem ac_mono {b} (q : Prog Unit) : ∀ {n m}, m ≤ n → AC b q n → AC b q m := by
  induction q with
  | peekThen k ih => exact fun hm h t => ih _ hm (h t)
  | peekSkipThen k ih => exact fun hm h t => ih _ hm (h t)
  | bumpThen k ih =>
    intro n m hm h
    cases m with
    | zero => trivial
    | succ m =>
      cases n with
      | zero => omega
      | succ n => exact ⟨h.1, ih _ (by omega) h.2⟩
  | addErrorThen e k ih => exact fun hm h h1 h2 => ih hm (h h1 h2)
  | leadingThen k ih => exact ih _
  | trailingThen l k ih => exact ih _
  | setTextModeThen b k ih => exact ih
  | assertNoPeekThen k ih => exact ih
  | _ => exact fun _ _ => trivial

/-- What is left of a method can come to an end. -/
theorem ac_left {b} {q q' : Prog Unit} {u : Toks} (h : Left q u q') : u ≠ [] → AC b q u.length → Can b Top q' := by
  induction h with
  | here p => exact fun h => absurd rfl h
  | peek h ih => exact fun hu ha => ih hu (ha _)
  | peekSkip h ih => exact fun hu ha => ih hu (ha _)
  | @bump k t u q' h ih =>
    intro _ ha
    cases u with
    | nil =>
      obtain ⟨z, hz, _, ho⟩ := ha.1
      refine ⟨z, hz, trivial, ?_⟩
      have := h.exec (z.map some)
      rw [List.nil_append] at this
      rw [← this]
      exact ho
    | cons x u => exact ih (by simp) ha.2
  | addError he he' h ih => exact fun hu ha => ih hu (ha he he')
  | leading h ih => exact ih
  | trailing h ih => exact ih
  | setTextMode h ih => exact ih
  | assertNoPeek h ih => exact ih

/-- Both, now and later. -/
structure C (b : Bool) (n : Nat) (P : Pred) (q : Prog Unit) : Prop where
  can : Can b P q
  ac : AC b q n

theorem Can.mono {b} {P Q : Pred} {q} (h : Can b P q) (hP : ∀ o, P o → Q o) : Can b Q q := by
  obtain ⟨z, h1, h2, h3⟩ := h
  exact ⟨z, h1, hP _ h2, h3⟩

theorem C.mono {b n m} {P Q : Pred} {q} (h : C b n P q) (hm : m ≤ n) (hP : ∀ o, P o → Q o) : C b m Q q :=
  ⟨h.can.mono hP, ac_mono q hm h.ac⟩

/-- With whatever comes next, if that satisfies `R`. -/
structure Fin (b : Bool) (n : Nat) (Q : Pred) {α : Type} (p : Prog α) (R : α → Prog Unit → Prop) : Prop where
  run : ∀ K : α → Prog Unit, (∀ a, R a (K a)) → C b n Q (p >>= K)

/-- The same, when the first token is already known not to be blamed. -/
structure Br' (b : Bool) (n : Nat) {α : Type} (p : Prog α) (R : α → Prog Unit → Prop) : Prop where
  run : ∀ K : α → Prog Unit, (∀ a, R a (K a)) → AC b (p >>= K) n

section
variable {b : Bool} {n : Nat} {Q : Pred} {α β : Type} {R : α → Prog Unit → Prop}

theorem Fin.br {p : Prog α} (h : Fin b n Q p R) : Br' b n p R := ⟨fun K hK => (h.run K hK).ac⟩

theorem Br'.zero {p : Prog α} : Br' b 0 p R := ⟨fun _ _ => ac_zero _⟩

theorem Br'.pos {p : Prog α} (h : 0 < n → Br' b n p R) : Br' b n p R := by
  cases n with
  | zero => exact .zero
  | succ n => exact h (by omega)

theorem Fin.mono {p : Prog α} {S : α → Prog Unit → Prop} {Q' : Pred} (h : Fin b n Q p R) (hQ : ∀ o, Q o → Q' o)
    (hR : ∀ a q, S a q → R a q) : Fin b n Q' p S :=
  ⟨fun K hK => (h.run K fun a => hR a _ (hK a)).mono (Nat.le_refl _) hQ⟩

theorem Fin.bind {p : Prog α} {f : α → Prog β} {S : β → Prog Unit → Prop} (h : Fin b n Q p R)
    (hf : ∀ a K, (∀ c, S c (K c)) → R a (f a >>= K)) : Fin b n Q (p >>= f) S :=
  ⟨fun K hK => by rw [bind_assoc']; exact h.run _ fun a => hf a K hK⟩

theorem Br'.bind {p : Prog α} {f : α → Prog β} {S : β → Prog Unit → Prop} (h : Br' b n p R)
    (hf : ∀ a K, (∀ c, S c (K c)) → R a (f a >>= K)) : Br' b n (p >>= f) S :=
  ⟨fun K hK => by rw [bind_assoc']; exact h.run _ fun a => hf a K hK⟩

/-- The usual demand on what comes next. -/
abbrev Then (b : Bool) (n : Nat) (P : Pred) {α : Type} : α → Prog Unit → Prop := fun _ q => C b n P q

/-- The same for some results only. -/
abbrev ThenIf (b : Bool) (n : Nat) (P : Pred) {α : Type} (A : α → Prop) : α → Prog Unit → Prop := fun a q => A a → C b n P q

theorem Fin.seq {p : Prog α} {f : α → Prog β} {S : β → Prog Unit → Prop} {n1 n2} {P1 P2 : Pred} (h : Fin b n Q p (Then b n1 P1))
    (hn : n1 ≤ n2) (hP : ∀ o, P2 o → P1 o) (hf : ∀ a, Fin b n2 P2 (f a) S) : Fin b n Q (p >>= f) S :=
  h.bind fun a K hK => ((hf a).run K hK).mono hn hP

theorem Br'.seq {p : Prog α} {f : α → Prog β} {S : β → Prog Unit → Prop} {n1 n2} {P1 P2 : Pred} (h : Br' b n p (Then b n1 P1))
    (hn : n1 ≤ n2) (hP : ∀ o, P2 o → P1 o) (hf : ∀ a, Fin b n2 P2 (f a) S) : Br' b n (p >>= f) S :=
  h.bind fun a K hK => ((hf a).run K hK).mono hn hP

theorem Fin.seqIf {p : Prog α} {f : α → Prog β} {S : β → Prog Unit → Prop} {A : α → Prop} {n1 n2} {P1 P2 : Pred}
    (h : Fin b n Q p (ThenIf b n1 P1 A)) (hn : n1 ≤ n2) (hP : ∀ o, P2 o → P1 o) (hf : ∀ a, A a → Fin b n2 P2 (f a) S) :
    Fin b n Q (p >>= f) S :=
  h.bind fun a K hK ha => ((hf a ha).run K hK).mono hn hP

theorem fin_pure {a : α} (h : ∀ q, R a q → C b n Q q) : Fin b n Q (pure a : Prog α) R := ⟨fun K hK => h _ (hK a)⟩
theorem br_ret {a : α} (h : ∀ q, R a q → AC b q n) : Br' b n (pure a : Prog α) R := ⟨fun K hK => h _ (hK a)⟩

theorem br_unexpected {ex : Expect} : Br' b n (unexpected ex : Prog α) R := ⟨fun _ _ => fun _ h => nomatch h⟩

theorem fin_leading {f : _ → Prog α} (h : ∀ l, Fin b n Q (f l) R) : Fin b n Q (leading >>= f) R :=
  ⟨fun K hK => ⟨((h ld0).run K hK).can, ((h ld0).run K hK).ac⟩⟩
theorem fin_trailing {l} {f : _ → Prog α} (h : ∀ l, Fin b n Q (f l) R) : Fin b n Q (trailing l >>= f) R :=
  ⟨fun K hK => ⟨((h cm0).run K hK).can, ((h cm0).run K hK).ac⟩⟩
theorem fin_setTextMode {l} {f : _ → Prog α} (h : ∀ l, Fin b n Q (f l) R) : Fin b n Q (setTextMode l >>= f) R :=
  ⟨fun K hK => ⟨((h ()).run K hK).can, ((h ()).run K hK).ac⟩⟩
theorem fin_assertNoPeek {f : _ → Prog α} (h : ∀ l, Fin b n Q (f l) R) : Fin b n Q (assertNoPeek >>= f) R :=
  ⟨fun K hK => ⟨((h ()).run K hK).can, ((h ()).run K hK).ac⟩⟩

theorem fin_addError {e} {f : _ → Prog α} (he : blame? e = none) (he' : eof? e = none) (h : ∀ l, Fin b n Q (f l) R) :
    Fin b n Q (addError e >>= f) R := by
  refine ⟨fun K hK => ⟨?_, fun _ _ => ((h ()).run K hK).ac⟩⟩
  obtain ⟨z, h1, h2, h3⟩ := ((h ()).run K hK).can
  refine ⟨z, h1, h2, ?_⟩
  show Ok b (exec (addErrorThen e (f () >>= K)) _)
  rw [exec, he, he']
  exact h3

/-- A token is taken. -/
theorem fin_bump {t : Token} {f : Span → Prog α} (ht : Plain t) (h : Fin b (n - 1) Top (f sp0) R) : Fin b n (Is t) (bump >>= f) R := by
  refine ⟨fun K hK => ⟨?_, ?_⟩⟩
  · obtain ⟨z, h1, h2, h3⟩ := (h.run K hK).can
    exact ⟨t :: z, by simpa using ⟨ht, h1⟩, rfl, h3⟩
  · cases n with
    | zero => trivial
    | succ n => exact ⟨(h.run K hK).can, (h.run K hK).ac⟩

theorem br_bump {f : Span → Prog α} (h : 0 < n → Fin b (n - 1) Top (f sp0) R) : Br' b n (bump >>= f) R := by
  refine ⟨fun K hK => ?_⟩
  cases n with
  | zero => trivial
  | succ n => exact ⟨((h (by omega)).run K hK).can, ((h (by omega)).run K hK).ac⟩

/-- A look at the next token: one that goes on well, and the others. -/
theorem fin_peekSkip {f : Option (Token × Span) → Prog α} (t0 : Token) (h0 : Fin b n (Is t0) (f (some (t0, sp0))) R)
    (h : ∀ t, Br' b n (f (some (t, sp0))) R) : Fin b n (Is t0) (peekSkip >>= f) R := by
  refine ⟨fun K hK => ⟨?_, fun t => (h t).run K hK⟩⟩
  obtain ⟨z, h1, h2, h3⟩ := (h0.run K hK).can
  refine ⟨z, h1, h2, ?_⟩
  cases z with
  | nil => cases h2
  | cons x z => cases h2; exact h3

theorem fin_peek {f : Option (Token × Span) → Prog α} (t0 : Token) (h0 : Fin b n (Is t0) (f (some (t0, sp0))) R)
    (h : ∀ t, Br' b n (f (some (t, sp0))) R) : Fin b n (Is t0) (peek >>= f) R := by
  refine ⟨fun K hK => ⟨?_, fun t => (h t).run K hK⟩⟩
  obtain ⟨z, h1, h2, h3⟩ := (h0.run K hK).can
  refine ⟨z, h1, h2, ?_⟩
  cases z with
  | nil => cases h2
  | cons x z => cases h2; exact h3

theorem br_peekSkip {f : Option (Token × Span) → Prog α} (h : ∀ t, Br' b n (f (some (t, sp0))) R) : Br' b n (peekSkip >>= f) R :=
  ⟨fun K hK t => (h t).run K hK⟩
theorem br_peek {f : Option (Token × Span) → Prog α} (h : ∀ t, Br' b n (f (some (t, sp0))) R) : Br' b n (peek >>= f) R :=
  ⟨fun K hK t => (h t).run K hK⟩

/-- What a step of a loop demands: what comes after the loop, or another round. -/
def LoopR (b : Bool) (n : Nat) (P Q : Pred) {σ : Type} (I : σ → Prop) (A : β → Prop) : Step σ β → Prog Unit → Prop
  | .next s, q => I s → 0 < n → C b (n - 1) Q q
  | .done a, q => A a → C b n P q

theorem fin_loop {σ : Type} {step : σ → Prog (Step σ β)} {P : Pred} {I : σ → Prop} {A : β → Prop} : ∀ n c s,
    (∀ m, m ≤ n → ∀ s, I s → Fin b m Q (step s) (LoopR b m P Q I A)) → n < c → I s → Fin b n Q (loopM step c s) (ThenIf b n P A)
  | _, 0, _, _, h, _ => absurd h (Nat.not_lt_zero _)
  | n, c + 1, s, h, hc, hs => by
    refine ⟨fun K hK => ?_⟩
    rw [loopM, bind_assoc']
    refine (h n (Nat.le_refl _) s hs).run _ fun x => ?_
    cases x with
    | next s' =>
      intro hs' hn
      exact (fin_loop (n - 1) c s' (fun m hm => h m (by omega)) (by omega) hs').run K fun a ha => (hK a ha).mono (by omega) fun _ h => h
    | done a => exact fun ha => hK a ha

/-- A step that leaves the next token to what comes after the loop. -/
theorem fin_thru {σ : Type} {p : Prog (Step σ β)} {P : Pred} {I : σ → Prop} {A : β → Prop} (a : β) (ha : A a)
    (h : ∀ z : List Token, P z.head? → exec p (z.map some) = .done (.done a) (z.map some)) (hb : Br' b n p (LoopR b n P P I A)) :
    Fin b n P p (LoopR b n P P I A) := by
  refine ⟨fun K hK => ⟨?_, hb.run K hK⟩⟩
  obtain ⟨z, h1, h2, h3⟩ := (hK (.done a) ha).can
  refine ⟨z, h1, h2, ?_⟩
  rw [exec_bind, h z h2]
  exact h3

/-- The common case: nothing is known about states and results. -/
abbrev LoopT (b : Bool) (n : Nat) (P Q : Pred) {σ β : Type} : Step σ β → Prog Unit → Prop :=
  LoopR b n P Q (fun _ : σ => True) (fun _ : β => True)

theorem fin_loopT {σ : Type} {step : σ → Prog (Step σ β)} {P : Pred} {n c s}
    (h : ∀ m, m ≤ n → ∀ s, Fin b m Q (step s) (LoopT b m P Q)) (hc : n < c) : Fin b n Q (loopM step c s) (Then b n P) :=
  (fin_loop n c s (fun m hm s _ => h m hm s) hc trivial).mono (fun _ h => h) fun _ _ h _ => h

theorem fin_next {σ : Type} {P : Pred} {s : σ} {m} (hm : m ≤ n - 1) (h : 0 < n) : Fin b m Q (pure (.next s) : Prog (Step σ β)) (LoopT b n P Q) :=
  fin_pure fun _ h' => (h' trivial h).mono hm fun _ h => h
theorem fin_done {σ : Type} {P Q' : Pred} {a : β} {m} (hm : m ≤ n) (hP : ∀ o, P o → Q' o) : Fin b m Q' (pure (.done a) : Prog (Step σ β)) (LoopT b n P Q) :=
  fin_pure fun _ h' => (h' trivial).mono hm hP
theorem fin_ret {P Q' : Pred} {a : α} {m} (hm : m ≤ n) (hP : ∀ o, P o → Q' o) : Fin b m Q' (pure a : Prog α) (Then b n P) :=
  fin_pure fun _ h' => h'.mono hm hP

end
end Verif.Exec
