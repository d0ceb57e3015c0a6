import Verif.Proofs.Blame5
/-! What the parser sees ahead while the next significant tokens are valid, and the header of a file. -/
namespace Verif.Blame
open Parse Lex Prog

/-- The significant tokens ahead of the parser. -/
def view (s : PState) : List (Option STok) :=
  (match s.peek with
    | some (.ok x) => significant [(some x.1, x.2)]
    | some (.error _) => [none]
    | none => []) ++ sigToks s.pos s.rest

/-- The result satisfies `Q`, and `E` if the method failed (a panic or an exhausted counter is excluded elsewhere). -/
def OkE {α : Type} (E : Prop) (x : Res α × PState) (Q : α → PState → Prop) : Prop :=
  match x with
  | (.ok a, s) => Q a s
  | (.err, _) => E
  | _ => True

/-- No failure, and the result satisfies `Q`. -/
abbrev Ok {α : Type} (x : Res α × PState) (Q : α → PState → Prop) : Prop := OkE False x Q

variable {E : Prop}

theorem OkE.bind {α β : Type} {p : Parse.P α} {f : α → Parse.P β} {s} {Q : α → PState → Prop} {R : β → PState → Prop}
    (h : OkE E (p s) Q) (hf : ∀ a s', Q a s' → OkE E (f a s') R) : OkE E (P.bind p f s) R := by
  unfold P.bind
  rcases hp : p s with ⟨r, s'⟩
  rw [hp] at h
  cases r with
  | ok a => exact hf a s' h
  | err => exact h
  | panic => trivial
  | oof => trivial

theorem OkE.mono {α : Type} {x : Res α × PState} {Q R : α → PState → Prop} (h : OkE E x Q) (hR : ∀ a s, Q a s → R a s) : OkE E x R := by
  rcases x with ⟨r, s⟩
  cases r with
  | ok a => exact hR a s h
  | _ => exact h

theorem significant_cons_some {t : Token} {sp : Span} {l} :
    significant ((some t, sp) :: l) = significant [(some t, sp)] ++ significant l := by
  show significant ([(some t, sp)] ++ l) = _
  unfold significant
  rw [List.filterMap_append]

theorem ok_peekComments {s : PState} (h : (view s).head? = some none → E) :
    OkE E (P.peekComments s) fun a s' => view s' = view s ∧ s'.peek = a.map .ok ∧ (a = none → view s = []) := by
  unfold P.peekComments
  split
  · rename_i hp; exact ⟨rfl, hp, nofun⟩
  · rename_i hp
    refine h ?_
    unfold view
    rw [hp]
    rfl
  · rename_i hp
    simp only
    obtain ⟨c1, c2, c3⟩ := next_same s.tf s.pos s.rest s.errs
    have hf := next_facts s.tf s.pos s.rest s.errs
    have hv : view s = significant (rawToks s.pos s.rest) := by unfold view sigToks; rw [hp]; rfl
    rw [rawToks_unfold s.pos, ← c1, ← c2, ← c3] at hv
    revert hv hf
    generalize Lex.next s.tf s.pos s.rest s.errs = o
    intro hf hv
    split
    · rename_i hr
      rw [hr] at hv
      refine ⟨?_, hp, fun _ => hv⟩
      have hnil : ∀ p, rawToks p [] = [] := by
        intro p; rw [rawToks_unfold p]; rfl
      rw [hv]
      show _ ++ significant (rawToks o.span.stop o.rest) = []
      rw [(hf.eof_rest hr).1, hnil]
      show (match s.peek with | some (.ok x) => significant [(some x.1, x.2)] | some (.error _) => [none] | none => []) ++ [] = []
      rw [hp]
      rfl
    · rename_i t hr
      rw [hr] at hv
      refine ⟨?_, rfl, nofun⟩
      rw [hv]
      show _ = significant ((some t, o.span) :: rawToks o.span.stop o.rest)
      rw [significant_cons_some]
      rfl
    · rename_i hr
      rw [hr] at hv
      exact h (by rw [hv]; rfl)

theorem ok_bump {s : PState} {x : STok} (hp : s.peek = some (.ok x)) :
    OkE E (P.bump s) fun sp s' => sp = x.2 ∧ view s = (if x.1.isTrivia then [] else [some x]) ++ view s' := by
  unfold P.bump
  rw [hp]
  obtain ⟨t, sp⟩ := x
  refine ⟨rfl, ?_⟩
  unfold view
  rw [hp]
  cases ht : t.isTrivia with
  | true => simp [significant, ht]
  | false => simp [significant, ht]

theorem ok_onComments {f : CState → Option CState} {s : PState} : OkE E (P.onComments f s) fun _ s' => view s' = view s ∧ s'.peek = s.peek := by
  unfold P.onComments
  split
  · exact ⟨rfl, rfl⟩
  · trivial

/-- A look ahead finds the first of the significant tokens ahead. -/
def Sees (E : Prop) (p : Parse.P (Option STok)) : Prop := ∀ s v, view s = v → (v.head? = some none → E) →
  OkE E (p s) fun a s' => view s' = v ∧ s'.peek = a.map .ok ∧ v.head? = a.map some

theorem sees_after {f : Option STok → Parse.P (Option STok)}
    (hf : ∀ a s v, view s = v → (v.head? = some none → E) → s.peek = a.map .ok → (a = none → v = []) →
      OkE E (f a s) fun a s' => view s' = v ∧ s'.peek = a.map .ok ∧ v.head? = a.map some) :
    Sees E (P.peekComments >>= f) := by
  intro s v hv hn
  refine (ok_peekComments (by rw [hv]; exact hn)).bind fun a s' ⟨h1, h2, h3⟩ => ?_
  exact hf a s' v (h1.trans hv) hn h2 (fun h => hv ▸ h3 h)

theorem sees_trivia {α : Type} {f : α → Parse.P (Option STok)} {p : Parse.P α} {s : PState} {v}
    (hp : OkE E (p s) fun _ s' => view s' = v) (hn : (v.head? = some none → E)) (hf : ∀ a, Sees E (f a)) :
    OkE E ((p >>= f) s) fun a s' => view s' = v ∧ s'.peek = a.map .ok ∧ v.head? = a.map some :=
  hp.bind fun a s' h => hf a s' v h hn

theorem bump_trivia {s : PState} {x : STok} {v} (hv : view s = v) (hp : s.peek = some (.ok x)) (ht : x.1.isTrivia = true) :
    OkE E (P.bump s) fun _ s' => view s' = v :=
  (ok_bump hp).mono fun a s' ⟨_, h⟩ => by rw [if_pos ht] at h; rw [← hv, h]; rfl

theorem done_tok {s : PState} {x : STok} {v} (hv : view s = v) (hp : s.peek = some (.ok x)) (ht : x.1.isTrivia = false) :
    v.head? = some (some x) := by
  rw [← hv]
  unfold view
  rw [hp]
  simp [significant, ht]

theorem sees_skip : ∀ n, Sees E (P.peekSkipLoop n)
  | 0 => fun _ _ _ _ => trivial
  | n + 1 => by
    refine sees_after fun a s v hv hn hp hz => ?_
    cases a with
    | none => exact ⟨hv, hp, by rw [hz rfl]; rfl⟩
    | some x =>
      dsimp only
      split
      · rename_i ht
        exact sees_trivia (bump_trivia hv hp ht) hn fun _ => sees_skip n
      · rename_i ht
        exact ⟨hv, hp, done_tok hv hp (by simpa using ht)⟩

theorem sees_peekSkip : Sees E P.peekSkip := fun s => sees_skip _ s

theorem on_view {f : CState → Option CState} {s : PState} {v} (hv : view s = v) : OkE E (P.onComments f s) fun _ s' => view s' = v :=
  ok_onComments.mono fun _ _ h => h.1.trans hv

theorem sees_on {f : CState → Option CState} {g : Unit → Parse.P (Option STok)} (hg : ∀ a, Sees E (g a)) : Sees E (P.onComments f >>= g) :=
  fun _ _ hv hn => sees_trivia (on_view hv) hn hg

theorem done_on {f : CState → Option CState} {s : PState} {a : Option STok} {v} (hv : view s = v) (hp : s.peek = a.map .ok)
    (hd : v.head? = a.map some) :
    OkE E ((P.onComments f >>= fun _ => pure a) s) fun a s' => view s' = v ∧ s'.peek = a.map .ok ∧ v.head? = a.map some :=
  ok_onComments.bind fun _ _ h => ⟨h.1.trans hv, h.2.trans hp, hd⟩

theorem sees_loop : ∀ n, Sees E (P.peekLoop n)
  | 0 => fun _ _ _ _ => trivial
  | n + 1 => by
    have ih := sees_loop n
    refine sees_after fun a s v hv hn hp hz => ?_
    split
    · exact sees_trivia (bump_trivia hv hp rfl) hn fun _ => sees_on fun _ => ih
    · refine sees_trivia (bump_trivia hv hp rfl) hn fun _ => sees_on fun _ => sees_after fun a s v hv hn hp hz => ?_
      split
      · exact sees_trivia (bump_trivia hv hp rfl) hn fun _ => ih
      · exact ih s v hv hn
    · exact sees_trivia (bump_trivia hv hp rfl) hn fun _ => sees_on fun _ => sees_on fun _ => ih
    · exact done_on hv hp (by rw [hz rfl]; rfl)
    · rename_i t sp _ _ _
      have hd : v.head? = (some (t, sp)).map some := done_tok hv hp (by cases t <;> first | rfl | simp_all)
      split
      · exact done_on hv hp hd
      · exact ⟨hv, hp, hd⟩

theorem sees_rest : Sees E P.peekRest := fun s => sees_loop _ s

theorem sees_first : Sees E P.peekFirst := by
  refine sees_after fun a s v hv hn hp hz => ?_
  split
  · exact sees_trivia (bump_trivia hv hp rfl) hn fun _ => sees_on fun _ => sees_on fun _ => sees_rest
  · refine sees_trivia (bump_trivia hv hp rfl) hn fun _ => sees_after fun a s v hv hn hp hz => ?_
    split
    · exact sees_trivia (bump_trivia hv hp rfl) hn fun _ => sees_on fun _ => sees_rest
    · exact sees_peekSkip s v hv hn
  · exact sees_trivia (bump_trivia hv hp rfl) hn fun _ => sees_rest
  · refine ⟨hv, hp, ?_⟩
    cases a with
    | none => rw [hz rfl]; rfl
    | some x =>
      obtain ⟨t, sp⟩ := x
      exact done_tok hv hp (by cases t <;> first | rfl | simp_all)

theorem sees_peek : Sees E P.peek := by
  intro s v
  unfold P.peek
  split
  · exact sees_first s v
  · exact sees_rest s v

theorem ok_leading {s : PState} {v} (hv : view s = v) (hn : v.head? ≠ some none) : Ok (P.leading s) fun _ s' => view s' = v := by
  have h := sees_peek s v hv hn
  refine OkE.bind (p := P.peekIgnore) (Q := fun _ s' => view s' = v) ?_ fun _ s' h => h
  unfold P.peekIgnore
  rcases hp : P.peek s with ⟨r, s'⟩
  rw [hp] at h
  cases r with
  | ok a => exact h.1
  | err => exact h.elim
  | _ => trivial

/-- `trailing` never fails. -/
theorem ok_trailing {l} {s : PState} : Ok (P.trailing l s) fun _ _ => True := by
  refine OkE.bind (p := P.peekIgnore) (Q := fun _ _ => True) ?_ fun _ s' h => trivial
  unfold P.peekIgnore
  rcases P.peek s with ⟨r, s'⟩
  cases r <;> trivial

theorem ok_peek {α : Type} {k : Option STok → Prog α} {s : PState} {x : STok} {v} {Q} (hv : view s = some x :: v)
    (h : ∀ s', view s' = some x :: v → s'.peek = some (.ok x) → Ok ((k (some x)).run s') Q) : Ok ((peekThen k).run s) Q := by
  refine (sees_peek s _ hv (by simp)).bind fun a s' ⟨h1, h2, h3⟩ => ?_
  cases a with
  | none => cases h3
  | some y => cases h3; exact h s' h1 h2

theorem ok_peekSkip {α : Type} {k : Option STok → Prog α} {s : PState} {x : STok} {v} {Q} (hv : view s = some x :: v)
    (h : ∀ s', view s' = some x :: v → s'.peek = some (.ok x) → Ok ((k (some x)).run s') Q) : Ok ((peekSkipThen k).run s) Q := by
  refine (sees_peekSkip s _ hv (by simp)).bind fun a s' ⟨h1, h2, h3⟩ => ?_
  cases a with
  | none => cases h3
  | some y => cases h3; exact h s' h1 h2

theorem ok_bumpThen {α : Type} {k : Span → Prog α} {s : PState} {x : STok} {v} {Q} (hv : view s = some x :: v) (hp : s.peek = some (.ok x))
    (ht : x.1.isTrivia = false) (h : ∀ s', view s' = v → Ok ((k x.2).run s') Q) : Ok ((bumpThen k).run s) Q := by
  refine (ok_bump hp).bind fun a s' ⟨h1, h2⟩ => ?_
  rw [ht, hv] at h2
  subst h1
  exact h s' (by simpa using h2.symm)

theorem run_bind {α β : Type} (p : Prog α) (f : α → Prog β) : (p >>= f).run = P.bind p.run fun a => (f a).run := by
  show (p.bind f).run = _
  have hb : ∀ {γ : Type} (q : Parse.P γ) (k : γ → Prog α), (∀ a, ((k a).bind f).run = P.bind (k a).run fun a => (f a).run) →
      P.bind q (fun a => ((k a).bind f).run) = P.bind (P.bind q fun a => (k a).run) fun a => (f a).run := by
    intro γ q k h
    funext s
    unfold P.bind
    rcases q s with ⟨r, s'⟩
    cases r with
    | ok a => dsimp only; rw [h]; rfl
    | _ => rfl
  induction p with
  | ret a => rfl
  | peekThen k ih => exact hb _ k ih
  | peekSkipThen k ih => exact hb _ k ih
  | bumpThen k ih => exact hb _ k ih
  | addErrorThen e k ih => exact hb _ (fun _ => k) fun _ => ih
  | leadingThen k ih => exact hb _ k ih
  | trailingThen l k ih => exact hb _ k ih
  | setTextModeThen b k ih =>
    funext s
    show (k.bind f).run _ = _
    rw [ih]
    rfl
  | assertNoPeekThen k ih =>
    funext s
    show (if s.peek.isNone then (k.bind f).run s else (.panic, s)) = _
    rw [ih]
    show _ = P.bind (fun s => if s.peek.isNone then k.run s else (.panic, s)) _ s
    unfold P.bind
    dsimp only
    split <;> rfl
  | failed => rfl
  | panicked => rfl
  | outOfFuel => rfl

/-- `expect_eq` on the expected token. -/
theorem ok_expectEq {α : Type} {t : Token} {sp : Span} {k : Span → Prog α} {s : PState} {v} {Q} (hv : view s = some (t, sp) :: v)
    (ht : t.isTrivia = false) (h : ∀ s', view s' = v → Ok ((k sp).run s') Q) : Ok ((expectEq t >>= k).run s) Q := by
  refine ok_peekSkip (k := fun x => ((match x with
    | some (tok, _) => if tok = t then bump else unexpected (.oneOf [.token t])
    | none => unexpected (.oneOf [.token t])) : Prog Span) >>= k) hv fun s' hv' hp => ?_
  dsimp only
  rw [if_pos rfl]
  exact ok_bumpThen (k := k) hv' hp ht h

theorem ok_header {fuel len : Nat} {s : PState} (h : GoodStart (view s)) : Ok ((parseHeader fuel len).run s) fun _ _ => True := by
  generalize hv : view s = v at h
  cases h with
  | empty =>
    refine (sees_peek s _ hv (by simp)).bind fun a s' ⟨h1, h2, h3⟩ => ?_
    cases a with
    | some x => cases h3
    | none => trivial
  | @bare x v hx =>
    refine ok_peek hv fun s' _ _ => ?_
    obtain ⟨t, sp⟩ := x
    dsimp only [Prog.bind]
    rw [if_neg hx]
    trivial
  | @syntax' s1 s2 s3 s4 p v hpr =>
    refine ok_peek hv fun s' hv _ => ?_
    dsimp only [Prog.bind]
    rw [if_pos rfl]
    have h : Ok ((parseSyntax fuel).run s') fun _ _ => True := by
      refine (ok_leading hv (by simp)).bind fun lead s2 hv => ?_
      refine ok_expectEq hv rfl fun s2 hv => ?_
      refine ok_expectEq hv rfl fun s2 hv => ?_
      refine ok_peek hv fun s2 hv _ => ?_
      refine ok_peekSkip hv fun s2 hv hp => ?_
      refine ok_bumpThen hv hp rfl fun s2 hv => ?_
      cases fuel with
      | zero => trivial
      | succ n =>
        refine ok_peekSkip hv fun s3 hv3 _ => ?_
        rcases hpr with rfl | rfl
        · refine ok_expectEq hv3 rfl fun s2 hv => ?_
          exact ok_trailing.bind fun _ _ _ => trivial
        · refine ok_expectEq hv3 rfl fun s2 hv => ?_
          exact ok_trailing.bind fun _ _ _ => trivial
    rw [run_bind]
    exact h.bind fun _ _ _ => trivial

end Verif.Blame
