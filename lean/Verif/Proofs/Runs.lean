import Verif.Proofs.Ahead
import Verif.Proofs.GoodM3
/-! A run of a grammar method on the parser state does what the method does on the significant tokens ahead. -/
namespace Verif.Exec
open Parse Lex Prog Blame

/-- The result satisfies `Q`, and the state `E` if the method failed (a panic or an exhausted counter is excluded elsewhere). -/
def Rz {α : Type} (x : Res α × PState) (E : PState → Prop) (Q : α → PState → Prop) : Prop :=
  match x with
  | (.ok a, s) => Q a s
  | (.err, s) => E s
  | _ => True

theorem Rz.bind {α β : Type} {p : Parse.P α} {f : α → Parse.P β} {s} {E E' : PState → Prop} {Q : α → PState → Prop} {R : β → PState → Prop}
    (h : Rz (p s) E Q) (he : ∀ s, E s → E' s) (hf : ∀ a s', Q a s' → Rz (f a s') E' R) : Rz (P.bind p f s) E' R := by
  unfold P.bind
  rcases hp : p s with ⟨r, s'⟩
  rw [hp] at h
  cases r with
  | ok a => exact hf a s' h
  | err => exact he _ h
  | panic => trivial
  | oof => trivial

theorem Rz.mono {α : Type} {x : Res α × PState} {E E' : PState → Prop} {Q R : α → PState → Prop} (h : Rz x E Q) (he : ∀ s, E s → E' s)
    (hR : ∀ a s, Q a s → R a s) : Rz x E' R := by
  rcases x with ⟨r, s⟩
  cases r with
  | ok a => exact hR a s h
  | err => exact he s h
  | _ => exact h

theorem Rz.keep {α : Type} {I : PState → Prop} {p : Parse.P α} {s} {E : PState → Prop} {Q : α → PState → Prop} (hk : Keeps I p) (hs : I s)
    (h : Rz (p s) E Q) : Rz (p s) (fun s => E s ∧ I s) (fun a s => Q a s ∧ I s) := by
  have hk := hk s hs
  rcases hp : p s with ⟨r, s'⟩
  rw [hp] at h hk
  cases r with
  | ok a => exact ⟨h, hk⟩
  | err => exact ⟨h, hk⟩
  | _ => trivial

/-- The next piece of the source is no token, and that is cached. -/
def Bad (v : List (Option STok)) (s : PState) : Prop := view s = v ∧ v.head? = some none ∧ s.peek = some (.error ())

theorem rz_peekComments {s : PState} {v} (hv : view s = v) :
    Rz (P.peekComments s) (Bad v) fun a s' => view s' = v ∧ s'.peek = a.map .ok ∧ (a = none → v = []) := by
  unfold P.peekComments
  split
  · rename_i hp; exact ⟨hv, hp, nofun⟩
  · rename_i hp
    refine ⟨hv, ?_, hp⟩
    rw [← hv]
    unfold view
    rw [hp]
    rfl
  · rename_i hp
    simp only
    obtain ⟨c1, c2, c3⟩ := next_same s.tf s.pos s.rest s.errs
    have hf := next_facts s.tf s.pos s.rest s.errs
    have hv' : view s = significant (rawToks s.pos s.rest) := by unfold view sigToks; rw [hp]; rfl
    rw [rawToks_unfold s.pos, ← c1, ← c2, ← c3, hv] at hv'
    clear hv
    revert hv' hf
    generalize Lex.next s.tf s.pos s.rest s.errs = o
    intro hf hv
    split
    · rename_i hr
      rw [hr] at hv
      refine ⟨?_, hp, fun _ => hv⟩
      have hnil : ∀ p, rawToks p [] = [] := by
        intro p; rw [rawToks_unfold p]; rfl
      rw [hv]
      show _ ++ significant (rawToks o.span.stop o.rest) = []
      rw [(hf.eof_rest hr).1, hnil]
      show (match s.peek with | some (.ok x) => significant [(some x.1, x.2)] | some (.error _) => [none] | none => []) ++ [] = []
      rw [hp]
      rfl
    · rename_i t hr
      rw [hr] at hv
      refine ⟨?_, rfl, nofun⟩
      rw [hv]
      show _ = significant ((some t, o.span) :: rawToks o.span.stop o.rest)
      rw [significant_cons_some]
      rfl
    · rename_i hr
      rw [hr] at hv
      refine ⟨?_, by rw [hv]; rfl, rfl⟩
      rw [hv]
      rfl

theorem rz_bump {s : PState} {x : STok} {E} (hp : s.peek = some (.ok x)) :
    Rz (P.bump s) E fun sp s' => sp = x.2 ∧ view s = (if x.1.isTrivia then [] else [some x]) ++ view s' ∧ s'.peek = none := by
  unfold P.bump
  rw [hp]
  obtain ⟨t, sp⟩ := x
  have : ∀ s' : PState, s'.pos = s.pos → s'.rest = s.rest → s'.peek = none → view s = (if t.isTrivia then [] else [some (t, sp)]) ++ view s' := by
    intro s' h1 h2 h3
    unfold view
    rw [hp, h1, h2, h3]
    cases ht : t.isTrivia with
    | true => simp [significant, ht]
    | false => simp [significant, ht]
  show Rz (.ok sp, if t.isTrivia then _ else _) _ _
  split
  · rename_i ht
    rw [if_pos ht] at this
    exact ⟨rfl, this { s with peek := none } rfl rfl rfl, rfl⟩
  · rename_i ht
    rw [if_neg ht] at this
    exact ⟨rfl, this { s with peek := none, comments := s.comments.reset } rfl rfl rfl, rfl⟩

theorem rz_onComments {f : CState → Option CState} {s : PState} {E} :
    Rz (P.onComments f s) E fun _ s' => view s' = view s ∧ s'.peek = s.peek := by
  unfold P.onComments
  split
  · exact ⟨rfl, rfl⟩
  · trivial

/-- What a look ahead finds. -/
def Found (v : List (Option STok)) (a : Option STok) (s : PState) : Prop :=
  view s = v ∧ s.peek = a.map .ok ∧ v.head? = a.map some ∧ ∀ x, a = some x → x.1.isTrivia = false

/-- A look ahead finds the first of the significant tokens ahead. -/
def Sees2 (p : Parse.P (Option STok)) : Prop := ∀ s v, view s = v → Rz (p s) (Bad v) (Found v)

theorem sees_after {f : Option STok → Parse.P (Option STok)}
    (hf : ∀ a s v, view s = v → s.peek = a.map .ok → (a = none → v = []) → Rz (f a s) (Bad v) (Found v)) :
    Sees2 (P.peekComments >>= f) := by
  intro s v hv
  refine (rz_peekComments hv).bind (fun _ h => h) fun a s' ⟨h1, h2, h3⟩ => ?_
  exact hf a s' v h1 h2 h3

theorem sees_trivia {α : Type} {f : α → Parse.P (Option STok)} {p : Parse.P α} {s : PState} {v}
    (hp : Rz (p s) (Bad v) fun _ s' => view s' = v) (hf : ∀ a, Sees2 (f a)) : Rz ((p >>= f) s) (Bad v) (Found v) :=
  hp.bind (fun _ h => h) fun a s' h => hf a s' v h

theorem bump_trivia {s : PState} {x : STok} {v E} (hv : view s = v) (hp : s.peek = some (.ok x)) (ht : x.1.isTrivia = true) :
    Rz (P.bump s) E fun _ s' => view s' = v :=
  (rz_bump (E := E) hp).mono (fun _ h => h) fun a s' ⟨_, h, _⟩ => by rw [if_pos ht] at h; rw [← hv, h]; rfl

theorem found_tok {s : PState} {x : STok} {v} (hv : view s = v) (hp : s.peek = some (.ok x)) (ht : x.1.isTrivia = false) :
    Found v (some x) s :=
  ⟨hv, hp, done_tok hv hp ht, fun _ h => by cases h; exact ht⟩

theorem found_none {s : PState} {v} (hv : view s = v) (hp : s.peek = none) (hz : v = []) : Found v none s :=
  ⟨hv, hp, by rw [hz]; rfl, nofun⟩

theorem sees_skip : ∀ n, Sees2 (P.peekSkipLoop n)
  | 0 => fun _ _ _ => trivial
  | n + 1 => by
    refine sees_after fun a s v hv hp hz => ?_
    cases a with
    | none => exact found_none hv hp (hz rfl)
    | some x =>
      dsimp only
      split
      · rename_i ht
        exact sees_trivia (bump_trivia hv hp ht) fun _ => sees_skip n
      · rename_i ht
        exact found_tok hv hp (by simpa using ht)

theorem sees_peekSkip : Sees2 P.peekSkip := fun s => sees_skip _ s

theorem sees_on {f : CState → Option CState} {g : Unit → Parse.P (Option STok)} (hg : ∀ a, Sees2 (g a)) : Sees2 (P.onComments f >>= g) :=
  fun _ _ hv => sees_trivia (rz_onComments.mono (fun _ h => h) fun _ _ h => h.1.trans hv) hg

theorem done_on {f : CState → Option CState} {s : PState} {a : Option STok} {v} (h : Found v a s) :
    Rz ((P.onComments f >>= fun _ => pure a) s) (Bad v) (Found v) :=
  (rz_onComments (E := Bad v)).bind (fun _ h => h) fun _ _ h' => ⟨h'.1.trans h.1, h'.2.trans h.2.1, h.2.2⟩

theorem sees_loop : ∀ n, Sees2 (P.peekLoop n)
  | 0 => fun _ _ _ => trivial
  | n + 1 => by
    have ih := sees_loop n
    refine sees_after fun a s v hv hp hz => ?_
    split
    · exact sees_trivia (bump_trivia hv hp rfl) fun _ => sees_on fun _ => ih
    · refine sees_trivia (bump_trivia hv hp rfl) fun _ => sees_on fun _ => sees_after fun a s v hv hp hz => ?_
      split
      · exact sees_trivia (bump_trivia hv hp rfl) fun _ => ih
      · exact ih s v hv
    · exact sees_trivia (bump_trivia hv hp rfl) fun _ => sees_on fun _ => sees_on fun _ => ih
    · exact done_on (found_none hv hp (hz rfl))
    · rename_i t sp _ _ _
      have hd : Found v (some (t, sp)) s := found_tok hv hp (by cases t <;> first | rfl | simp_all)
      split
      · exact done_on hd
      · exact hd

theorem sees_rest : Sees2 P.peekRest := fun s => sees_loop _ s

theorem sees_first : Sees2 P.peekFirst := by
  refine sees_after fun a s v hv hp hz => ?_
  split
  · exact sees_trivia (bump_trivia hv hp rfl) fun _ => sees_on fun _ => sees_on fun _ => sees_rest
  · refine sees_trivia (bump_trivia hv hp rfl) fun _ => sees_after fun a s v hv hp hz => ?_
    split
    · exact sees_trivia (bump_trivia hv hp rfl) fun _ => sees_on fun _ => sees_rest
    · exact sees_peekSkip s v hv
  · exact sees_trivia (bump_trivia hv hp rfl) fun _ => sees_rest
  · cases a with
    | none => exact found_none hv hp (hz rfl)
    | some x =>
      obtain ⟨t, sp⟩ := x
      exact found_tok hv hp (by cases t <;> first | rfl | simp_all)

theorem sees_peek : Sees2 P.peek := by
  intro s v
  unfold P.peek
  split
  · exact sees_first s v
  · exact sees_rest s v

/-- The cached token is significant. -/
def NT (s : PState) : Prop := ∀ x, s.peek = some (.ok x) → x.1.isTrivia = false

theorem Found.nt {v a s} (h : Found v a s) : NT s := by
  intro x hx
  rw [h.2.1] at hx
  cases a with
  | none => cases hx
  | some y => cases hx; exact h.2.2.2 _ rfl
theorem Bad.nt {v s} (h : Bad v s) : NT s := by
  intro x hx
  rw [h.2.2] at hx
  cases hx

theorem rz_peekIgnore {s : PState} {v E} (hv : view s = v) : Rz (P.peekIgnore s) E fun _ s' => view s' = v ∧ NT s' := by
  unfold P.peekIgnore
  have h := sees_peek s v hv
  rcases hp : P.peek s with ⟨r, s'⟩
  rw [hp] at h
  cases r with
  | ok a => exact ⟨h.1, Found.nt h⟩
  | err => exact ⟨h.1, Bad.nt h⟩
  | _ => trivial

theorem rz_leading {s : PState} {v E} (hv : view s = v) : Rz (P.leading s) E fun _ s' => view s' = v ∧ NT s' :=
  (rz_peekIgnore (E := E) hv).bind (p := P.peekIgnore) (fun _ h => h) fun _ _ h => h
theorem rz_trailing {l} {s : PState} {v E} (hv : view s = v) : Rz (P.trailing l s) E fun _ s' => view s' = v ∧ NT s' :=
  (rz_peekIgnore (E := E) hv).bind (p := P.peekIgnore) (fun _ h => h) fun _ _ h => h

/-! ### Unexpected tokens reported -/

/-- An "unexpected token" diagnostic, or one about the end of the file (not one of the lexer's). -/
def ut3 : ParseErrorKind → Option (Expect × Option STok)
  | .unexpectedToken ex t sp => some (ex, some (t, sp))
  | .unexpectedEof ex => if Spec.lexEnd ex then none else some (ex, none)
  | _ => none

/-- These diagnostics so far. -/
def uts (s : PState) : List (Expect × Option STok) := s.errs.filterMap ut3

theorem ut3_norm (e) : ut3 (norm e) = ut3 e := by cases e <;> rfl
theorem ut3_lex {e} (h : isLexical e = true) : ut3 e = none := by
  cases e <;> first | rfl | cases h; done | exact if_pos h
theorem ut3_none {e} (h : blame? e = none) (h' : eof? e = none) : ut3 e = none := by
  cases e <;> first | rfl | cases h; done | cases h'

theorem uts_stable (U) : Stable0 (fun s => uts s = U) where
  peekComments := by
    intro s hs
    unfold P.peekComments
    split
    · exact hs
    · exact hs
    · simp only
      have hx := ext_filterMap ut3_norm (fun _ => ut3_lex) (next_ext s.tf s.pos s.rest s.errs)
      revert hx
      generalize Lex.next s.tf s.pos s.rest s.errs = o
      intro hx
      split
      · exact hx.trans hs
      · exact hx.trans hs
      · show (o.errs ++ [_]).filterMap ut3 = U
        rw [List.filterMap_append]
        show _ ++ [] = U
        rw [List.append_nil]
        exact hx.trans hs
  bump := by
    intro s hs
    unfold P.bump
    split
    · simp only; split <;> exact hs
    · exact hs
  comments := fun _ _ h => h
  tf := fun _ _ h => h
  clear := fun _ h => h

/-- The tokens without their positions. -/
abbrev toks (v : List (Option STok)) : Toks := Spec.unplaced v

/-- How a run goes, given how the method goes on the tokens. -/
def Runs {α : Type} (R : α → α → Prop) (r : Ex α) (v : List (Option STok)) (U : List (Expect × Option STok)) (x : Res α × PState) : Prop :=
  Rz x (fun s' => NT s' ∧ view s' <:+ v ∧
      ((∃ ex t sp l, view s' = some (t, sp) :: l ∧ uts s' = U ++ [(ex, some (t, sp))] ∧ r = .blamed ex t (toks (view s'))) ∨
        (∃ ex, view s' = [] ∧ uts s' = U ++ [(ex, none)] ∧ r = .stop (some ex) []) ∨ (uts s' = U ∧ r = .stop none (toks (view s')))))
    fun a s' => NT s' ∧ view s' <:+ v ∧ uts s' = U ∧ ∃ a0, R a0 a ∧ r = .done a0 (toks (view s'))

theorem Runs.suffix {α : Type} {R : α → α → Prop} {r : Ex α} {v v' U x} (h : Runs R r v' U x) (hv : v' <:+ v) : Runs R r v U x :=
  Rz.mono h (fun _ h => ⟨h.1, h.2.1.trans hv, h.2.2⟩) fun _ _ h => ⟨h.1, h.2.1.trans hv, h.2.2⟩

theorem run_exec {α : Type} {R : α → α → Prop} {p0 p : Prog α} (h : Same R p0 p) : ∀ c s v U, ua c p →
    (∀ x, c = some x → s.peek = some (.ok x)) → NT s → view s = v → uts s = U → Runs R (exec p0 (toks v)) v U (p.run s) := by
  have look : ∀ {p : Parse.P (Option STok)} {k0 k : Option (Token × Span) → Prog α} {cc : Option STok → Option STok} {e : Toks → Ex α}, Sees2 p →
      e [] = exec (k0 none) [] → (∀ t w, e (some t :: w) = exec (k0 (some (t, sp0))) (some t :: w)) → (∀ w, e (none :: w) = .stop none (none :: w)) →
      (∀ U, Keeps (fun s => uts s = U) p) → (∀ a x, cc a = some x → a = some x) →
      (∀ t sp, ∀ c s v U, ua c (k (some (t, sp))) → (∀ x, c = some x → s.peek = some (.ok x)) → NT s → view s = v → uts s = U →
        Runs R (exec (k0 (some (t, sp0))) (toks v)) v U ((k (some (t, sp))).run s)) →
      (∀ c s v U, ua c (k none) → (∀ x, c = some x → s.peek = some (.ok x)) → NT s → view s = v → uts s = U →
        Runs R (exec (k0 none) (toks v)) v U ((k none).run s)) →
      ∀ s v U, (∀ x, ua (cc x) (k x)) → view s = v → uts s = U →
      Runs R (e (toks v)) v U (P.bind p (fun x => (k x).run) s) := by
    intro p k0 k cc e hp e1 e2 e3 hk hcc ih ihn s v U hu hv hU
    refine (Rz.keep (hk U) hU (hp s v hv)).bind ?_ fun a s' ⟨ha, hU'⟩ => ?_
    · rintro s' ⟨hb, hU'⟩
      refine ⟨hb.nt, by rw [hb.1]; exact List.suffix_rfl, .inr (.inr ⟨hU', ?_⟩)⟩
      rw [hb.1]
      have hh := hb.2.1
      cases v with
      | nil => cases hh
      | cons y v => cases hh; exact e3 _
    · cases a with
      | none =>
        have hh := ha.2.2.1
        cases v with
        | cons y v => cases hh
        | nil =>
          show Runs R (e []) _ _ _
          rw [e1]
          exact ihn _ s' [] U (hu none) (fun x hx => nomatch (hcc none x hx)) ha.nt ha.1 hU'
      | some x =>
        have hh := ha.2.2.1
        cases v with
        | nil => cases hh
        | cons y v =>
          cases hh
          show Runs R (e (some x.1 :: toks v)) _ _ _
          rw [e2]
          exact ih x.1 x.2 _ s' _ U (hu (some x)) (fun z hz => by cases hcc _ _ hz; exact ha.2.1) ha.nt ha.1 hU'
  induction h with
  | bot p => exact fun _ _ _ _ _ _ _ _ _ => trivial
  | panicked p => exact fun _ _ _ _ _ _ _ _ _ => trivial
  | ret h =>
    intro c s v U _ _ hn hv hU
    subst hv
    exact ⟨hn, List.suffix_rfl, hU, _, h, rfl⟩
  | peek h hn ih ihn =>
    intro c s v U hu _ _ hv hU
    exact look (cc := fun _ => none) (e := exec (.peekThen _)) sees_peek rfl (fun _ _ => rfl) (fun _ => rfl) (fun U => (uts_stable U).peek) (fun _ _ h => by cases h) ih ihn s v U hu hv hU
  | peekSkip h hn ih ihn =>
    intro c s v U hu _ _ hv hU
    exact look (cc := fun x => x) (e := exec (.peekSkipThen _)) sees_peekSkip rfl (fun _ _ => rfl) (fun _ => rfl) (fun U => (uts_stable U).peekSkip) (fun _ _ h => h) ih ihn s v U hu hv hU
  | bump h ih =>
    intro c s v U hu _ hn hv hU
    unfold Prog.run
    cases hp : s.peek with
    | none => unfold P.bind P.bump; rw [hp]; trivial
    | some y =>
      cases y with
      | error => unfold P.bind P.bump; rw [hp]; trivial
      | ok x =>
        refine (Rz.keep ((uts_stable U).bump) hU (rz_bump (E := fun _ => False) hp)).bind (fun _ h => h.1.elim) fun a s' ⟨ha, hU'⟩ => ?_
        have hx := hn x hp
        obtain ⟨h1, h2, h3⟩ := ha
        rw [hx, hv] at h2
        have h2 : v = some x :: view s' := h2
        rw [h2]
        refine Runs.suffix (v' := view s') ?_ (List.suffix_cons ..)
        exact ih a none s' _ U (hu a) nofun (by intro z hz; rw [h3] at hz; cases hz) rfl hU'
  | unexpected ex hx =>
    intro c s v U _ _ _ hv hU
    show Runs R (exec (unexpected ex) (toks v)) v U (P.bind P.peekSkip (fun o => (match o with
      | some (tok, sp) => addErrorThen (.unexpectedToken ex tok sp) .failed
      | none => addErrorThen (.unexpectedEof ex) .failed : Prog α).run) s)
    refine (Rz.keep ((uts_stable U).peekSkip) hU (sees_peekSkip s v hv)).bind ?_ fun a s' ⟨ha, hU'⟩ => ?_
    · rintro s' ⟨hb, hU'⟩
      refine ⟨hb.nt, by rw [hb.1]; exact List.suffix_rfl, .inr (.inr ⟨hU', ?_⟩)⟩
      rw [hb.1]
      have hh := hb.2.1
      cases v with
      | nil => cases hh
      | cons y v => cases hh; rfl
    · have hh := ha.2.2.1
      cases a with
      | none =>
        cases v with
        | cons y v => cases hh
        | nil =>
          refine ⟨ha.nt, by show view s' <:+ _; rw [ha.1]; exact List.suffix_rfl, .inr (.inl ⟨ex, ha.1, ?_, rfl⟩)⟩
          show (s'.errs ++ [_]).filterMap ut3 = _
          rw [List.filterMap_append]
          show uts s' ++ _ = _
          rw [hU']
          simp [ut3, hx]
      | some x =>
        obtain ⟨t, sp⟩ := x
        cases v with
        | nil => cases hh
        | cons y v =>
          cases hh
          refine ⟨ha.nt, by show view s' <:+ _; rw [ha.1]; exact List.suffix_rfl, .inl ⟨ex, t, sp, v, ha.1, ?_, ?_⟩⟩
          · show (s'.errs ++ [_]).filterMap ut3 = _
            rw [List.filterMap_append]
            show uts s' ++ _ = _
            rw [hU']
            rfl
          · show _ = Ex.blamed ex t (toks (view s'))
            rw [ha.1]
            rfl
  | @addError e0 e k0 k h he0 he hk ih =>
    intro c s v U hu hc hn hv hU
    unfold exec
    cases hb : blame? e0 with
    | none =>
      rw [hb] at h
      rw [he0]
      refine ih none _ v U hu.2 nofun hn hv ?_
      show (s.errs ++ [e]).filterMap ut3 = U
      rw [List.filterMap_append, List.filterMap_cons, ut3_none h.symm he]
      show _ ++ [] = U
      rw [List.append_nil]
      exact hU
    | some y =>
      rw [hb] at h
      cases e <;> first | cases h; done | skip
      rename_i ex t sp
      cases h
      obtain ⟨h1, h2⟩ := hu.1.1 _ _ _ rfl
      subst h2
      have hp := hc _ h1
      have hvv : view s = some (t, sp) :: sigToks s.pos s.rest := by
        unfold view
        rw [hp]
        have := hn _ hp
        dsimp only at this
        simp [significant, this]
      refine ⟨hn, by rw [← hv]; exact List.suffix_rfl, .inl ⟨ex, t, sp, _, hvv, ?_, ?_⟩⟩
      · show (s.errs ++ [_]).filterMap ut3 = _
        rw [List.filterMap_append]
        show uts s ++ _ = _
        rw [hU]
        rfl
      · rw [← hv]
        rfl
  | leading h ih =>
    intro c s v U hu _ hn hv hU
    refine (Rz.keep ((uts_stable U).leading) hU (rz_leading (E := fun _ => False) hv)).bind (fun _ h => h.1.elim) fun a s' ⟨ha, hU'⟩ => ?_
    exact ih a none s' _ U (hu a) nofun ha.2 ha.1 hU'
  | trailing h ih =>
    intro c s v U hu _ hn hv hU
    refine (Rz.keep ((uts_stable U).trailing _) hU (rz_trailing (E := fun _ => False) hv)).bind (fun _ h => h.1.elim) fun a s' ⟨ha, hU'⟩ => ?_
    exact ih a none s' _ U (hu a) nofun ha.2 ha.1 hU'
  | setTextMode b h ih =>
    intro c s v U hu _ hn hv hU
    exact ih none _ v U hu nofun hn hv hU
  | @assertNoPeek k0 k h ih =>
    intro c s v U hu _ hn hv hU
    show Runs R _ v U (if s.peek.isNone then k.run s else (.panic, s))
    split
    · exact ih none s v U hu nofun hn hv hU
    · trivial
  | failed =>
    intro c s v U _ _ hn hv hU
    subst hv
    exact ⟨hn, List.suffix_rfl, .inr (.inr ⟨hU, rfl⟩)⟩

end Verif.Exec
