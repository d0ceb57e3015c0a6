import Verif.Proofs.RunInv
import Verif.Proofs.LexErrs
import Verif.Proofs.Fuel
/-!
Two sources with the same tokens up to some token: as long as neither run has recorded an error, the parser does the
same on both until it has passed that token.
-/
namespace Verif.Blame
open Parse Lex

/-- An error has been recorded. -/
def Ne (s : PState) : Prop := s.errs ≠ []

theorem ne_stable : Stable Ne where
  peekComments := by
    intro s hs
    unfold P.peekComments
    split
    · exact hs
    · exact hs
    · simp only
      have := (next_facts s.tf s.pos s.rest s.errs).errs_ne hs
      split
      · exact this
      · exact this
      · show _ ++ _ ≠ []; simp
  bump := by
    intro s hs
    unfold P.bump
    split
    · simp only; split <;> exact hs
    · exact hs
  comments := fun _ _ h => h
  tf := fun _ _ h => h
  clear := fun _ h => h
  addError := fun s e h => by show _ ++ _ ≠ []; simp

/-- The token at `sp` has been passed, and it is not the first error. -/
structure Off (sp : Span) (s : PState) : Prop where
  past : s.errs = [] → sp.stop ≤ s.pos ∧ ∀ x, s.peek = some (.ok x) → x.2 ≠ sp
  head : ∀ ex t es, s.errs ≠ .unexpectedToken ex t sp :: es

theorem Off.add {sp s e} (h : Off sp s) (he : s.errs = [] → ∀ ex t, e ≠ .unexpectedToken ex t sp) :
    Off sp { s with errs := s.errs ++ [e] } where
  past := by show _ ++ _ = [] → _; simp
  head := by
    intro ex t es (h' : s.errs ++ [e] = _)
    cases hs : s.errs with
    | nil => rw [hs] at h'; injection h' with h' _; exact he hs _ _ h'
    | cons a l => rw [hs] at h'; injection h' with h' _; subst h'; exact h.head _ _ _ hs

theorem off_stable {sp : Span} (hsp : sp.start < sp.stop) : Stable0 (Off sp) where
  peekComments := by
    intro s hs
    unfold P.peekComments
    split
    · exact hs
    · exact hs
    · simp only
      have hf := next_facts s.tf s.pos s.rest s.errs
      have hx := next_ext s.tf s.pos s.rest s.errs
      revert hf hx
      generalize Lex.next s.tf s.pos s.rest s.errs = o
      intro hf hx
      have hh : ∀ ex t es, o.errs ≠ .unexpectedToken ex t sp :: es := by
        intro ex t es h
        obtain ⟨es', h'⟩ := hx.head h rfl
        exact hs.head _ _ _ h'
      have hn : o.errs = [] → sp.stop ≤ s.pos := by
        intro h
        cases he : s.errs with
        | nil => exact (hs.past he).1
        | cons a l => exact absurd h (hf.errs_ne (by rw [he]; simp))
      have h1 := hf.start_ge
      have h2 := hf.start_le
      split
      · rename_i hp _ _
        refine ⟨fun h => ⟨?_, ?_⟩, hh⟩
        · have := hn h; show _ ≤ o.span.stop; omega
        · intro x hx; exact absurd (hp.symm.trans hx) (by simp)
      · refine ⟨fun h => ⟨?_, ?_⟩, hh⟩
        · have := hn h; show _ ≤ o.span.stop; omega
        · intro x hx
          injection hx with hx; injection hx with hx; subst hx
          intro (h' : o.span = sp)
          have := hn h
          rw [h'] at h1
          omega
      · refine ⟨fun h => ?_, ?_⟩
        · exact absurd h (by show ¬ (_ ++ _ = []); simp)
        · intro _ _ es (h' : o.errs ++ [_] = _)
          cases hs : o.errs with
          | nil => rw [hs] at h'; injection h' with h' _; cases h'
          | cons a l => rw [hs] at h'; injection h' with h' _; subst h'; exact hh _ _ _ hs
  bump := by
    intro s hs
    unfold P.bump
    split
    · simp only; split <;> exact ⟨fun h => ⟨(hs.past h).1, nofun⟩, hs.head⟩
    · exact hs
  comments := fun _ _ h => ⟨h.past, h.head⟩
  tf := fun _ _ h => ⟨h.past, h.head⟩
  clear := fun _ h => ⟨fun h' => ⟨(h.past h').1, nofun⟩, h.head⟩

/-- Both states are before or at the token `t` at `sp`, and agree on everything read. -/
structure Sync (t : Token) (sp : Span) (s1 s2 : PState) : Prop where
  e1 : s1.errs = []
  e2 : s2.errs = []
  pos : s1.pos = s2.pos
  span : s1.span = s2.span
  tf : s1.tf = s2.tf
  peek : s1.peek = s2.peek
  comments : s1.comments = s2.comments
  at' : (s1.peek = some (.ok (t, sp)) ∧ sp.stop ≤ s1.pos) ∨
    ∃ pre r1 r2, rawToks s1.pos s1.rest = pre ++ (some t, sp) :: r1 ∧ rawToks s2.pos s2.rest = pre ++ (some t, sp) :: r2

/-- The outcomes of two runs. -/
def Out (t : Token) (sp : Span) {α : Type} (Q : α → Prop) (x1 x2 : Res α × PState) : Prop :=
  x1.1 = .oof ∨ x2.1 = .oof ∨ Ne x2.2 ∨ Off sp x1.2 ∨ (x1.1 = x2.1 ∧ (∀ a, x1.1 = .ok a → Q a) ∧ Sync t sp x1.2 x2.2)

/-- Two methods that do the same up to the token. -/
structure Sim (t : Token) (sp : Span) {α : Type} (Q : α → Prop) (p q : Parse.P α) : Prop where
  k1 : Keeps (Off sp) p
  k2 : Keeps Ne q
  sim : ∀ s1 s2, Sync t sp s1 s2 → Out t sp Q (p s1) (q s2)

variable {t : Token} {sp : Span}

theorem Sim.bind {α β : Type} {Q : α → Prop} {Q' : β → Prop} {p q : Parse.P α} {f g : α → Parse.P β} (h : Sim t sp Q p q)
    (hf : ∀ a, Q a → Sim t sp Q' (f a) (g a)) (k1 : ∀ a, Keeps (Off sp) (f a)) (k2 : ∀ a, Keeps Ne (g a)) :
    Sim t sp Q' (p >>= f) (q >>= g) where
  k1 := h.k1.bind k1
  k2 := h.k2.bind k2
  sim := by
    intro s1 s2 hs
    have h' := h.sim s1 s2 hs
    show Out t sp Q' (P.bind p f s1) (P.bind q g s2)
    unfold P.bind
    revert h'
    rcases p s1 with ⟨r1, s1'⟩
    rcases q s2 with ⟨r2, s2'⟩
    intro h'
    rcases h' with h' | h' | h' | h' | ⟨e, hq, hs'⟩
    · cases h'; exact .inl rfl
    · cases h'; exact .inr (.inl rfl)
    · refine .inr (.inr (.inl ?_))
      cases r2 with
      | ok a => exact k2 a _ h'
      | _ => exact h'
    · refine .inr (.inr (.inr (.inl ?_)))
      cases r1 with
      | ok a => exact k1 a _ h'
      | _ => exact h'
    · cases (show r1 = r2 from e)
      cases r1 with
      | ok a => exact (hf a (hq a rfl)).sim _ _ hs'
      | err => exact .inr (.inr (.inr (.inr ⟨rfl, nofun, hs'⟩)))
      | panic => exact .inr (.inr (.inr (.inr ⟨rfl, nofun, hs'⟩)))
      | oof => exact .inl rfl

theorem Sim.pure {α : Type} {Q : α → Prop} {a : α} (h : Q a) : Sim t sp Q (Pure.pure a : Parse.P α) (Pure.pure a) where
  k1 := Keeps.pure _
  k2 := Keeps.pure _
  sim := fun _ _ hs => .inr (.inr (.inr (.inr ⟨rfl, fun b hb => by cases hb; exact h, hs⟩)))

theorem rawToks_cons {pos s y spn l} (h : rawToks pos s = (y, spn) :: l) :
    (Lex.next false pos s []).span = spn ∧
    (Lex.next false pos s []).res = (match y with | some a => .tok a | none => .error) ∧
    rawToks (Lex.next false pos s []).span.stop (Lex.next false pos s []).rest = l := by
  rw [rawToks_unfold] at h
  revert h
  generalize Lex.next false pos s [] = o
  intro h
  cases hr : o.res with
  | eof => rw [hr] at h; cases h
  | tok a => rw [hr] at h; injection h with h1 h2; cases h1; exact ⟨rfl, rfl, h2⟩
  | error => rw [hr] at h; injection h with h1 h2; cases h1; exact ⟨rfl, rfl, h2⟩

section
variable (hsp : sp.start < sp.stop)
include hsp

theorem sim_peekComments : Sim t sp (· ≠ none) P.peekComments P.peekComments where
  k1 := (off_stable hsp).peekComments
  k2 := ne_stable.peekComments
  sim := by
    intro s1 s2 hs
    unfold P.peekComments
    rw [← hs.peek, ← hs.tf, ← hs.pos, hs.e1, hs.e2]
    have hat := hs.at'
    rcases hp : s1.peek with _ | (_ | x)
    · dsimp only
      rw [hp] at hat
      obtain ⟨pre, r1, r2, h1, h2⟩ := hat.resolve_left (by simp)
      have key : ∃ y spn l1 l2, rawToks s1.pos s1.rest = (y, spn) :: l1 ∧ rawToks s2.pos s2.rest = (y, spn) :: l2 ∧
          ((y = some t ∧ spn = sp) ∨ ∃ pre r1 r2, l1 = pre ++ (some t, sp) :: r1 ∧ l2 = pre ++ (some t, sp) :: r2) := by
        cases pre with
        | nil => exact ⟨_, _, _, _, h1, h2, .inl ⟨rfl, rfl⟩⟩
        | cons x pre => exact ⟨_, _, _, _, h1, h2, .inr ⟨_, _, _, rfl, rfl⟩⟩
      obtain ⟨y, spn, l1, l2, g1, g2, g3⟩ := key
      rw [← hs.pos] at g2
      obtain ⟨a1, a2, a3⟩ := rawToks_cons g1
      obtain ⟨b1, b2, b3⟩ := rawToks_cons g2
      obtain ⟨c1, c2, c3⟩ := next_same s1.tf s1.pos s1.rest []
      obtain ⟨d1, d2, d3⟩ := next_same s1.tf s1.pos s2.rest []
      rw [← c3, ← c2] at a3
      rw [← d3, ← d2] at b3
      rw [← c3] at a1
      rw [← d3] at b1
      rw [← c1] at a2
      rw [← d1] at b2
      have hx := next_ext s1.tf s1.pos s1.rest []
      revert a1 a2 a3 b1 b2 b3 hx
      generalize Lex.next s1.tf s1.pos s1.rest [] = o1
      generalize Lex.next s1.tf s1.pos s2.rest [] = o2
      intro a1 a2 a3 b1 b2 b3 hx
      rcases o1 with ⟨re1, sp1, rest1, er1⟩
      rcases o2 with ⟨re2, sp2, rest2, er2⟩
      dsimp only at *
      subst a1 b1 a2 b2
      cases y with
      | none => exact .inr (.inr (.inl (by show _ ++ _ ≠ []; simp)))
      | some a =>
        dsimp only
        by_cases he2 : er2 = []
        · by_cases he1 : er1 = []
          · subst he1 he2
            refine .inr (.inr (.inr (.inr ⟨rfl, fun b hb => by cases hb; nofun, ⟨rfl, rfl, rfl, rfl, ?_, rfl, hs.comments, ?_⟩⟩)))
            · rfl
            · rcases g3 with ⟨e1, e2⟩ | ⟨p', r1', r2', e1, e2⟩
              · cases e1; subst e2; exact .inl ⟨rfl, Nat.le_refl _⟩
              · exact .inr ⟨p', r1', r2', by rw [← e1]; exact a3, by rw [← e2]; exact b3⟩
          · refine .inr (.inr (.inr (.inl ⟨fun h => absurd h he1, fun _ _ es h => ?_⟩)))
            obtain ⟨_, h'⟩ := hx.head h rfl
            cases h'
        · exact .inr (.inr (.inl he2))
    · exact .inr (.inr (.inr (.inr ⟨rfl, nofun, hs⟩)))
    · exact .inr (.inr (.inr (.inr ⟨rfl, fun b hb => by cases hb; nofun, hs⟩)))

theorem sim_bump : Sim t sp (fun _ => True) P.bump P.bump where
  k1 := (off_stable hsp).bump
  k2 := ne_stable.bump
  sim := by
    intro s1 s2 hs
    unfold P.bump
    rw [← hs.peek]
    rcases hp : s1.peek with _ | (_ | x)
    · exact .inr (.inr (.inr (.inr ⟨rfl, nofun, hs⟩)))
    · exact .inr (.inr (.inr (.inr ⟨rfl, nofun, hs⟩)))
    · dsimp only
      rcases hs.at' with ⟨h1, h2⟩ | h
      · refine .inr (.inr (.inr (.inl ?_)))
        dsimp only
        split <;> exact ⟨fun _ => ⟨h2, nofun⟩, fun _ _ es h => by
          have h : s1.errs = _ := h
          rw [hs.e1] at h; cases h⟩
      · refine .inr (.inr (.inr (.inr ⟨rfl, fun _ _ => trivial, ?_⟩)))
        dsimp only
        split
        · exact ⟨hs.e1, hs.e2, hs.pos, hs.span, hs.tf, rfl, hs.comments, .inr h⟩
        · exact ⟨hs.e1, hs.e2, hs.pos, hs.span, hs.tf, rfl, congrArg CState.reset hs.comments, .inr h⟩

theorem sim_onComments (f : CState → Option CState) : Sim t sp (fun _ => True) (P.onComments f) (P.onComments f) where
  k1 := (off_stable hsp).onComments f
  k2 := ne_stable.onComments f
  sim := by
    intro s1 s2 hs
    unfold P.onComments
    rw [← hs.comments]
    cases f s1.comments with
    | none => exact .inr (.inr (.inr (.inr ⟨rfl, nofun, hs⟩)))
    | some c => exact .inr (.inr (.inr (.inr ⟨rfl, fun _ _ => trivial, ⟨hs.e1, hs.e2, hs.pos, hs.span, hs.tf, hs.peek, rfl, hs.at'⟩⟩)))

theorem sim_oofl {α : Type} {Q : α → Prop} {q : Parse.P α} (hq : Keeps Ne q) : Sim t sp Q (fun s => (.oof, s)) q :=
  ⟨fun _ h => h, hq, fun _ _ _ => .inl rfl⟩

theorem sim_oofr {α : Type} {Q : α → Prop} {p : Parse.P α} (hp : Keeps (Off sp) p) : Sim t sp Q p (fun s => (.oof, s)) :=
  ⟨hp, fun _ h => h, fun _ _ _ => .inr (.inl rfl)⟩

/-- Keeping an invariant, method by method. -/
local macro "kp" h:term : tactic => `(tactic| repeat' first
  | exact Keeps.pure _
  | exact Stable0.bump $h
  | exact Stable0.peekComments $h
  | exact Stable0.onComments $h _
  | exact Stable0.peekSkipLoop $h _
  | exact Stable0.peekLoop $h _
  | exact Stable0.peekSkip $h
  | exact Stable0.peekRest $h
  | refine Keeps.bind ?_ fun _ => ?_
  | split)

theorem sim_peekSkipLoop : ∀ n m, Sim t sp (· ≠ none) (P.peekSkipLoop n) (P.peekSkipLoop m)
  | 0, _ => sim_oofl hsp (ne_stable.peekSkipLoop _)
  | _ + 1, 0 => sim_oofr hsp ((off_stable hsp).peekSkipLoop _)
  | n + 1, m + 1 => by
    have hI := off_stable hsp
    have hJ := ne_stable.toStable0
    refine (sim_peekComments hsp).bind (fun x hx => ?_) (fun x => by kp hI) (fun x => by kp hJ)
    cases x with
    | none => exact absurd rfl hx
    | some x =>
      dsimp only
      split
      · exact (sim_bump hsp).bind (fun _ _ => sim_peekSkipLoop n m) (fun _ => hI.peekSkipLoop n) (fun _ => hJ.peekSkipLoop m)
      · exact Sim.pure nofun

theorem sim_peekSkip : Sim t sp (· ≠ none) P.peekSkip P.peekSkip where
  k1 := (off_stable hsp).peekSkip
  k2 := ne_stable.peekSkip
  sim := fun s1 s2 hs => (sim_peekSkipLoop hsp _ _).sim s1 s2 hs

theorem sim_peekLoop : ∀ n m, Sim t sp (· ≠ none) (P.peekLoop n) (P.peekLoop m)
  | 0, _ => sim_oofl hsp (ne_stable.peekLoop _)
  | _ + 1, 0 => sim_oofr hsp ((off_stable hsp).peekLoop _)
  | n + 1, m + 1 => by
    have hI := off_stable hsp
    have hJ := ne_stable.toStable0
    have ih := sim_peekLoop n m
    refine (sim_peekComments hsp).bind (fun x hx => ?_) (fun x => by kp hI) (fun x => by kp hJ)
    split
    · refine (sim_bump hsp).bind (fun _ _ => ?_) (fun _ => by kp hI) (fun _ => by kp hJ)
      exact (sim_onComments hsp _).bind (fun _ _ => ih) (fun _ => by kp hI) (fun _ => by kp hJ)
    · refine (sim_bump hsp).bind (fun _ _ => ?_) (fun _ => by kp hI) (fun _ => by kp hJ)
      refine (sim_onComments hsp _).bind (fun _ _ => ?_) (fun _ => by kp hI) (fun _ => by kp hJ)
      refine (sim_peekComments hsp).bind (fun y hy => ?_) (fun x => by kp hI) (fun x => by kp hJ)
      split
      · exact (sim_bump hsp).bind (fun _ _ => ih) (fun _ => by kp hI) (fun _ => by kp hJ)
      · exact ih
    · refine (sim_bump hsp).bind (fun _ _ => ?_) (fun _ => by kp hI) (fun _ => by kp hJ)
      refine (sim_onComments hsp _).bind (fun _ _ => ?_) (fun _ => by kp hI) (fun _ => by kp hJ)
      exact (sim_onComments hsp _).bind (fun _ _ => ih) (fun _ => by kp hI) (fun _ => by kp hJ)
    · exact absurd rfl hx
    · split
      · exact (sim_onComments hsp _).bind (fun _ _ => Sim.pure nofun) (fun _ => by kp hI) (fun _ => by kp hJ)
      · exact Sim.pure nofun

theorem sim_peekRest : Sim t sp (· ≠ none) P.peekRest P.peekRest where
  k1 := (off_stable hsp).peekRest
  k2 := ne_stable.peekRest
  sim := fun s1 s2 hs => (sim_peekLoop hsp _ _).sim s1 s2 hs

theorem sim_peekFirst : Sim t sp (· ≠ none) P.peekFirst P.peekFirst := by
  have hI := off_stable hsp
  have hJ := ne_stable.toStable0
  refine (sim_peekComments hsp).bind (fun x hx => ?_) (fun x => by kp hI) (fun x => by kp hJ)
  split
  · refine (sim_bump hsp).bind (fun _ _ => ?_) (fun _ => by kp hI) (fun _ => by kp hJ)
    refine (sim_onComments hsp _).bind (fun _ _ => ?_) (fun _ => by kp hI) (fun _ => by kp hJ)
    exact (sim_onComments hsp _).bind (fun _ _ => sim_peekRest hsp) (fun _ => by kp hI) (fun _ => by kp hJ)
  · refine (sim_bump hsp).bind (fun _ _ => ?_) (fun _ => by kp hI) (fun _ => by kp hJ)
    refine (sim_peekComments hsp).bind (fun y hy => ?_) (fun x => by kp hI) (fun x => by kp hJ)
    split
    · refine (sim_bump hsp).bind (fun _ _ => ?_) (fun _ => by kp hI) (fun _ => by kp hJ)
      exact (sim_onComments hsp _).bind (fun _ _ => sim_peekRest hsp) (fun _ => by kp hI) (fun _ => by kp hJ)
    · exact sim_peekSkip hsp
  · exact (sim_bump hsp).bind (fun _ _ => sim_peekRest hsp) (fun _ => by kp hI) (fun _ => by kp hJ)
  · exact Sim.pure hx

theorem sim_peek : Sim t sp (· ≠ none) P.peek P.peek where
  k1 := (off_stable hsp).peek
  k2 := ne_stable.peek
  sim := by
    intro s1 s2 hs
    unfold P.peek
    rw [hs.span]
    split
    · exact (sim_peekFirst hsp).sim s1 s2 hs
    · exact (sim_peekRest hsp).sim s1 s2 hs

theorem sim_peekIgnore : Sim t sp (fun _ => True) P.peekIgnore P.peekIgnore where
  k1 := (off_stable hsp).peekIgnore
  k2 := ne_stable.peekIgnore
  sim := by
    intro s1 s2 hs
    have h := (sim_peek hsp).sim s1 s2 hs
    unfold P.peekIgnore
    revert h
    rcases P.peek s1 with ⟨r1, s1'⟩
    rcases P.peek s2 with ⟨r2, s2'⟩
    intro h
    rcases h with h | h | h | h | ⟨e, hq, hs'⟩
    · cases h; exact .inl rfl
    · cases h; exact .inr (.inl rfl)
    · exact .inr (.inr (.inl (by cases r2 <;> exact h)))
    · exact .inr (.inr (.inr (.inl (by cases r1 <;> exact h))))
    · cases (show r1 = r2 from e)
      exact .inr (.inr (.inr (.inr (by cases r1 <;> exact ⟨rfl, fun _ _ => trivial, hs'⟩))))

theorem sim_leading : Sim t sp (fun _ => True) P.leading P.leading := by
  refine (sim_peekIgnore hsp).bind (fun _ _ => ⟨?_, ?_, ?_⟩) (fun _ s h => (off_stable hsp).comments _ _ h) (fun _ s h => h)
  · exact fun s h => (off_stable hsp).comments _ _ h
  · exact fun s h => h
  · intro s1 s2 hs
    unfold P.takeLeading
    rw [hs.comments]
    exact .inr (.inr (.inr (.inr ⟨rfl, fun _ _ => trivial, ⟨hs.e1, hs.e2, hs.pos, hs.span, hs.tf, hs.peek, rfl, hs.at'⟩⟩)))

theorem sim_trailing (l) : Sim t sp (fun _ => True) (P.trailing l) (P.trailing l) := by
  have hI := off_stable hsp
  have hJ := ne_stable.toStable0
  have h1 : Keeps (Off sp) P.takeTrailing := fun s h => hI.comments _ _ h
  have h2 : Keeps Ne P.takeTrailing := fun s h => h
  refine (sim_peekIgnore hsp).bind (fun _ _ => Sim.bind (Q := fun _ => True) ⟨h1, h2, ?_⟩ (fun a _ => Sim.pure trivial)
    (fun _ => Keeps.pure _) (fun _ => Keeps.pure _)) (fun _ => h1.bind fun _ => Keeps.pure _) (fun _ => h2.bind fun _ => Keeps.pure _)
  intro s1 s2 hs
  unfold P.takeTrailing
  rw [hs.comments]
  exact .inr (.inr (.inr (.inr ⟨rfl, fun _ _ => trivial, ⟨hs.e1, hs.e2, hs.pos, hs.span, hs.tf, hs.peek, rfl, hs.at'⟩⟩)))

end

/-! ### Methods -/

/-- The same method with two counters; the continuation for the end of the file may differ. -/
inductive Rel {α : Type} : Prog α → Prog α → Prop
  | botl (q) : Rel .outOfFuel q
  | botr (p) : Rel p .outOfFuel
  | ret (a) : Rel (.ret a) (.ret a)
  | peek {k k'} (h : ∀ x, Rel (k (some x)) (k' (some x))) : Rel (.peekThen k) (.peekThen k')
  | peekSkip {k k'} (h : ∀ x, Rel (k x) (k' x)) : Rel (.peekSkipThen k) (.peekSkipThen k')
  | bump {k k'} (h : ∀ x, Rel (k x) (k' x)) : Rel (.bumpThen k) (.bumpThen k')
  | addError (e) {k k'} (h : Rel k k') : Rel (.addErrorThen e k) (.addErrorThen e k')
  | leading {k k'} (h : ∀ x, Rel (k x) (k' x)) : Rel (.leadingThen k) (.leadingThen k')
  | trailing (l) {k k'} (h : ∀ x, Rel (k x) (k' x)) : Rel (.trailingThen l k) (.trailingThen l k')
  | setTextMode (b) {k k'} (h : Rel k k') : Rel (.setTextModeThen b k) (.setTextModeThen b k')
  | assertNoPeek {k k'} (h : Rel k k') : Rel (.assertNoPeekThen k) (.assertNoPeekThen k')
  | failed : Rel .failed .failed
  | panicked : Rel .panicked .panicked

theorem rel_of_le {α : Type} {p r : Prog α} (h : Fuel.Le p r) : ∀ {q}, Fuel.Le q r → Rel p q := by
  induction h with
  | bot => exact fun _ => .botl _
  | ret a => intro q h'; cases h' with | bot => exact .botr _ | ret => exact .ret _
  | peek h ih => intro q h'; cases h' with | bot => exact .botr _ | peek h' => exact .peek fun x => ih _ (h' _)
  | peekSkip h ih => intro q h'; cases h' with | bot => exact .botr _ | peekSkip h' => exact .peekSkip fun x => ih _ (h' _)
  | bump h ih => intro q h'; cases h' with | bot => exact .botr _ | bump h' => exact .bump fun x => ih _ (h' _)
  | addError e h ih => intro q h'; cases h' with | bot => exact .botr _ | addError _ h' => exact .addError _ (ih h')
  | leading h ih => intro q h'; cases h' with | bot => exact .botr _ | leading h' => exact .leading fun x => ih _ (h' _)
  | trailing l h ih => intro q h'; cases h' with | bot => exact .botr _ | trailing _ h' => exact .trailing _ fun x => ih _ (h' _)
  | setTextMode b h ih => intro q h'; cases h' with | bot => exact .botr _ | setTextMode _ h' => exact .setTextMode _ (ih h')
  | assertNoPeek h ih => intro q h'; cases h' with | bot => exact .botr _ | assertNoPeek h' => exact .assertNoPeek (ih h')
  | failed => intro q h'; cases h' with | bot => exact .botr _ | failed => exact .failed
  | panicked => intro q h'; cases h' with | bot => exact .botr _ | panicked => exact .panicked

/-- Only the token just looked at is reported as unexpected, which ends the method, and no token as invalid;
`c` is that token. -/
def ua {α : Type} : Option STok → Prog α → Prop
  | _, .ret _ => True
  | _, .peekThen k => ∀ x, ua none (k x)
  | _, .peekSkipThen k => ∀ x, ua x (k x)
  | _, .bumpThen k => ∀ x, ua none (k x)
  | c, .addErrorThen e k => ((∀ ex t s, e = .unexpectedToken ex t s → c = some (t, s) ∧ k = .failed) ∧ ∀ s, e ≠ .invalidToken s) ∧ ua none k
  | _, .leadingThen k => ∀ x, ua none (k x)
  | _, .trailingThen _ k => ∀ x, ua none (k x)
  | _, .setTextModeThen _ k => ua none k
  | _, .assertNoPeekThen k => ua none k
  | _, .failed => True
  | _, .panicked => True
  | _, .outOfFuel => True

theorem peekSkipLoop_cached : ∀ n s x s', P.peekSkipLoop n s = (.ok (some x), s') →
    x.1.isTrivia = false ∧ s'.peek = some (.ok x)
  | 0, _, _, _, h => by cases h
  | n + 1, s, x, s', h => by
    have h : P.bind P.peekComments _ s = _ := h
    unfold P.bind at h
    cases hp : P.peekComments s with | mk r s1 =>
    rw [hp] at h
    cases r with
    | err => cases h
    | panic => cases h
    | oof => cases h
    | ok a =>
      cases a with
      | none => cases h
      | some y =>
        dsimp only at h
        split at h
        · have h : P.bind P.bump _ s1 = _ := h
          unfold P.bind at h
          cases hb : P.bump s1 with | mk r2 s2 =>
          rw [hb] at h
          cases r2 with
          | ok a => exact peekSkipLoop_cached n _ _ _ h
          | err => cases h
          | panic => cases h
          | oof => cases h
        · rename_i hy
          cases h
          refine ⟨by simpa using hy, ?_⟩
          unfold P.peekComments at hp
          split at hp
          · rename_i heq; cases hp; exact heq
          · cases hp
          · dsimp only at hp
            split at hp
            · cases hp
            · cases hp; rfl
            · cases hp

theorem bind_keep {I : PState → Prop} {α β : Type} {p : Parse.P α} {f : α → Parse.P β} (hp : Keeps I p) {s : PState} (hs : I s)
    (hf : ∀ a s', p s = (.ok a, s') → I s' → I (f a s').2) : I (P.bind p f s).2 := by
  have h := hp s hs
  unfold P.bind
  cases hp' : p s with | mk r s' =>
  rw [hp'] at h
  cases r with
  | ok a => exact hf a s' hp' h
  | err => exact h
  | panic => exact h
  | oof => exact h

/-- A property of the state that survives blaming the token looked at, and reporting errors other than bad tokens. -/
structure StableU (I : PState → Prop) : Prop extends Stable0 I where
  add : ∀ s e, I s → (∀ ex t sp, e = .unexpectedToken ex t sp → t.isTrivia = false ∧ s.peek = some (.ok (t, sp))) →
    (∀ sp, e ≠ .invalidToken sp) → I { s with errs := s.errs ++ [e] }

theorem ua_keep {I : PState → Prop} (hI : StableU I) {α : Type} : ∀ (p : Prog α) (c s), ua c p → I s →
    (∀ x, c = some x → x.1.isTrivia = false ∧ s.peek = some (.ok x)) → I (p.run s).2 := by
  intro p
  induction p with
  | ret a => exact fun c s _ h _ => h
  | peekThen k ih => exact fun c s hu h _ => bind_keep hI.peek h fun a s' _ h' => ih a none s' (hu a) h' nofun
  | peekSkipThen k ih =>
    intro c s hu h _
    refine bind_keep hI.peekSkip h fun a s' hr h' => ih a _ s' (hu a) h' fun x hx => ?_
    cases a with
    | none => cases hx
    | some y => cases hx; exact peekSkipLoop_cached _ _ _ _ hr
  | bumpThen k ih => exact fun c s hu h _ => bind_keep hI.bump h fun a s' _ h' => ih a none s' (hu a) h' nofun
  | addErrorThen e k ih =>
    intro c s hu h hc
    exact ih none _ hu.2 (hI.add s e h (fun ex t sp he => hc _ (hu.1.1 _ _ _ he).1) hu.1.2) nofun
  | leadingThen k ih => exact fun c s hu h _ => bind_keep hI.leading h fun a s' _ h' => ih a none s' (hu a) h' nofun
  | trailingThen l k ih => exact fun c s hu h _ => bind_keep (hI.trailing l) h fun a s' _ h' => ih a none s' (hu a) h' nofun
  | setTextModeThen b k ih => exact fun c s hu h _ => ih none _ hu (hI.tf _ _ h) nofun
  | assertNoPeekThen k ih =>
    intro c s hu h _
    show I (if s.peek.isNone then k.run s else (.panic, s)).2
    split
    · exact ih none s hu h nofun
    · exact h
  | failed => exact fun c s _ h _ => h
  | panicked => exact fun c s _ h _ => h
  | outOfFuel => exact fun c s _ h _ => h

theorem off_stableU {sp : Span} (hsp : sp.start < sp.stop) : StableU (Off sp) where
  toStable0 := off_stable hsp
  add := by
    intro s e h hc _
    refine h.add fun he ex t hk => ?_
    obtain ⟨_, ht⟩ := hc _ _ _ hk
    exact (h.past he).2 _ ht rfl

theorem ua_mono {α : Type} (p : Prog α) {c} (h : ua none p) : ua c p := by
  cases p <;> first | exact h | trivial | exact ⟨⟨fun ex t s hs => (nomatch (h.1.1 ex t s hs).1), h.1.2⟩, h.2⟩

theorem ua_bind {α β : Type} (p : Prog α) {f : α → Prog β} : ∀ {c}, ua c p → (∀ a, ua none (f a)) → ua c (p >>= f) := by
  show ∀ {c}, ua c p → (∀ a, ua none (f a)) → ua c (p.bind f)
  induction p with
  | ret a => exact fun _ hf => ua_mono _ (hf a)
  | peekThen k ih => exact fun h hf x => ih x (h x) hf
  | peekSkipThen k ih => exact fun h hf x => ih x (h x) hf
  | bumpThen k ih => exact fun h hf x => ih x (h x) hf
  | addErrorThen e k ih =>
    exact fun h hf => ⟨⟨fun ex t s hs => ⟨(h.1.1 ex t s hs).1, by rw [(h.1.1 ex t s hs).2]; rfl⟩, h.1.2⟩, ih h.2 hf⟩
  | leadingThen k ih => exact fun h hf x => ih x (h x) hf
  | trailingThen l k ih => exact fun h hf x => ih x (h x) hf
  | setTextModeThen b k ih => exact fun h hf => ih h hf
  | assertNoPeekThen k ih => exact fun h hf => ih h hf
  | failed => exact fun _ _ => trivial
  | panicked => exact fun _ _ => trivial
  | outOfFuel => exact fun _ _ => trivial

theorem ua_loopM {σ β : Type} {step : σ → Prog (Step σ β)} (h : ∀ s, ua none (step s)) : ∀ n s, ua none (loopM step n s)
  | 0, _ => trivial
  | n + 1, s => by
    refine ua_bind _ (h s) fun a => ?_
    cases a with
    | next s' => exact ua_loopM h n s'
    | done b => trivial

theorem sim_run {t : Token} {sp : Span} (hsp : sp.start < sp.stop) {α : Type} {p q : Prog α} (hr : Rel p q) :
    ∀ {c}, ua c p → ∀ s1 s2, Sync t sp s1 s2 → Out t sp (fun _ => True) (p.run s1) (q.run s2) := by
  have hJ := ne_stable
  -- a look ahead followed by the same continuation
  have step : ∀ {β : Type} {Q : β → Prop} {x y : Parse.P β} {k k' : β → Prog α} {cc : β → Option STok}, Sim t sp Q x y →
      (∀ a, Q a → ∀ s1 s2, Sync t sp s1 s2 → Out t sp (fun _ => True) ((k a).run s1) ((k' a).run s2)) →
      (∀ a s s', x s = (.ok a, s') → ∀ z, cc a = some z → z.1.isTrivia = false ∧ s'.peek = some (.ok z)) → (∀ a, ua (cc a) (k a)) →
      ∀ s1 s2, Sync t sp s1 s2 →
      Out t sp (fun _ => True) (P.bind x (fun a => (k a).run) s1) (P.bind y (fun a => (k' a).run) s2) := by
    intro β Q x y k k' cc h hk hc hu s1 s2 hs
    have h' := h.sim s1 s2 hs
    unfold P.bind
    cases hx : x s1 with | mk r1 s1' =>
    cases hy : y s2 with | mk r2 s2' =>
    rw [hx, hy] at h'
    rcases h' with h' | h' | h' | h' | ⟨e, hq, hs'⟩
    · cases h'; exact .inl rfl
    · cases h'; exact .inr (.inl rfl)
    · refine .inr (.inr (.inl ?_))
      cases r2 with
      | ok a => exact hJ.run _ _ h'
      | _ => exact h'
    · refine .inr (.inr (.inr (.inl ?_)))
      cases r1 with
      | ok a => exact ua_keep (off_stableU hsp) _ _ _ (hu a) h' (hc a _ _ hx)
      | _ => exact h'
    · cases (show r1 = r2 from e)
      cases r1 with
      | ok a => exact hk a (hq a rfl) _ _ hs'
      | err => exact .inr (.inr (.inr (.inr ⟨rfl, nofun, hs'⟩)))
      | panic => exact .inr (.inr (.inr (.inr ⟨rfl, nofun, hs'⟩)))
      | oof => exact .inl rfl
  induction hr with
  | botl q => exact fun _ _ _ _ => .inl rfl
  | botr p => exact fun _ _ _ _ => .inr (.inl rfl)
  | ret a => exact fun _ s1 s2 hs => .inr (.inr (.inr (.inr ⟨rfl, fun _ _ => trivial, hs⟩)))
  | peek h ih =>
    intro c hu
    refine step (cc := fun _ => none) (sim_peek hsp) (fun a ha => ?_) (fun _ _ _ _ => nofun) hu
    cases a with
    | none => exact absurd rfl ha
    | some x => exact ih x (hu _)
  | peekSkip h ih =>
    intro c hu
    refine step (cc := fun a : Option STok => a) (sim_peekSkip hsp) (fun a ha => ih a (hu _)) (fun a s s' hr z hz => ?_) hu
    cases a with
    | none => cases hz
    | some y => cases hz; exact peekSkipLoop_cached _ _ _ _ hr
  | bump h ih =>
    intro c hu
    exact step (cc := fun _ => none) (sim_bump hsp) (fun a _ => ih a (hu _)) (fun _ _ _ _ => nofun) hu
  | @addError e k k' h ih =>
    intro c hu s1 s2 hs
    exact .inr (.inr (.inl (hJ.run k' { s2 with errs := s2.errs ++ [e] } (by show _ ++ _ ≠ []; simp))))
  | leading h ih =>
    intro c hu
    exact step (cc := fun _ => none) (sim_leading hsp) (fun a _ => ih a (hu _)) (fun _ _ _ _ => nofun) hu
  | trailing l h ih =>
    intro c hu
    exact step (cc := fun _ => none) (sim_trailing hsp l) (fun a _ => ih a (hu _)) (fun _ _ _ _ => nofun) hu
  | setTextMode b h ih =>
    intro c hu s1 s2 hs
    exact ih hu _ _ ⟨hs.e1, hs.e2, hs.pos, hs.span, rfl, hs.peek, hs.comments, hs.at'⟩
  | @assertNoPeek k k' h ih =>
    intro c hu s1 s2 hs
    show Out t sp _ (if s1.peek.isNone then k.run s1 else (.panic, s1)) (if s2.peek.isNone then k'.run s2 else (.panic, s2))
    rw [← hs.peek]
    split
    · exact ih hu _ _ hs
    · exact .inr (.inr (.inr (.inr ⟨rfl, nofun, hs⟩)))
  | failed => exact fun _ s1 s2 hs => .inr (.inr (.inr (.inr ⟨rfl, nofun, hs⟩)))
  | panicked => exact fun _ s1 s2 hs => .inr (.inr (.inr (.inr ⟨rfl, nofun, hs⟩)))

end Verif.Blame
