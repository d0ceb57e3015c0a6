import Verif.Proofs.Blame4
/-! Unexpected tokens are reported in source order, each at most once. -/
namespace Verif.Blame
open Parse Lex

/-! ### The token that is found is the one cached -/

/-- The cache holds what was found. -/
def Held (s : PState) (a : Option STok) : Prop := s.peek = a.map .ok

/-- A look ahead leaves what it returns in the cache. -/
def Looks (p : Parse.P (Option STok)) : Prop := ∀ s a s', p s = (.ok a, s') → Held s' a

theorem looks_peekComments : Looks P.peekComments := by
  intro s a s' h
  unfold P.peekComments at h
  split at h
  · rename_i heq; cases h; exact heq
  · cases h
  · rename_i heq
    dsimp only at h
    split at h
    · cases h; exact heq
    · cases h; rfl
    · cases h

theorem looks_bind {α : Type} {p : Parse.P α} {f : α → Parse.P (Option STok)} (hf : ∀ a, Looks (f a)) : Looks (p >>= f) := by
  intro s b s' h
  change P.bind p f s = _ at h
  unfold P.bind at h
  rcases hp : p s with ⟨r, s1⟩
  rw [hp] at h
  cases r with
  | ok a => exact hf a _ _ _ h
  | err => cases h
  | panic => cases h
  | oof => cases h

theorem looks_after {f : Option STok → Parse.P (Option STok)}
    (hf : ∀ a s, Held s a → ∀ b s', f a s = (.ok b, s') → Held s' b) : Looks (P.peekComments >>= f) := by
  intro s b s' h
  change P.bind P.peekComments f s = _ at h
  unfold P.bind at h
  rcases hp : P.peekComments s with ⟨r, s1⟩
  rw [hp] at h
  cases r with
  | ok a => exact hf a _ (looks_peekComments _ _ _ hp) _ _ h
  | err => cases h
  | panic => cases h
  | oof => cases h

theorem held_onComments {f : CState → Option CState} {s : PState} {a b : Option STok} {s'} (hs : Held s a)
    (h : (P.onComments f >>= fun _ => pure a) s = (.ok b, s')) : Held s' b := by
  change P.bind _ _ s = _ at h
  unfold P.bind P.onComments at h
  cases hf : f s.comments with
  | none => rw [hf] at h; cases h
  | some c => rw [hf] at h; cases h; exact hs

theorem looks_skip : ∀ n, Looks (P.peekSkipLoop n)
  | 0 => fun _ _ _ h => by cases h
  | n + 1 => by
    refine looks_after fun a s hs b s' h => ?_
    cases a with
    | none => cases h; exact hs
    | some t =>
      dsimp only at h
      split at h
      · exact looks_bind (fun _ => looks_skip n) _ _ _ h
      · cases h; exact hs

theorem looks_peekSkip : Looks P.peekSkip := fun s a s' h => looks_skip _ s a s' h

theorem looks_loop : ∀ n, Looks (P.peekLoop n)
  | 0 => fun _ _ _ h => by cases h
  | n + 1 => by
    refine looks_after fun a s hs b s' h => ?_
    have ih := looks_loop n
    split at h
    · exact looks_bind (fun _ => looks_bind fun _ => ih) _ _ _ h
    · refine looks_bind (fun _ => looks_bind fun _ => looks_bind fun y => ?_) _ _ _ h
      split
      · exact looks_bind fun _ => ih
      · exact ih
    · exact looks_bind (fun _ => looks_bind fun _ => looks_bind fun _ => ih) _ _ _ h
    · exact held_onComments hs h
    · split at h
      · exact held_onComments hs h
      · cases h; exact hs

theorem looks_rest : Looks P.peekRest := fun s a s' h => looks_loop _ s a s' h

theorem looks_first : Looks P.peekFirst := by
  refine looks_after fun a s hs b s' h => ?_
  split at h
  · exact looks_bind (fun _ => looks_bind fun _ => looks_bind fun _ => looks_rest) _ _ _ h
  · refine looks_bind (fun _ => looks_bind fun y => ?_) _ _ _ h
    split
    · exact looks_bind fun _ => looks_bind fun _ => looks_rest
    · exact looks_peekSkip
  · exact looks_bind (fun _ => looks_rest) _ _ _ h
  · cases h; exact hs

theorem looks_peek : Looks P.peek := by
  intro s a s' h
  unfold P.peek at h
  split at h
  · exact looks_first _ _ _ h
  · exact looks_rest _ _ _ h

/-! ### Order -/

/-- The unexpected tokens reported so far are in order and before the cached token; with `b`, the last one may be the
cached token itself. -/
structure Inc (b : Bool) (s : PState) : Prop where
  inc : (s.errs.filterMap utSpan).Pairwise fun x y => x.stop ≤ y.start
  pos : ∀ sp ∈ s.errs.filterMap utSpan, sp.start < sp.stop ∧ sp.stop ≤ s.pos
  cached : ∀ x, s.peek = some (.ok x) → x.2.start < x.2.stop ∧ x.2.stop ≤ s.pos ∧
    ∀ sp ∈ s.errs.filterMap utSpan, sp.stop ≤ x.2.start ∨ (b = true ∧ sp = x.2)

theorem Inc.weak {s} {b} (h : Inc false s) : Inc b s :=
  ⟨h.inc, h.pos, fun x hx => ⟨(h.cached x hx).1, (h.cached x hx).2.1, fun sp hsp => .inl (((h.cached x hx).2.2 sp hsp).resolve_right (by simp))⟩⟩

theorem Inc.bumped {s} {b} (h : Inc b s) (hp : s.peek = none) : Inc false s := ⟨h.inc, h.pos, by rw [hp]; nofun⟩

theorem inc_stable (b : Bool) : Stable0 (Inc b) where
  peekComments := by
    intro s hs
    unfold P.peekComments
    split
    · exact hs
    · exact hs
    · rename_i hp
      simp only
      have hx := next_ext s.tf s.pos s.rest s.errs
      have hf := next_facts s.tf s.pos s.rest s.errs
      revert hx hf
      generalize Lex.next s.tf s.pos s.rest s.errs = o
      intro hx hf
      have hu := ext_filterMap utSpan_norm (fun _ => utSpan_lex) hx
      have h1 := hf.start_ge
      have h2 := hf.start_le
      have hpos : ∀ sp ∈ s.errs.filterMap utSpan, sp.start < sp.stop ∧ sp.stop ≤ o.span.stop := by
        intro sp hsp
        have := hs.pos sp hsp
        omega
      split
      · exact ⟨by rw [hu]; exact hs.inc, by rw [hu]; exact hpos, by intro x hx; exact absurd (hp.symm.trans hx) (by simp)⟩
      · rename_i t hr
        refine ⟨by rw [hu]; exact hs.inc, by rw [hu]; exact hpos, ?_⟩
        intro x hx
        injection hx with hx; injection hx with hx; subst hx
        refine ⟨hf.nonempty (by rw [hr]; simp), Nat.le_refl _, ?_⟩
        rw [hu]
        intro sp hsp
        have := hs.pos sp hsp
        exact .inl (by show _ ≤ o.span.start; omega)
      · have he : ∀ sp, (o.errs ++ [ParseErrorKind.invalidToken sp]).filterMap utSpan = s.errs.filterMap utSpan := by
          intro sp
          rw [List.filterMap_append, hu]
          exact List.append_nil _
        exact ⟨by rw [he]; exact hs.inc, by rw [he]; exact hpos, nofun⟩
  bump := by
    intro s hs
    unfold P.bump
    split
    · simp only; split <;> exact ⟨hs.inc, hs.pos, nofun⟩
    · exact hs
  comments := fun _ _ h => ⟨h.inc, h.pos, h.cached⟩
  tf := fun _ _ h => ⟨h.inc, h.pos, h.cached⟩
  clear := fun _ h => ⟨h.inc, h.pos, nofun⟩

/-- The method failed. -/
def isErr {α : Type} : Res α → Bool
  | .err => true
  | _ => false

theorem inc_bind {α β : Type} {p : Parse.P α} {f : α → Parse.P β} (hp : Keeps (Inc false) p) {s : PState} (hs : Inc false s)
    (hf : ∀ a s', p s = (.ok a, s') → Inc false s' → Inc (isErr (f a s').1) (f a s').2) :
    Inc (isErr (P.bind p f s).1) (P.bind p f s).2 := by
  have h := hp s hs
  unfold P.bind
  cases hp' : p s with | mk r s' =>
  rw [hp'] at h
  cases r with
  | ok a => exact hf a s' hp' h
  | err => exact h.weak
  | panic => exact h.weak
  | oof => exact h.weak

theorem inc_run {α : Type} : ∀ (p : Prog α) (c s), ua c p → Inc false s →
    (∀ x, c = some x → x.1.isTrivia = false ∧ s.peek = some (.ok x)) → Inc (isErr (p.run s).1) (p.run s).2 := by
  have hI := inc_stable false
  intro p
  induction p with
  | ret a => exact fun c s _ h _ => h
  | peekThen k ih => exact fun c s hu h _ => inc_bind hI.peek h fun a s' _ h' => ih a none s' (hu a) h' nofun
  | peekSkipThen k ih =>
    intro c s hu h _
    refine inc_bind hI.peekSkip h fun a s' hr h' => ih a _ s' (hu a) h' fun x hx => ?_
    cases a with
    | none => cases hx
    | some y => cases hx; exact peekSkipLoop_cached _ _ _ _ hr
  | bumpThen k ih => exact fun c s hu h _ => inc_bind hI.bump h fun a s' _ h' => ih a none s' (hu a) h' nofun
  | addErrorThen e k ih =>
    intro c s hu h hc
    by_cases he : ∃ ex t sp, e = .unexpectedToken ex t sp
    · obtain ⟨ex, t, sp, rfl⟩ := he
      obtain ⟨h1, h2⟩ := hu.1.1 ex t sp rfl
      obtain ⟨_, ht⟩ := hc _ h1
      subst h2
      obtain ⟨c1, c2, c3⟩ := h.cached _ ht
      show Inc true { s with errs := s.errs ++ [.unexpectedToken ex t sp] }
      have hl : (s.errs ++ [ParseErrorKind.unexpectedToken ex t sp]).filterMap utSpan = s.errs.filterMap utSpan ++ [sp] := by
        rw [List.filterMap_append]; rfl
      refine ⟨?_, ?_, ?_⟩
      · show ((s.errs ++ [ParseErrorKind.unexpectedToken ex t sp]).filterMap utSpan).Pairwise _
        rw [hl]
        refine List.pairwise_append.2 ⟨h.inc, List.pairwise_singleton .., fun x hx y hy => ?_⟩
        rw [List.mem_singleton.1 hy]
        exact (c3 x hx).resolve_right (by simp)
      · intro x (hx : x ∈ (s.errs ++ [ParseErrorKind.unexpectedToken ex t sp]).filterMap utSpan)
        rw [hl] at hx
        rcases List.mem_append.1 hx with hx | hx
        · exact h.pos x hx
        · rw [List.mem_singleton.1 hx]; exact ⟨c1, c2⟩
      · intro x hx
        refine ⟨(h.cached x hx).1, (h.cached x hx).2.1, ?_⟩
        intro y (hy : y ∈ (s.errs ++ [ParseErrorKind.unexpectedToken ex t sp]).filterMap utSpan)
        rw [hl] at hy
        rcases List.mem_append.1 hy with hy | hy
        · exact .inl (((h.cached x hx).2.2 y hy).resolve_right (by simp))
        · rw [List.mem_singleton.1 hy]
          have hx : s.peek = _ := hx
          rw [ht] at hx
          injection hx with hx; injection hx with hx; subst hx
          exact .inr ⟨rfl, rfl⟩
    · refine ih none _ hu.2 ?_ nofun
      have hl : (s.errs ++ [e]).filterMap utSpan = s.errs.filterMap utSpan := by
        rw [List.filterMap_append]
        cases e <;> first | exact List.append_nil _ | exact absurd ⟨_, _, _, rfl⟩ he
      refine ⟨?_, ?_, ?_⟩
      · show ((s.errs ++ [e]).filterMap utSpan).Pairwise _; rw [hl]; exact h.inc
      · intro sp (hsp : sp ∈ (s.errs ++ [e]).filterMap utSpan); rw [hl] at hsp; exact h.pos sp hsp
      · intro x hx
        refine ⟨(h.cached x hx).1, (h.cached x hx).2.1, ?_⟩
        intro sp (hsp : sp ∈ (s.errs ++ [e]).filterMap utSpan); rw [hl] at hsp; exact (h.cached x hx).2.2 sp hsp
  | leadingThen k ih => exact fun c s hu h _ => inc_bind hI.leading h fun a s' _ h' => ih a none s' (hu a) h' nofun
  | trailingThen l k ih => exact fun c s hu h _ => inc_bind (hI.trailing l) h fun a s' _ h' => ih a none s' (hu a) h' nofun
  | setTextModeThen b k ih => exact fun c s hu h _ => ih none _ hu (hI.tf _ _ h) nofun
  | assertNoPeekThen k ih =>
    intro c s hu h _
    show Inc (isErr (if s.peek.isNone then k.run s else (.panic, s)).1) (if s.peek.isNone then k.run s else (.panic, s)).2
    split
    · exact ih none s hu h nofun
    · exact h
  | failed => exact fun c s _ h _ => h.weak
  | panicked => exact fun c s _ h _ => h
  | outOfFuel => exact fun c s _ h _ => h

/-! ### After an error -/

/-- With the token `x` cached, the method takes it before it does anything else. -/
def takes {α : Type} (x : STok) : Prog α → Prop
  | .peekThen k => takes x (k (some x))
  | .peekSkipThen k => takes x (k (some x))
  | .leadingThen k => ∀ l, takes x (k l)
  | .bumpThen _ => True
  | _ => False

theorem peekComments_held {s : PState} {x : STok} (h : s.peek = some (.ok x)) : P.peekComments s = (.ok (some x), s) := by
  simp [P.peekComments, h]

theorem peekSkip_ident {s : PState} {v sp} (h : s.peek = some (.ok (.ident v, sp))) : P.peekSkip s = (.ok (some (.ident v, sp)), s) := by
  show P.bind P.peekComments _ s = _
  unfold P.bind
  rw [peekComments_held h]
  rfl

theorem peek_ident {s : PState} {v sp} (h : s.peek = some (.ok (.ident v, sp))) : P.peek s = (.ok (some (.ident v, sp)), s) := by
  unfold P.peek
  split
  · show P.bind P.peekComments _ s = _
    unfold P.bind
    rw [peekComments_held h]
    rfl
  · show P.bind P.peekComments _ s = _
    unfold P.bind
    rw [peekComments_held h]
    rfl

theorem inc_takes {α : Type} {v : Bytes} {sp : Span} : ∀ (p : Prog α) (c s), takes (.ident v, sp) p → ua c p → Inc true s →
    s.peek = some (.ok (.ident v, sp)) → Inc (isErr (p.run s).1) (p.run s).2 := by
  intro p
  induction p with
  | peekThen k ih =>
    intro c s ht hu h hp
    show Inc (isErr (P.bind P.peek _ s).1) (P.bind P.peek _ s).2
    unfold P.bind
    rw [peek_ident hp]
    exact ih _ none s ht (hu _) h hp
  | peekSkipThen k ih =>
    intro c s ht hu h hp
    show Inc (isErr (P.bind P.peekSkip _ s).1) (P.bind P.peekSkip _ s).2
    unfold P.bind
    rw [peekSkip_ident hp]
    exact ih _ _ s ht (hu _) h hp
  | bumpThen k ih =>
    intro c s ht hu h hp
    show Inc (isErr (P.bind P.bump _ s).1) (P.bind P.bump _ s).2
    have hb := (inc_stable true).bump s h
    unfold P.bind
    unfold P.bump at hb ⊢
    rw [hp] at hb ⊢
    exact inc_run _ none _ (hu _) (hb.bumped rfl) nofun
  | leadingThen k ih =>
    intro c s ht hu h hp
    show Inc (isErr (P.bind P.leading _ s).1) (P.bind P.leading _ s).2
    have hl : P.leading s = (.ok (s.comments.leadingDetached, s.comments.leading),
        { s with comments := { s.comments with leadingDetached := [], leading := none } }) := by
      show P.bind P.peekIgnore _ s = _
      unfold P.bind P.peekIgnore
      rw [peek_ident hp]
      rfl
    unfold P.bind
    rw [hl]
    exact ih _ none _ (ht _) (hu _) ((inc_stable true).comments _ _ h) hp
  | _ => exact fun _ _ ht => ht.elim

theorem takes_statement [FloatFmt] {fuel : Nat} {t : Token} {sp} (h : t ∈ P.syncTokens) : takes (t, sp) (parseStatement fuel) := by
  unfold P.syncTokens at h
  simp only [List.mem_cons, List.not_mem_nil, or_false] at h
  rcases h with rfl | rfl | rfl | rfl | rfl | rfl | rfl <;> exact fun _ => trivial

theorem sync_ident {t : Token} (h : t ∈ P.syncTokens) : ∃ v, t = .ident v := by
  unfold P.syncTokens at h
  simp only [List.mem_cons, List.not_mem_nil, or_false] at h
  rcases h with rfl | rfl | rfl | rfl | rfl | rfl | rfl <;> exact ⟨_, rfl⟩

/-- Where `skip_until` stops. -/
theorem skipUntil_stop : ∀ n s s', P.skipUntil n s = (.ok (), s') →
    s'.peek = none ∨ ∃ t sp, t ∈ P.syncTokens ∧ s'.peek = some (.ok (t, sp))
  | 0, _, _, h => by cases h
  | n + 1, s, s', h => by
    unfold P.skipUntil at h
    rcases hp : P.peek s with ⟨r, s1⟩
    rw [hp] at h
    rcases r with (_ | ⟨t, sp⟩) | _ | _ | _
    · cases h; exact .inl (looks_peek _ _ _ hp)
    · dsimp only at h
      split at h
      · rename_i ht
        cases h
        exact .inr ⟨t, sp, ht, looks_peek _ _ _ hp⟩
      · rcases hb : P.bump s1 with ⟨r2, s2⟩
        rw [hb] at h
        cases r2 with
        | ok _ => exact skipUntil_stop n _ _ h
        | err => cases h
        | panic => cases h
        | oof => cases h
    · exact skipUntil_stop n _ _ h
    · cases h
    · cases h

/-- Between two statements. -/
def Between (s : PState) : Prop := Inc false s ∨ (Inc true s ∧ ∃ t sp, t ∈ P.syncTokens ∧ s.peek = some (.ok (t, sp)))

theorem inc_statement [FloatFmt] {fuel : Nat} {s : PState} (h : Between s) :
    Inc (isErr ((parseStatement fuel).run s).1) ((parseStatement fuel).run s).2 := by
  rcases h with h | ⟨h, t, sp, ht, hp⟩
  · exact inc_run _ none s ua_parseStatement h nofun
  · obtain ⟨v, rfl⟩ := sync_ident ht
    exact inc_takes _ none s (takes_statement ht) ua_parseStatement h hp

theorem inc_fileLoop [FloatFmt] (fuel : Nat) : ∀ n acc s, Between s → Inc true (P.fileLoop fuel n acc s).2
  | 0, _, s, h => by
    rcases h with h | h
    · exact h.weak
    · exact h.1
  | n + 1, acc, s, hs => by
    have h := inc_statement (fuel := fuel) hs
    unfold P.fileLoop
    rcases hp : (parseStatement fuel).run s with ⟨r, s'⟩
    rw [hp] at h
    rcases r with (_ | st) | _ | _ | _
    · exact Inc.weak h
    · dsimp only
      split
      · exact inc_fileLoop fuel n _ _ (.inl h)
      · rename_i e he
        obtain ⟨a, b, rfl⟩ := add_kind he
        refine inc_fileLoop fuel n _ _ (.inl ?_)
        exact inc_run (.addErrorThen (.duplicatePackage a b) (.ret ())) none s' ⟨⟨nofun, nofun⟩, trivial⟩ h nofun
    · dsimp only
      split
      · exact h
      · have h2 := (inc_stable true).skipUntil (s'.rest.length + 3) s' h
        rcases hb : P.skipUntil (s'.rest.length + 3) s' with ⟨r2, s2⟩
        rw [hb] at h2
        cases r2 with
        | ok _ =>
          refine inc_fileLoop fuel n _ s2 ?_
          rcases skipUntil_stop _ _ _ hb with h3 | h3
          · exact .inl (h2.bumped h3)
          · exact .inr ⟨h2, h3⟩
        | _ => exact h2
    · exact Inc.weak h
    · exact Inc.weak h

theorem inc_parseFile [FloatFmt] (fuel len : Nat) (src : Bytes) : Inc true (P.parseFile fuel len (PState.init src)).2 := by
  have h0 : Inc false (PState.init src) := ⟨.nil, nofun, nofun⟩
  have hh := inc_run _ none _ (ua_parseHeader (n := fuel) (l := len)) h0 nofun
  show Inc true (P.bind (parseHeader fuel len).run _ (PState.init src)).2
  unfold P.bind
  revert hh
  rcases (parseHeader fuel len).run (PState.init src) with ⟨r, s'⟩
  intro hh
  cases r with
  | ok a =>
    show Inc true (P.bind (P.fileLoop fuel fuel _) _ s').2
    have h2 := inc_fileLoop fuel fuel { span := a.2.2 } s' (.inl hh)
    unfold P.bind
    revert h2
    rcases P.fileLoop fuel fuel { span := a.2.2 } s' with ⟨r2, s2⟩
    intro h2
    cases r2 <;> exact h2
  | err => exact hh
  | panic => exact Inc.weak hh
  | oof => exact Inc.weak hh

end Verif.Blame
