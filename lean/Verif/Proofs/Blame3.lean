import Verif.Proofs.Blame2
/-! The file loop, and the token that is blamed first. -/
namespace Verif.Blame
open Parse Lex

theorem add_kind {acc acc' : Acc} {st e} (h : acc.add st = (acc', some e)) : ∃ a b, e = .duplicatePackage a b := by
  unfold Acc.add at h
  cases st <;> try (cases h; done)
  dsimp only at h
  split at h <;> cases h
  exact ⟨_, _, rfl⟩

theorem keeps_fileLoop [FloatFmt] {I : PState → Prop} (hI : StableU I) (fuel : Nat) : ∀ n acc, Keeps I (P.fileLoop fuel n acc)
  | 0, _ => fun _ h => h
  | n + 1, acc => by
    intro s hs
    have h := ua_keep hI _ none s (ua_parseStatement (n := fuel)) hs nofun
    unfold P.fileLoop
    rcases hp : (parseStatement fuel).run s with ⟨r, s'⟩
    rw [hp] at h
    rcases r with (_ | st) | _ | _ | _
    · exact h
    · dsimp only
      split
      · exact keeps_fileLoop hI fuel n _ _ h
      · rename_i e he
        obtain ⟨a, b, rfl⟩ := add_kind he
        exact keeps_fileLoop hI fuel n _ _ (hI.add _ _ h nofun nofun)
    · dsimp only
      split
      · exact h
      · have h2 := hI.skipUntil (s'.rest.length + 3) s' h
        rcases hb : P.skipUntil (s'.rest.length + 3) s' with ⟨r2, s2⟩
        rw [hb] at h2
        cases r2 with
        | ok _ => exact keeps_fileLoop hI fuel n _ s2 h2
        | _ => exact h2
    · exact h
    · exact h

theorem keeps_header {I : PState → Prop} (hI : StableU I) (fuel len : Nat) : Keeps I (parseHeader fuel len).run :=
  fun s hs => ua_keep hI _ none s ua_parseHeader hs nofun

theorem keeps_parseFile [FloatFmt] {I : PState → Prop} (hI : StableU I) (fuel len : Nat) : Keeps I (P.parseFile fuel len) :=
  (keeps_header hI _ _).bind fun _ => (keeps_fileLoop hI _ _ _).bind fun _ => Keeps.pure _

theorem rel_statement [FloatFmt] (n m : Nat) : Rel (parseStatement n) (parseStatement m) :=
  rel_of_le (Fuel.mono_parseStatement (n := fun t : Fuel.Two => t.pick n (max n m)) (Fuel.Two.mono (Nat.le_max_left ..)) .lo .hi trivial)
    (Fuel.mono_parseStatement (n := fun t : Fuel.Two => t.pick m (max n m)) (Fuel.Two.mono (Nat.le_max_right ..)) .lo .hi trivial)

theorem rel_header (n m l l' : Nat) : Rel (parseHeader n l) (parseHeader m l') := by
  have h : Rel (parseHeader n l) (parseHeader m l) :=
    rel_of_le (Fuel.mono_parseHeader (n := fun t : Fuel.Two => t.pick n (max n m)) (Fuel.Two.mono (Nat.le_max_left ..)) l .lo .hi trivial)
      (Fuel.mono_parseHeader (n := fun t : Fuel.Two => t.pick m (max n m)) (Fuel.Two.mono (Nat.le_max_right ..)) l .lo .hi trivial)
  cases h with
  | peek h => exact .peek h

theorem sim_fileLoop [FloatFmt] {t : Token} {sp : Span} (hsp : sp.start < sp.stop) (f1 f2 : Nat) : ∀ n m acc s1 s2, Sync t sp s1 s2 →
    Out t sp (fun _ => True) (P.fileLoop f1 n acc s1) (P.fileLoop f2 m acc s2)
  | 0, _, _, _, _, _ => .inl rfl
  | _ + 1, 0, _, _, _, _ => .inr (.inl rfl)
  | n + 1, m + 1, acc, s1, s2, hs => by
    have hU := off_stableU hsp
    have h := sim_run hsp (rel_statement f1 f2) (c := none) ua_parseStatement s1 s2 hs
    unfold P.fileLoop
    revert h
    rcases (parseStatement f1).run s1 with ⟨r1, s1'⟩
    rcases (parseStatement f2).run s2 with ⟨r2, s2'⟩
    intro h
    rcases h with h | h | h | h | ⟨e, _, hs'⟩
    · cases h; exact .inl rfl
    · cases h; exact .inr (.inl rfl)
    · refine .inr (.inr (.inl ?_))
      rcases r2 with (_ | st) | _ | _ | _
      · exact h
      · dsimp only
        split
        · exact ne_stable.fileLoop f2 m _ _ h
        · exact ne_stable.fileLoop f2 m _ _ (ne_stable.addError _ _ h)
      · dsimp only
        split
        · exact h
        · have h2 := ne_stable.skipUntil (s2'.rest.length + 3) s2' h
          rcases hb : P.skipUntil (s2'.rest.length + 3) s2' with ⟨r2, s2⟩
          rw [hb] at h2
          cases r2 with
          | ok _ => exact ne_stable.fileLoop f2 m _ s2 h2
          | _ => exact h2
      · exact h
      · exact h
    · refine .inr (.inr (.inr (.inl ?_)))
      rcases r1 with (_ | st) | _ | _ | _
      · exact h
      · dsimp only
        split
        · exact keeps_fileLoop hU f1 n _ _ h
        · rename_i e he
          obtain ⟨a, b, rfl⟩ := add_kind he
          exact keeps_fileLoop hU f1 n _ _ (hU.add _ _ h nofun nofun)
      · dsimp only
        split
        · exact h
        · have h2 := (off_stable hsp).skipUntil (s1'.rest.length + 3) s1' h
          rcases hb : P.skipUntil (s1'.rest.length + 3) s1' with ⟨r2, s2⟩
          rw [hb] at h2
          cases r2 with
          | ok _ => exact keeps_fileLoop hU f1 n _ s2 h2
          | _ => exact h2
      · exact h
      · exact h
    · cases (show r1 = r2 from e)
      rcases r1 with (_ | st) | _ | _ | _
      · exact .inr (.inr (.inr (.inr ⟨rfl, fun _ _ => trivial, hs'⟩)))
      · dsimp only
        split
        · exact sim_fileLoop hsp f1 f2 n m _ _ _ hs'
        · exact .inr (.inr (.inl (ne_stable.fileLoop f2 m _ _ (by show _ ++ _ ≠ []; simp))))
      · dsimp only
        have e1 : s1'.errs = [] := hs'.e1
        have e2 : s2'.errs = [] := hs'.e2
        rw [if_pos e1, if_pos e2]
        exact .inr (.inr (.inr (.inr ⟨rfl, nofun, hs'⟩)))
      · exact .inr (.inr (.inr (.inr ⟨rfl, nofun, hs'⟩)))
      · exact .inl rfl

/-- The token that is the first error of one source: no source with the same tokens up to and including it is accepted. -/
theorem parseFile_blame [FloatFmt] {src src' : Bytes} {sp : Span} {ex t0 es} (h : parseFile src = .ok (.error (.unexpectedToken ex t0 sp :: es)))
    {t : Token} {pre r1 r2} (h1 : rawToks 0 src = pre ++ (some t, sp) :: r1) (h2 : rawToks 0 src' = pre ++ (some t, sp) :: r2)
    (hsp : sp.start < sp.stop) (f) : parseFile src' ≠ .ok (.ok f) := by
  intro h'
  have hs : Sync t sp (PState.init src) (PState.init src') :=
    ⟨rfl, rfl, rfl, rfl, rfl, rfl, rfl, .inr ⟨pre, r1, r2, h1, h2⟩⟩
  have key : Out t sp (fun _ => True) (P.parseFile (src.length + 3) src.length (PState.init src))
      (P.parseFile (src'.length + 3) src'.length (PState.init src')) := by
    have k1 : ∀ acc, Keeps (Off sp) (P.fileLoop (src.length + 3) (src.length + 3) acc) := keeps_fileLoop (off_stableU hsp) _ _
    have k2 : ∀ acc, Keeps Ne (P.fileLoop (src'.length + 3) (src'.length + 3) acc) := ne_stable.fileLoop _ _
    have hh : Sim t sp (fun _ => True) (parseHeader (src.length + 3) src.length).run (parseHeader (src'.length + 3) src'.length).run :=
      ⟨keeps_header (off_stableU hsp) _ _, ne_stable.run _, sim_run hsp (rel_header ..) (c := none) ua_parseHeader⟩
    refine (hh.bind (Q' := fun _ => True) (fun x _ => ?_) (fun x => (k1 _).bind fun _ => Keeps.pure _)
      (fun x => (k2 _).bind fun _ => Keeps.pure _)).sim _ _ hs
    exact Sim.bind (Q := fun _ => True) ⟨k1 _, k2 _, sim_fileLoop hsp _ _ _ _ _⟩ (fun _ _ => Sim.pure trivial)
      (fun _ => Keeps.pure _) (fun _ => Keeps.pure _)
  unfold parseFile at h h'
  revert h h' key
  rcases P.parseFile (src.length + 3) src.length (PState.init src) with ⟨x1, s1⟩
  rcases P.parseFile (src'.length + 3) src'.length (PState.init src') with ⟨x2, s2⟩
  intro h h' key
  have e1 : s1.errs = .unexpectedToken ex t0 sp :: es := by
    cases x1 with
    | ok a =>
      dsimp only at h
      split at h
      · injection h with h; cases h
      · injection h with h; injection h
    | err => injection h with h; injection h
    | panic => cases h
    | oof => cases h
  have e2 : x2 ≠ .oof ∧ s2.errs = [] := by
    cases x2 with
    | ok a =>
      dsimp only at h'
      split at h'
      · exact ⟨nofun, by assumption⟩
      · injection h' with h'; cases h'
    | err => injection h' with h'; cases h'
    | panic => cases h'
    | oof => cases h'
  rcases key with k | k | k | k | ⟨_, _, k⟩
  · cases (show x1 = _ from k); cases h
  · exact e2.1 k
  · exact k e2.2
  · exact k.head _ _ _ e1
  · have := k.e1; rw [show s1.errs = _ from e1] at this; cases this

end Verif.Blame
