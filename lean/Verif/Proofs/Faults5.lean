import Verif.Proofs.Faults4
/-! What a grammar method may report, and that a run reports no more. -/
namespace Verif
open Verif.Spec Verif.Lex Verif.Parse Verif.Exec Verif.Blame
variable [FloatFmt]

/-- A diagnostic that the grammar may report. -/
structure Fair (src : Bytes) (e : ParseErrorKind) : Prop where
  fault : GramFault src e.shown
  chars : ∀ sp, e ≠ .invalidStringCharacters sp
  escape : ∀ sp, e ≠ .invalidStringEscape sp

/-- On the significant tokens `v`, the method reports only what is fair, and leaves a result and tokens with `Q`. -/
def Tells {α : Type} (src : Bytes) (Q : α → List (Option STok) → Prop) : Prog α → List (Option STok) → Prop
  | .ret a, v => Q a v
  | .peekThen k, v => ∀ x, v.head? = x.map some → Tells src Q (k x) v
  | .peekSkipThen k, v => ∀ x, v.head? = x.map some → Tells src Q (k x) v
  | .bumpThen k, v => ∀ x v', v = some x :: v' → Tells src Q (k x.2) v'
  | .addErrorThen e k, v => Fair src e ∧ Tells src Q k v
  | .leadingThen k, v => ∀ x, Tells src Q (k x) v
  | .trailingThen _ k, v => ∀ x, Tells src Q (k x) v
  | .setTextModeThen _ k, v => Tells src Q k v
  | .assertNoPeekThen k, v => Tells src Q k v
  | .failed, _ => True
  | .panicked, _ => True
  | .outOfFuel, _ => True

theorem Said.add {src : Bytes} {s : PState} {e : ParseErrorKind} (h : Said src s) (he : Fair src e) :
    Said src { s with errs := s.errs ++ [e] } := by
  refine ⟨h.rest, h.toks, h.ahead, fun k hk => ?_, fun sp hsp => ?_⟩
  · rcases List.mem_append.1 hk with hk | hk
    · exact h.said k hk
    · rw [List.mem_singleton.1 hk]; exact .gram he.fault
  · refine h.before sp ?_
    simp only [List.mem_append, List.mem_singleton] at hsp
    rcases hsp with (hh | hh) | (hh | hh)
    · exact .inl hh
    · exact absurd hh.symm (he.chars sp)
    · exact .inr hh
    · exact absurd hh.symm (he.escape sp)

theorem tells_run {src : Bytes} {α : Type} {Q : α → List (Option STok) → Prop} : ∀ (p : Prog α) (s : PState), Tells src Q p (view s) →
    NT s → Said src s → Rz (p.run s) (fun s' => NT s' ∧ Said src s') fun a s' => NT s' ∧ Said src s' ∧ Q a (view s') := by
  intro p
  have hI := said_stable src
  have look : ∀ {p : Parse.P (Option STok)} {k : Option STok → Prog α}, Sees2 p → Keeps (Said src) p →
      (∀ x s, Tells src Q (k x) (view s) → NT s → Said src s →
        Rz ((k x).run s) (fun s' => NT s' ∧ Said src s') fun a s' => NT s' ∧ Said src s' ∧ Q a (view s')) →
      ∀ s, (∀ x, (view s).head? = x.map some → Tells src Q (k x) (view s)) → Said src s →
      Rz (P.bind p (fun x => (k x).run) s) (fun s' => NT s' ∧ Said src s') fun a s' => NT s' ∧ Said src s' ∧ Q a (view s') := by
    intro p k hp hk ih s ht hs
    refine (Rz.keep hk hs (hp s _ rfl)).bind (fun s' h => ⟨h.1.nt, h.2⟩) fun a s' ⟨ha, hs'⟩ => ?_
    refine ih a s' ?_ ha.nt hs'
    rw [ha.1]
    exact ht a ha.2.2.1
  induction p with
  | ret a => exact fun s h hn hs => ⟨hn, hs, h⟩
  | peekThen k ih => exact fun s h _ hs => look sees_peek hI.peek ih s h hs
  | peekSkipThen k ih => exact fun s h _ hs => look sees_peekSkip hI.peekSkip ih s h hs
  | bumpThen k ih =>
    intro s h hn hs
    unfold Prog.run
    cases hp : s.peek with
    | none => unfold P.bind P.bump; rw [hp]; trivial
    | some y =>
      cases y with
      | error => unfold P.bind P.bump; rw [hp]; trivial
      | ok x =>
        refine (Rz.keep hI.bump hs (rz_bump (E := fun _ => False) hp)).bind (fun _ h => h.1.elim) fun a s' ⟨ha, hs'⟩ => ?_
        obtain ⟨h1, h2, h3⟩ := ha
        rw [hn x hp] at h2
        subst h1
        exact ih _ s' (h x _ h2) (by intro z hz; rw [h3] at hz; cases hz) hs'
  | addErrorThen e k ih => exact fun s h hn hs => ih { s with errs := s.errs ++ [e] } h.2 hn (hs.add h.1)
  | leadingThen k ih =>
    intro s h hn hs
    refine (Rz.keep hI.leading hs (rz_leading (E := fun s => NT s) rfl)).bind (fun _ h => h) fun a s' ⟨ha, hs'⟩ => ?_
    exact ih a s' (by rw [ha.1]; exact h a) ha.2 hs'
  | trailingThen l k ih =>
    intro s h hn hs
    refine (Rz.keep (hI.trailing l) hs (rz_trailing (E := fun s => NT s) rfl)).bind (fun _ h => h) fun a s' ⟨ha, hs'⟩ => ?_
    exact ih a s' (by rw [ha.1]; exact h a) ha.2 hs'
  | setTextModeThen b k ih => exact fun s h hn hs => ih _ h hn (hI.tf _ _ hs)
  | assertNoPeekThen k ih =>
    intro s h hn hs
    show Rz (if s.peek.isNone then k.run s else (.panic, s)) _ _
    split
    · exact ih s h hn hs
    · trivial
  | failed => exact fun s _ hn hs => ⟨hn, hs⟩
  | panicked => exact fun s _ _ _ => trivial
  | outOfFuel => exact fun s _ _ _ => trivial

theorem tells_bind {src : Bytes} {α β : Type} {Q : α → List (Option STok) → Prop} {R : β → List (Option STok) → Prop} (p : Prog α)
    {f : α → Prog β} : ∀ {v}, Tells src Q p v → (∀ a v', Q a v' → Tells src R (f a) v') → Tells src R (p >>= f) v := by
  show ∀ {v}, Tells src Q p v → (∀ a v', Q a v' → Tells src R (f a) v') → Tells src R (p.bind f) v
  induction p with
  | ret a => exact fun h hf => hf a _ h
  | peekThen k ih => exact fun h hf x hx => ih x (h x hx) hf
  | peekSkipThen k ih => exact fun h hf x hx => ih x (h x hx) hf
  | bumpThen k ih => exact fun h hf x v' hx => ih _ (h x v' hx) hf
  | addErrorThen e k ih => exact fun h hf => ⟨h.1, ih h.2 hf⟩
  | leadingThen k ih => exact fun h hf x => ih x (h x) hf
  | trailingThen l k ih => exact fun h hf x => ih x (h x) hf
  | setTextModeThen b k ih => exact fun h hf => ih h hf
  | assertNoPeekThen k ih => exact fun h hf => ih h hf
  | failed => exact fun _ _ => trivial
  | panicked => exact fun _ _ => trivial
  | outOfFuel => exact fun _ _ => trivial

theorem tells_loopM {src : Bytes} {σ β : Type} {step : σ → Prog (Step σ β)} {I : σ → List (Option STok) → Prop}
    {Q : β → List (Option STok) → Prop}
    (h : ∀ s v, I s v → Tells src (fun r v' => match r with | .next s' => I s' v' | .done b => Q b v') (step s) v) :
    ∀ n s v, I s v → Tells src Q (loopM step n s) v
  | 0, _, _, _ => trivial
  | n + 1, s, v, hi => by
    refine tells_bind _ (h s v hi) fun a v' ha => ?_
    cases a with
    | next s' => exact tells_loopM h n s' v' ha
    | done b => exact ha

theorem Tells.mono {src : Bytes} {α : Type} {Q R : α → List (Option STok) → Prop} {p : Prog α} {v} (h : Tells src Q p v)
    (hR : ∀ a v', Q a v' → R a v') : Tells src R p v := by
  revert v
  induction p with
  | ret a => exact fun h => hR a _ h
  | peekThen k ih => exact fun h x hx => ih x (h x hx)
  | peekSkipThen k ih => exact fun h x hx => ih x (h x hx)
  | bumpThen k ih => exact fun h x v' hx => ih _ (h x v' hx)
  | addErrorThen e k ih => exact fun h => ⟨h.1, ih h.2⟩
  | leadingThen k ih => exact fun h x => ih x (h x)
  | trailingThen l k ih => exact fun h x => ih x (h x)
  | setTextModeThen b k ih => exact fun h => ih h
  | assertNoPeekThen k ih => exact fun h => ih h
  | failed => exact fun _ => trivial
  | panicked => exact fun _ => trivial
  | outOfFuel => exact fun _ => trivial

/-- What is expected is not the end of a string or comment. -/
def Plain (ex : Expect) : Prop := ex.render ≠ b!"string terminator" ∧ ex.render ≠ b!"comment terminator"

theorem expects_oneOf {ts : List Expected} : Plain (.oneOf ts) := by
  have key : ∀ r : Bytes, (r.head? = some 115 ∨ r.head? = some 99) → fmtExpected ts ≠ r := by
    rintro r hr rfl
    cases ts with
    | nil => rcases hr with h | h <;> cases h
    | cons t ts =>
      cases t with
      | token t =>
        have : (fmtExpected (.token t :: ts)).head? = some 39 := by simp [fmtExpected, Expected.display]
        rw [this] at hr
        rcases hr with h | h <;> cases h
      | ident =>
        have : (fmtExpected (.ident :: ts)).head? = some 97 := by simp [fmtExpected, Expected.display]
        rw [this] at hr
        rcases hr with h | h <;> cases h
  exact ⟨key _ (.inl rfl), key _ (.inr rfl)⟩

theorem expects_text {t : Bytes} (h1 : t ≠ b!"string terminator") (h2 : t ≠ b!"comment terminator") : Plain (.text t) := ⟨h1, h2⟩

theorem tells_unexpected {src : Bytes} {α : Type} {Q : α → List (Option STok) → Prop} {ex : Expect} {v} (hv : v <:+ sigToks 0 src)
    (hx : Plain ex) : Tells src Q (unexpected ex) v := by
  intro x h
  cases x with
  | none => exact ⟨⟨.eof hx.1 hx.2, nofun, nofun⟩, trivial⟩
  | some y =>
    obtain ⟨t, sp⟩ := y
    refine ⟨⟨.token ?_, nofun, nofun⟩, trivial⟩
    cases v with
    | nil => cases h
    | cons z v => cases h; exact hv.mem (by simp)

/-- The method reports only what is fair. -/
def Weak {α : Type} (src : Bytes) (p : Prog α) : Prop :=
  ∀ v, v <:+ sigToks 0 src → Tells src (fun _ v' => v' <:+ sigToks 0 src) p v

theorem weak_bind {src : Bytes} {α β : Type} (p : Prog α) {f : α → Prog β} (h : Weak src p) (hf : ∀ a, Weak src (f a)) :
    Weak src (p >>= f) := fun v hv => tells_bind p (h v hv) fun a v' hv' => hf a v' hv'

theorem weak_loopM {src : Bytes} {σ β : Type} {step : σ → Prog (Step σ β)} (h : ∀ s, Weak src (step s)) (n s) : Weak src (loopM step n s) :=
  fun v hv => tells_loopM (I := fun _ v => v <:+ sigToks 0 src) (fun s v hv => (h s v hv).mono fun a v' hv' => by cases a <;> exact hv') n s v hv

theorem weak_unexpected {src : Bytes} {α : Type} {ex : Expect} (h : Plain ex) : Weak src (unexpected ex : Prog α) :=
  fun _ hv => tells_unexpected hv h

theorem weak_peek {src} : Weak src Prog.peek := fun _ hv _ _ => hv
theorem weak_peekSkip {src} : Weak src Prog.peekSkip := fun _ hv _ _ => hv
theorem weak_bump {src} : Weak src Prog.bump := fun v hv x v' h => (show v' <:+ v from h ▸ List.suffix_cons ..).trans hv
theorem weak_leading {src} : Weak src Prog.leading := fun _ hv _ => hv
theorem weak_trailing {src l} : Weak src (Prog.trailing l) := fun _ hv _ => hv
theorem weak_setTextMode {src b} : Weak src (Prog.setTextMode b) := fun _ hv => hv
theorem weak_assertNoPeek {src} : Weak src Prog.assertNoPeek := fun _ hv => hv
theorem weak_pure {src} {α : Type} {a : α} : Weak src (pure a : Prog α) := fun _ hv => hv
theorem weak_panicked {src} {α : Type} : Weak src (Prog.panicked : Prog α) := fun _ _ => trivial
theorem weak_failed {src} {α : Type} : Weak src (Prog.failed : Prog α) := fun _ _ => trivial
theorem weak_outOfFuel {src} {α : Type} : Weak src (Prog.outOfFuel : Prog α) := fun _ _ => trivial

end Verif
