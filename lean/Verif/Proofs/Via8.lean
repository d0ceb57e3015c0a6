import Verif.Proofs.Via7
import Verif.Proofs.Cut2
import Verif.Proofs.Wr
import Verif.Proofs.FileRuns
/-! A source with a completed prefix. -/
namespace Verif
open Lex Spec Blame Exec Parse

/-- The text of a completion. -/
theorem plain_text {z : List Token} (h : ∀ t ∈ z, Plain t) : ∃ text : Bytes, ∀ pos,
    (rawToks pos text).map (·.1) = z.map some := by
  have : ∃ xs : List (Bytes × Token), xs.map (·.2) = z ∧ ∀ x ∈ xs, Lexeme false x.1 x.2 ∧ x.2.isTrivia = false := by
    induction z with
    | nil => exact ⟨[], rfl, nofun⟩
    | cons t z ih =>
      obtain ⟨xs, h1, h2⟩ := ih fun t ht => h t (.tail _ ht)
      obtain ⟨h3, text, h4⟩ := h t (.head _)
      refine ⟨(text, t) :: xs, by simp [h1], fun x hx => ?_⟩
      rcases List.mem_cons.1 hx with rfl | hx
      · exact ⟨h4, h3⟩
      · exact h2 x hx
  obtain ⟨xs, h1, h2⟩ := this
  refine ⟨joinWith 32 (xs.map (·.1)), fun pos => ?_⟩
  have := (rawToks_join xs pos [] nofun h2).1
  rw [List.nil_append] at this
  rw [this, ← h1, List.map_map]
  rfl

theorem unplaced_plain : ∀ {l : List (Option Token × Span)} {z : List Token}, (∀ t ∈ z, Plain t) → l.map (·.1) = z.map some →
    unplaced (significant l) = z.map some
  | [], z, _, h => by
    cases z with
    | nil => rfl
    | cons t z => cases h
  | x :: l, z, hz, h => by
    cases z with
    | nil => cases h
    | cons t z =>
      obtain ⟨h1, h2⟩ := List.cons.inj h
      have ht := (hz t (.head _)).1
      have ih := unplaced_plain (fun t ht => hz t (.tail _ ht)) h2
      obtain ⟨x1, x2⟩ := x
      dsimp only at h1
      subst h1
      have hs : significant ((some t, x2) :: l) = some (t, x2) :: significant l := by
        show List.filterMap _ _ = _
        rw [List.filterMap_cons]
        simp only [ht]
        rfl
      rw [hs, List.map_cons, ← ih]
      rfl

/-- The significant tokens of a source that is cut and goes on with other tokens. -/
theorem completed_toks {src : Bytes} {c : Nat} (hc : c ≤ src.length) {pre post} (hraw : rawToks 0 src = pre ++ post)
    (hpre : ∀ x ∈ pre, x.2.stop ≤ c ∧ Fine src x) (hpost : ∀ x, post.head? = some x → c ≤ x.2.start) {z : List Token} (hz : ∀ t ∈ z, Plain t) :
    ∃ rest : Bytes, unplaced (sigToks 0 (src.take c ++ rest)) = unplaced (significant pre) ++ z.map some := by
  obtain ⟨text, ht⟩ := plain_text hz
  refine ⟨10 :: text, ?_⟩
  have hlen : (src.take c).length = c := by rw [List.length_take]; omega
  have h := sig_cut src text pre [] (src.take c) (src.drop c) post (by rw [List.nil_append, List.take_append_drop])
    (by rw [List.take_append_drop]; exact hraw) (fun x hx => ⟨by rw [hlen]; simpa using (hpre x hx).1, (hpre x hx).2⟩)
    (fun x hx => by rw [hlen]; simpa using hpost x hx)
  unfold sigToks
  have h : significant (rawToks 0 (src.take c ++ 10 :: text)) = _ := h
  rw [h]
  show List.map _ _ = _
  rw [List.map_append]
  exact congrArg (_ ++ ·) (unplaced_plain hz (ht _))

theorem fine_some {src pre} (h : ∀ x ∈ pre, Fine src x) : none ∉ unplaced (significant pre) := by
  intro hm
  obtain ⟨y, hy, hn⟩ := List.mem_map.1 hm
  obtain ⟨x, hx, hxy⟩ := List.mem_filterMap.1 hy
  obtain ⟨t, ht, _⟩ := h x hx
  rw [ht] at hxy
  dsimp only at hxy
  split at hxy
  · cases hxy
  · cases hxy
    cases hn

/-! ### No unknown syntax -/

/-- The syntax of a diagnostic "unknown syntax". -/
def unkOf : ParseErrorKind → Option Bytes
  | .unknownSyntax v _ => some v
  | _ => none

/-- No unknown syntax has been reported. -/
def NoUnk (s : PState) : Prop := s.errs.filterMap unkOf = []

def NotUnk (_ : Option (Option STok)) (e : ParseErrorKind) : Prop := unkOf e = none

theorem notUnk_sane : Sane NotUnk where
  weak h := h
  tok := rfl
  eof := rfl
  utf8 := rfl
  ident := rfl
  group := rfl
  import' := rfl

theorem noUnk_stable : StableQ NotUnk NoUnk where
  peekComments := by
    intro s hs
    unfold P.peekComments
    split
    · exact hs
    · exact hs
    · simp only
      have hx := ext_filterMap (f := unkOf) (fun e => by cases e <;> rfl) (fun e h => by cases e <;> first | rfl | cases h)
        (next_ext s.tf s.pos s.rest s.errs)
      revert hx
      generalize Lex.next s.tf s.pos s.rest s.errs = o
      intro hx
      split
      · exact hx.trans hs
      · exact hx.trans hs
      · show List.filterMap _ (_ ++ [_]) = []
        rw [List.filterMap_append, hx.trans hs]
        rfl
  bump := by
    intro s hs
    unfold P.bump
    split
    · simp only; split <;> exact hs
    · exact hs
  comments := fun _ _ h => h
  tf := fun _ _ h => h
  clear := fun _ h => h
  add := by
    intro s c e h hq _ _
    show List.filterMap _ (_ ++ [_]) = []
    rw [List.filterMap_append, show s.errs.filterMap unkOf = [] from h, List.nil_append]
    exact List.filterMap_eq_nil_iff.2 fun x hx => by rw [List.mem_singleton.1 hx]; exact hq

/-- After an unknown syntax nothing else happens. -/
def uf {α : Type} : Prog α → Prop
  | .ret _ => True
  | .peekThen k => ∀ x, uf (k x)
  | .peekSkipThen k => ∀ x, uf (k x)
  | .bumpThen k => ∀ x, uf (k x)
  | .addErrorThen e k => (unkOf e = none ∧ uf k) ∨ k = .failed
  | .leadingThen k => ∀ x, uf (k x)
  | .trailingThen _ k => ∀ x, uf (k x)
  | .setTextModeThen _ k => uf k
  | .assertNoPeekThen k => uf k
  | .failed => True
  | .panicked => True
  | .outOfFuel => True

theorem uf_of_rp {α : Type} (p : Prog α) : ∀ {c}, rp NotUnk c p → uf p := by
  induction p with
  | ret a => exact fun _ => trivial
  | peekThen k ih => exact fun h x => ih x (h x)
  | peekSkipThen k ih => exact fun h x => ih x (h x)
  | bumpThen k ih => exact fun h x => ih x (h x)
  | addErrorThen e k ih => exact fun h => .inl ⟨h.1, ih h.2⟩
  | leadingThen k ih => exact fun h x => ih x (h x)
  | trailingThen l k ih => exact fun h x => ih x (h x)
  | setTextModeThen b k ih => exact fun h => ih h
  | assertNoPeekThen k ih => exact fun h => ih h
  | _ => exact fun _ => trivial

theorem uf_bind {α β : Type} (p : Prog α) {f : α → Prog β} (hp : uf p) (hf : ∀ a, uf (f a)) : uf (p >>= f) := by
  show uf (p.bind f)
  induction p with
  | ret a => exact hf a
  | peekThen k ih => exact fun x => ih x (hp x)
  | peekSkipThen k ih => exact fun x => ih x (hp x)
  | bumpThen k ih => exact fun x => ih x (hp x)
  | addErrorThen e k ih =>
    rcases hp with hp | rfl
    · exact .inl ⟨hp.1, ih hp.2⟩
    · exact .inr rfl
  | leadingThen k ih => exact fun x => ih x (hp x)
  | trailingThen l k ih => exact fun x => ih x (hp x)
  | setTextModeThen b k ih => exact ih hp
  | assertNoPeekThen k ih => exact ih hp
  | _ => exact trivial

theorem uf_parseSyntax {n} : uf (parseSyntax n) := by
  have hQ := notUnk_sane
  have h1 : ∀ {α : Type} {p : Prog α}, rp NotUnk none p → uf p := fun h => uf_of_rp _ h
  unfold parseSyntax
  repeat' first
    | trivial
    | with_reducible exact h1 (rp_expectEq hQ)
    | with_reducible exact h1 (rp_parseString hQ)
    | with_reducible exact h1 (rp_unexpected hQ)
    | with_reducible exact h1 rp_peek
    | with_reducible exact h1 rp_leading
    | with_reducible exact h1 rp_trailing
    | exact .inr rfl
    | with_reducible refine uf_bind _ ?_ fun _ => ?_
    | split

theorem uf_parseHeader {n l} : uf (parseHeader n l) := by
  unfold parseHeader
  repeat' first
    | trivial
    | with_reducible exact uf_parseSyntax
    | with_reducible exact uf_of_rp _ rp_peek
    | with_reducible refine uf_bind _ ?_ fun _ => ?_
    | split

/-- A method that succeeds has not reported an unknown syntax. -/
theorem uf_run {α : Type} : ∀ (p : Prog α) (s : PState), uf p → NoUnk s → ∀ a s', p.run s = (.ok a, s') → NoUnk s' := by
  have hI := noUnk_stable
  have step : ∀ {β : Type} {x : Parse.P β} {k : β → Prog α}, Keeps NoUnk x → (∀ b s, uf (k b) → NoUnk s → ∀ a s', (k b).run s = (.ok a, s') → NoUnk s') →
      ∀ s, (∀ b, uf (k b)) → NoUnk s → ∀ a s', P.bind x (fun b => (k b).run) s = (.ok a, s') → NoUnk s' := by
    intro β x k hx ih s hu hs a s' h
    have h2 := hx s hs
    unfold P.bind at h
    rcases hp : x s with ⟨r, s1⟩
    rw [hp] at h h2
    cases r with
    | ok b => exact ih b s1 (hu b) h2 a s' h
    | _ => cases h
  intro p
  induction p with
  | ret a => intro s _ hs a s' h; cases h; exact hs
  | peekThen k ih => exact fun s hu => step hI.peek ih s hu
  | peekSkipThen k ih => exact fun s hu => step hI.peekSkip ih s hu
  | bumpThen k ih => exact fun s hu => step hI.bump ih s hu
  | addErrorThen e k ih =>
    intro s hu hs a s' h
    rcases hu with ⟨h1, h2⟩ | rfl
    · exact ih { s with errs := s.errs ++ [e] } h2 (hI.add s none e hs h1 nofun nofun) a s' h
    · cases h
  | leadingThen k ih => exact fun s hu => step hI.leading ih s hu
  | trailingThen l k ih => exact fun s hu => step (hI.trailing l) ih s hu
  | setTextModeThen b k ih => exact fun s hu hs => ih { s with tf := b } hu (hI.tf _ _ hs)
  | assertNoPeekThen k ih =>
    intro s hu hs a s' h
    have h : (if s.peek.isNone then k.run s else (.panic, s)) = _ := h
    split at h
    · exact ih s hu hs a s' h
    · cases h
  | failed => intro s _ _ a s' h; cases h
  | panicked => intro s _ _ a s' h; cases h
  | outOfFuel => intro s _ _ a s' h; cases h

theorem noUnk_file [FloatFmt] {src : Bytes} {errs} {F} (hF : src.length + 3 ≤ F) {a w}
    (hx : exec (parseHeader F 0) (unplaced (sigToks 0 src)) = .done a w) (h : Parse.parseFile src = .ok (.error errs)) :
    errs.filterMap unkOf = [] := by
  have hr := run_exec (same_parseHeader hF (l0 := 0) (l := src.length)) none (PState.init src) (sigToks 0 src) [] ua_parseHeader nofun nofun rfl rfl
  have hs : P.parseFile (src.length + 3) src.length (PState.init src) = P.bind (parseHeader (src.length + 3) src.length).run _ (PState.init src) := rfl
  unfold Parse.parseFile at h
  unfold P.bind at hs
  rcases hp : (parseHeader (src.length + 3) src.length).run (PState.init src) with ⟨r, s1⟩
  rw [hp] at hr hs
  cases r with
  | err =>
    obtain ⟨_, _, hc⟩ := hr
    have hx : exec (parseHeader F 0) (toks (sigToks 0 src)) = _ := hx
    rw [hx] at hc
    rcases hc with ⟨_, _, _, _, _, _, hc⟩ | ⟨_, _, _, hc⟩ | ⟨_, hc⟩ <;> cases hc
  | panic => rw [hs] at h; cases h
  | oof => rw [hs] at h; cases h
  | ok b =>
    have h1 := uf_run _ _ uf_parseHeader (rfl : NoUnk (PState.init src)) _ _ hp
    have h2 := keepsQ_fileLoop notUnk_sane (fun _ _ => rfl) noUnk_stable (src.length + 3) (src.length + 3) { span := b.2.2 } s1 h1
    dsimp only at hs
    change _ = P.bind (P.fileLoop _ _ _) _ s1 at hs
    unfold P.bind at hs
    rcases hl : P.fileLoop (src.length + 3) (src.length + 3) { span := b.2.2 } s1 with ⟨r2, s2⟩
    rw [hl] at h2 hs
    cases r2 with
    | ok c =>
      rw [hs] at h
      have h : (if s2.errs = [] then _ else _) = _ := h
      split at h
      · cases h
      · cases h
        exact h2
    | err => rw [hs] at h; cases h; exact h2
    | panic => rw [hs] at h; cases h
    | oof => rw [hs] at h; cases h

end Verif
