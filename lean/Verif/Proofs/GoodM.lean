import Verif.Proofs.Good
/-! Methods that take every token that their messages ask for. -/
namespace Verif.Exec
open Parse Prog Spec

/-! ### The words in messages -/

/-- The words stand for some tokens, all of them in `S`. -/
structure MeansW (w : Bytes) (S : Token → Prop) : Prop where
  only : ∀ y, means w y → S y
  some : ∃ y, means w y

theorem MeansW.mono {w S S'} (h : MeansW w S) (hS : ∀ y, S y → S' y) : MeansW w S' := ⟨fun y hy => hS y (h.only y hy), h.some⟩

theorem means_of [FloatFmt] {ex : Expect} {ws S} (h : alternatives ex.render = ws) (hw : ∀ w ∈ ws, MeansW w S) : Means ex S where
  only := by
    rintro y ⟨w, h', hm⟩
    rw [h] at h'
    exact (hw w h').only y hm
  some := by
    intro w h'
    rw [h] at h'
    exact (hw w h').some

theorem spelling_inj {x : Bytes} {s t : Token} (hs : spelling s = some x) (ht : spelling t = some x) : s = t := by
  have hid : ∀ {v : Bytes}, spelling (.ident v) = some x → v = x ∧ x.head?.any isAlpha = true := by
    intro v h
    unfold spelling at h
    dsimp only at h
    split at h
    · cases h; exact ⟨rfl, by assumption⟩
    · cases h
  cases s <;> cases t <;> first
    | rfl
    | (cases hs; cases ht; done)
    | (cases hs; done)
    | (cases ht; done)
    | (rw [(hid hs).1, (hid ht).1]; done)
    | (cases ht; exact absurd (hid hs).2 (by decide))
    | (cases hs; exact absurd (hid ht).2 (by decide))

theorem meansW_quote {t : Token} {x : Bytes} (h : spelling t = some x) : MeansW (b!"'" ++ x ++ b!"'") (· = t) where
  only := by
    intro y hy
    rcases hy with ⟨z, hz, e⟩ | ⟨e, _⟩ | ⟨e, _⟩ | ⟨e, _⟩ | ⟨e, _⟩ | ⟨e, _⟩ | ⟨e, _⟩ | ⟨e, _⟩ | ⟨e, _⟩
    · have : x = z := by
        have e : (39 :: (x ++ [39]) : Bytes) = 39 :: (z ++ [39]) := e
        injection e with _ e
        exact List.append_cancel_right e
      subst this
      exact spelling_inj hz h
    all_goals (exfalso; revert e; simp)
  some := ⟨t, .inl ⟨x, h, rfl⟩⟩

/-- The tokens that begin a type. -/
abbrev IsTy (t : Token) : Prop := Token.startsType t = true

macro "mw" : tactic => `(tactic| (intro y hy; rcases hy with ⟨z, hz, e⟩ | ⟨e, h⟩ | ⟨e, h⟩ | ⟨e, h⟩ | ⟨e, h⟩ | ⟨e, h⟩ | ⟨e, h⟩ | ⟨e, h⟩ | ⟨e, h⟩ <;> first
  | (exact absurd (List.cons.inj e).1 (by decide))
  | (exact absurd e (by decide))
  | exact h
  | (obtain ⟨s, rfl⟩ := h; exact ⟨s, rfl⟩)))

theorem meansW_ident : MeansW b!"an identifier" (fun t => ∃ s, t = .ident s) where
  only := by mw
  some := ⟨.ident [], .inr (.inl ⟨rfl, _, rfl⟩)⟩
theorem meansW_type {w} (hw : w ∈ [b!"a type name", b!"a field type", b!"a message field"]) : MeansW w IsTy where
  only := by
    intro y hy
    have h : y = .dot ∨ ∃ s, y = .ident s := by
      revert y
      simp only [List.mem_cons, List.not_mem_nil, or_false] at hw
      rcases hw with rfl | rfl | rfl <;> mw
    rcases h with rfl | ⟨s, rfl⟩ <;> rfl
  some := ⟨.dot, .inr (.inr (.inl ⟨hw, .inl rfl⟩))⟩
theorem meansW_int {w} (hw : w ∈ [b!"an integer", b!"a positive integer"]) : MeansW w (fun t => ∃ n, t = .int n) where
  only := by
    simp only [List.mem_cons, List.not_mem_nil, or_false] at hw
    rcases hw with rfl | rfl <;> mw
  some := ⟨.int 0, .inr (.inr (.inr (.inl ⟨hw, 0, rfl⟩)))⟩
theorem meansW_string {w} (hw : w ∈ [b!"a string literal", b!"a string", b!"string"]) : MeansW w (fun t => ∃ s, t = .string s) where
  only := by
    simp only [List.mem_cons, List.not_mem_nil, or_false] at hw
    rcases hw with rfl | rfl | rfl <;> mw
  some := ⟨.string [], .inr (.inr (.inr (.inr (.inl ⟨hw, [], rfl⟩))))⟩
theorem meansW_numeric : MeansW b!"a numeric literal" (fun t => (∃ n, t = .int n) ∨ ∃ x, t = .float x) where
  only := by mw
  some := ⟨.int 0, .inr (.inr (.inr (.inr (.inr (.inl ⟨rfl, .inl ⟨0, rfl⟩⟩)))))⟩
theorem meansW_constant : MeansW b!"a constant" (fun t => t = .minus ∨ t = .leftBrace ∨ (∃ s, t = .ident s) ∨ (∃ n, t = .int n) ∨ (∃ x, t = .float x) ∨
    ∃ s, t = .string s) where
  only := by mw
  some := ⟨.minus, .inr (.inr (.inr (.inr (.inr (.inr (.inl ⟨rfl, .inl rfl⟩))))))⟩
theorem meansW_word {w} (hw : w ∈ [b!"oneof", b!"enum", b!"message", b!"option"]) : MeansW w (fun t => t = .ident w) where
  only := by
    simp only [List.mem_cons, List.not_mem_nil, or_false] at hw
    rcases hw with rfl | rfl | rfl | rfl <;> mw
  some := ⟨.ident w, .inr (.inr (.inr (.inr (.inr (.inr (.inr (.inl ⟨hw, rfl⟩)))))))⟩
theorem meansW_range : MeansW b!"reserved range" (fun t => t = .ident b!"reserved") where
  only := by mw
  some := ⟨.ident b!"reserved", .inr (.inr (.inr (.inr (.inr (.inr (.inr (.inr ⟨rfl, rfl⟩)))))))⟩

/-! ### Methods -/

section
variable [FloatFmt]

/-- Whatever good method comes next, the whole is good, if what comes next takes the tokens `T` that this one leaves. -/
structure GoodT {α : Type} (T : Token → Prop) (p : Prog α) : Prop where
  run : ∀ {γ : Type} (K : α → Prog γ), (∀ a, Good (K a)) → (∀ a t, T t → Takes t (K a)) → Good (p >>= K)

/-- Nothing is demanded of what comes next. -/
abbrev GoodM {α : Type} (p : Prog α) : Prop := GoodT (fun _ => False) p

theorem GoodM.to {α : Type} {T} {p : Prog α} (h : GoodM p) : GoodT T p := ⟨fun K hK _ => h.run K hK fun _ _ h => h.elim⟩

theorem GoodT.bind {α β : Type} {T T'} {p : Prog α} {f : α → Prog β} (h : GoodT T p) (hf : ∀ a, GoodT T' (f a))
    (ht : ∀ a t, T t → Takes t (f a)) : GoodT T' (p >>= f) := by
  refine ⟨fun K hK hT => ?_⟩
  rw [bind_assoc']
  exact h.run _ (fun a => (hf a).run K hK hT) fun a t hat => (ht a t hat).bind

theorem GoodM.bind {α β : Type} {T} {p : Prog α} {f : α → Prog β} (h : GoodM p) (hf : ∀ a, GoodT T (f a)) : GoodT T (p >>= f) :=
  GoodT.bind h hf fun _ _ h => h.elim

theorem good_pure {α : Type} {T} {a : α} : GoodT T (pure a : Prog α) := ⟨fun _ hK _ => hK a⟩
theorem good_bump : GoodM Prog.bump := ⟨fun K hK _ => ⟨⟨nofun, nofun⟩, (hK sp0).g, (hK sp0).after⟩⟩
theorem good_leading : GoodM Prog.leading := ⟨fun K hK _ => ⟨⟨(hK ld0).g.tok, (hK ld0).g.fin⟩, (hK ld0).after⟩⟩
theorem good_trailing {l} : GoodM (Prog.trailing l) := ⟨fun K hK _ => ⟨⟨(hK cm0).g.tok, (hK cm0).g.fin⟩, (hK cm0).after⟩⟩
theorem good_setTextMode {b} : GoodM (Prog.setTextMode b) := ⟨fun K hK _ => ⟨⟨(hK ()).g.tok, (hK ()).g.fin⟩, (hK ()).after⟩⟩
theorem good_assertNoPeek : GoodM Prog.assertNoPeek := ⟨fun K hK _ => ⟨⟨(hK ()).g.tok, (hK ()).g.fin⟩, (hK ()).after⟩⟩
theorem good_panicked {α : Type} {T} : GoodT T (.panicked : Prog α) := ⟨fun _ _ _ => ⟨⟨nofun, nofun⟩, trivial⟩⟩
theorem good_oof {α : Type} {T} : GoodT T (.outOfFuel : Prog α) := ⟨fun _ _ _ => ⟨⟨nofun, nofun⟩, trivial⟩⟩
theorem good_failed {α : Type} {T} : GoodT T (.failed : Prog α) := ⟨fun _ _ _ => ⟨⟨nofun, nofun⟩, trivial⟩⟩
theorem good_addError {e} (he : blame? e = none) (he' : eof? e = none) : GoodM (Prog.addError e) :=
  ⟨fun {_} K hK _ => ⟨(G.addError (k := K ()) he he').2 (hK ()).g, fun _ => (hK ()).after⟩⟩

/-- The part of a method after it has looked at the token `t`. -/
structure Br {α : Type} (T : Token → Prop) (ex : Expect) (S : Token → Prop) (t : Token) (p : Prog α) : Prop where
  good : ∀ {γ : Type} (K : α → Prog γ), (∀ a, Good (K a)) → (∀ a t, T t → Takes t (K a)) → After (p >>= K)
  fate : Takes t p ∨ (T t ∧ ∃ a, Exec.fate t p = .rets a) ∨ (¬ S t ∧ Exec.fate t p = .blamed ex t)

theorem br_take {α : Type} {T ex S t} {p : Prog α} (h : GoodT T p) (ht : Takes t p) : Br T ex S t p :=
  ⟨fun K hK hT => (h.run K hK hT).after, .inl ht⟩
theorem br_pure {α : Type} {T ex S t} {a : α} (h : T t) : Br T ex S t (pure a : Prog α) :=
  ⟨fun _ hK _ => (hK a).after, .inr (.inl ⟨h, a, rfl⟩)⟩
theorem br_blame {α : Type} {T ex S t} (h : ¬ S t) : Br T ex S t (unexpected ex : Prog α) :=
  ⟨fun _ _ _ => ⟨fun _ h => (nomatch h), fun _ => trivial⟩, .inr (.inr ⟨h, rfl⟩)⟩
theorem br_blame' {α : Type} {T ex S t} {p : Prog α} (h : ¬ S t) (hp : GoodT T p) (hf : fate t p = .blamed ex t) : Br T ex S t p :=
  ⟨fun K hK hT => (hp.run K hK hT).after, .inr (.inr ⟨h, hf⟩)⟩

theorem good_of_look {α γ : Type} {T ex S} {p : Prog α} {f : Token → Prog α} (m : Means ex S) (h : ∀ t, Br T ex S t (f t))
    {K : α → Prog γ} (hT : ∀ a t, T t → Takes t (K a)) (hp : ∀ x, fate x (p >>= K) = fate x (f x >>= K))
    (he : ∀ ex', efate (p >>= K) = .ended ex' → ex' = ex) : G (p >>= K) := by
  have key : ∀ x, Takes x (f x >>= K) ∨ (¬ S x ∧ fate x (f x >>= K) = .blamed ex x) := by
    intro x
    rcases (h x).fate with h' | ⟨h', a, ha⟩ | ⟨h', hf⟩
    · exact .inl h'.bind
    · exact .inl (by unfold Takes; rw [fate_bind, ha]; exact hT a x h')
    · exact .inr ⟨h', by rw [fate_bind, hf]; rfl⟩
  have takes : ∀ y, S y → Takes y (p >>= K) := by
    intro y hy
    unfold Takes
    rw [hp]
    rcases key y with h3 | ⟨h3, _⟩
    · exact h3
    · exact absurd hy h3
  refine ⟨fun x ex' t hx => ?_, fun ex' hx => ?_⟩
  · rw [hp] at hx
    rcases key x with (h' | h') | ⟨h', h''⟩
    · rw [h'] at hx; cases hx
    · rw [h'] at hx; cases hx
    · rw [h''] at hx
      cases hx
      exact ⟨rfl, S, m, takes⟩
  · cases he ex' hx
    exact ⟨S, m, takes⟩

/-- A look at the next token in the method, and what is after it. -/
theorem good_look_then {α γ : Type} {T ex S} {f : Option (Token × Span) → Prog α} (m : Means ex S)
    (h : ∀ t, Br T ex S t (f (some (t, sp0)))) {K : α → Prog γ} (hK : ∀ a, Good (K a)) (hT : ∀ a t, T t → Takes t (K a))
    (hn : After (f none >>= K)) (he : ∀ ex', efate (f none >>= K) = .ended ex' → ex' = ex) :
    Good (peekSkip >>= f >>= K) ∧ Good (peek >>= f >>= K) := by
  refine ⟨⟨good_of_look m h hT (fun x => ?_) fun ex' hx => he ex' ?_, fun t => (h t).good K hK hT, hn⟩,
    ⟨good_of_look m h hT (fun x => ?_) fun ex' hx => he ex' ?_, fun t => (h t).good K hK hT, hn⟩⟩
  · rw [bind_assoc']; rfl
  · rw [← hx, bind_assoc']; rfl
  · rw [bind_assoc']; rfl
  · rw [← hx, bind_assoc']; rfl

/-- What a method does at the end of the file: it reports the same message, perhaps in another method. -/
def AtEnd {α : Type} (T : Token → Prop) (ex : Expect) (p : Prog α) : Prop := (GoodT T p ∧ efate p = .ended ex) ∨ p = unexpected ex

theorem AtEnd.then {α γ : Type} {T ex} {p : Prog α} (h : AtEnd T ex p) {K : α → Prog γ} (hK : ∀ a, Good (K a)) (hT : ∀ a t, T t → Takes t (K a)) :
    After (p >>= K) ∧ ∀ ex', efate (p >>= K) = .ended ex' → ex' = ex := by
  rcases h with ⟨h, h'⟩ | rfl
  · refine ⟨(h.run K hK hT).after, fun ex' hx => ?_⟩
    rw [efate_bind, h'] at hx
    cases hx; rfl
  · exact ⟨⟨fun _ h => (nomatch h), fun _ => trivial⟩, fun ex' hx => by cases hx; rfl⟩

/-- A look at the next token, with one message. -/
theorem good_peekSkip {α : Type} {T ex S} {f : Option (Token × Span) → Prog α} (m : Means ex S)
    (h : ∀ t, Br T ex S t (f (some (t, sp0)))) (hn : AtEnd T ex (f none)) : GoodT T (peekSkip >>= f) :=
  ⟨fun {_} K hK hT => (good_look_then m h hK hT (hn.then hK hT).1 (hn.then hK hT).2).1⟩

theorem good_peek {α : Type} {T ex S} {f : Option (Token × Span) → Prog α} (m : Means ex S)
    (h : ∀ t, Br T ex S t (f (some (t, sp0)))) (hn : AtEnd T ex (f none)) : GoodT T (peek >>= f) :=
  ⟨fun {_} K hK hT => (good_look_then m h hK hT (hn.then hK hT).1 (hn.then hK hT).2).2⟩

/-- A look at the next token that may take it but never blames it. -/
theorem good_opt {α : Type} {p : Prog α} {f : Token → Prog α} {a : α}
    (hp : ∀ {γ : Type} (K : α → Prog γ) x, fate x (p >>= K) = fate x (f x >>= K))
    (he : ∀ {γ : Type} (K : α → Prog γ), efate (p >>= K) = efate (K a))
    (hA : ∀ {γ : Type} (K : α → Prog γ), (∀ a, Good (K a)) → After (p >>= K))
    (h : ∀ t, Takes t (f t) ∨ fate t (f t) = .rets a) : GoodM p := by
  refine ⟨fun {γ} K hK _ => ?_⟩
  have key : ∀ x, Takes x (f x >>= K) ∨ fate x (f x >>= K) = fate x (K a) := by
    intro x
    rcases h x with h | h
    · exact .inl h.bind
    · exact .inr (by rw [fate_bind, h]; rfl)
  refine ⟨(hK a).g.congr (fun x ex t hx => ?_) (fun y hy => ?_) fun ex hx => ?_, hA K hK⟩
  · rw [hp] at hx
    rcases key x with (h' | h') | h'
    · rw [h'] at hx; cases hx
    · rw [h'] at hx; cases hx
    · rw [h'] at hx; exact hx
  · unfold Takes
    rw [hp]
    rcases key y with h4 | h4
    · exact h4
    · rw [h4]; exact hy
  · rw [he] at hx; exact hx

theorem good_optSkip {α : Type} {f : Option (Token × Span) → Prog α} (a : α)
    (h : ∀ t, GoodM (f (some (t, sp0))) ∧ (Takes t (f (some (t, sp0))) ∨ fate t (f (some (t, sp0))) = .rets a)) (hn : f none = pure a) :
    GoodM (peekSkip >>= f) :=
  good_opt (p := peekSkip >>= f) (a := a) (f := fun x => f (some (x, sp0))) (fun K x => by rw [bind_assoc']; rfl)
    (fun K => by rw [bind_assoc']; show efate (f none >>= K) = _; rw [hn]; rfl)
    (fun K hK => ⟨fun t => ((h t).1.run K hK fun _ _ h => h.elim).after, by show After (f none >>= K); rw [hn]; exact (hK a).after⟩) fun t => (h t).2

theorem good_optPeek {α : Type} {f : Option (Token × Span) → Prog α} (a : α)
    (h : ∀ t, GoodM (f (some (t, sp0))) ∧ (Takes t (f (some (t, sp0))) ∨ fate t (f (some (t, sp0))) = .rets a)) (hn : f none = pure a) :
    GoodM (peek >>= f) :=
  good_opt (p := peek >>= f) (a := a) (f := fun x => f (some (x, sp0))) (fun K x => by rw [bind_assoc']; rfl)
    (fun K => by rw [bind_assoc']; show efate (f none >>= K) = _; rw [hn]; rfl)
    (fun K hK => ⟨fun t => ((h t).1.run K hK fun _ _ h => h.elim).after, by show After (f none >>= K); rw [hn]; exact (hK a).after⟩) fun t => (h t).2

theorem good_loopT {σ β : Type} {T} {step : σ → Prog (Step σ β)} (h : ∀ s, GoodT T (step s))
    (hr : ∀ s t, T t → ∃ b, fate t (step s) = .rets (.done b)) (n : Nat) (s : σ) : GoodT T (loopM step n s) := by
  refine ⟨fun {γ} K hK hT => ?_⟩
  have key : ∀ n s, Good (loopM step n s >>= K) ∧ ∀ t, T t → Takes t (loopM step n s >>= K) := by
    intro n
    induction n with
    | zero => exact fun s => ⟨⟨⟨nofun, nofun⟩, trivial⟩, fun _ _ => .inr rfl⟩
    | succ n ih =>
      intro s
      have e : loopM step (n + 1) s >>= K = step s >>= fun x => (match x with
          | .next s' => loopM step n s'
          | .done b => pure b) >>= K := bind_assoc' _ _ _
      rw [e]
      refine ⟨(h s).run _ ?_ ?_, ?_⟩
      · intro x
        cases x with
        | next s' => exact (ih s').1
        | done b => exact hK b
      · intro x t ht
        cases x with
        | next s' => exact (ih s').2 t ht
        | done b => exact hT b t ht
      · intro t ht
        obtain ⟨b, hb⟩ := hr s t ht
        unfold Takes
        rw [fate_bind, hb]
        exact hT b t ht
  exact (key n s).1

theorem good_loopM {σ β : Type} {T} {step : σ → Prog (Step σ β)} (h : ∀ s, GoodM (step s)) (n : Nat) (s : σ) : GoodT T (loopM step n s) :=
  GoodM.to (good_loopT h (fun _ _ h => h.elim) n s)

theorem takes_leading {α : Type} {x : Token} {k : List Bytes × Option Bytes → Prog α} (h : Takes x (k ld0)) : Takes x (leading >>= k) := h
theorem takes_bump {x : Token} : Takes x Prog.bump := .inl rfl

end
end Verif.Exec
