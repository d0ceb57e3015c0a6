import Verif.Proofs.Exec
import Verif.Spec.Expect
/-! A token that a message says was expected is taken when it is there. -/
namespace Verif.Exec
open Parse Prog Spec

theorem bind_assoc' {α β γ : Type} (p : Prog α) (f : α → Prog β) (g : β → Prog γ) : p >>= f >>= g = p >>= fun a => f a >>= g := by
  show (p.bind f).bind g = p.bind fun a => (f a).bind g
  induction p with
  | ret a => rfl
  | peekThen k ih => exact congrArg _ (funext ih)
  | peekSkipThen k ih => exact congrArg _ (funext ih)
  | bumpThen k ih => exact congrArg _ (funext ih)
  | addErrorThen e k ih => exact congrArg _ ih
  | leadingThen k ih => exact congrArg _ (funext ih)
  | trailingThen l k ih => exact congrArg _ (funext ih)
  | setTextModeThen b k ih => exact congrArg _ ih
  | assertNoPeekThen k ih => exact congrArg _ ih
  | failed => rfl
  | panicked => rfl
  | outOfFuel => rfl

theorem pure_bind' {α β : Type} (a : α) (f : α → Prog β) : (pure a : Prog α) >>= f = f a := rfl

section
variable [FloatFmt]

/-- The tokens that a message names are among `S`, and every alternative in it names some. -/
structure Means (ex : Expect) (S : Token → Prop) : Prop where
  only : ∀ y, expects ex y → S y
  some : ∀ words ∈ alternatives ex.render, ∃ y, means words y

/-- The token is taken (or the counter runs out). -/
def Takes {α : Type} (x : Token) (p : Prog α) : Prop := fate x p = .took ∨ fate x p = .oof

theorem Takes.bind {α β : Type} {x : Token} {p : Prog α} {f : α → Prog β} (h : Takes x p) : Takes x (p >>= f) := by
  unfold Takes
  rw [fate_bind]
  rcases h with h | h
  · exact .inl (by rw [h]; rfl)
  · exact .inr (by rw [h]; rfl)

/-- If the next token is blamed, the message makes sense and says what was found, and the tokens that it names are taken
instead; and the same if it is the end of the file that is blamed. -/
structure G {α : Type} (p : Prog α) : Prop where
  tok : ∀ x ex t, fate x p = .blamed ex t → t = x ∧ ∃ S, Means ex S ∧ ∀ y, S y → Takes y p
  fin : ∀ ex, efate p = .ended ex → ∃ S, Means ex S ∧ ∀ y, S y → Takes y p

/-- A method that does the same with every next token. -/
theorem G.congr {α β : Type} {p : Prog α} {q : Prog β} (h : G p) (h1 : ∀ y ex t, fate y q = .blamed ex t → fate y p = .blamed ex t)
    (h2 : ∀ y, Takes y p → Takes y q) (h3 : ∀ ex, efate q = .ended ex → efate p = .ended ex) : G q where
  tok := fun x ex t hx => by
    obtain ⟨h1, S, h2', h3⟩ := h.tok x ex t (h1 x ex t hx)
    exact ⟨h1, S, h2', fun y hy => h2 y (h3 y hy)⟩
  fin := fun ex hx => by
    obtain ⟨S, h2', h3⟩ := h.fin ex (h3 ex hx)
    exact ⟨S, h2', fun y hy => h2 y (h3 y hy)⟩

theorem G.addError {α : Type} {e} {k : Prog α} (he : blame? e = none) (he' : eof? e = none) : G (.addErrorThen e k) ↔ G k := by
  have h : ∀ y, fate y (addErrorThen e k) = fate y k := fun y => by rw [fate, he, he']
  have h' : efate (addErrorThen e k) = efate k := by rw [efate, he, he']
  constructor
  · exact fun hg => hg.congr (fun y ex t hx => by rw [h]; exact hx) (fun y hy => by unfold Takes at hy; rw [h] at hy; exact hy) fun ex hx => by rw [h']; exact hx
  · exact fun hg => hg.congr (fun y ex t hx => by rw [← h]; exact hx) (fun y hy => by unfold Takes; rw [h]; exact hy) fun ex hx => by rw [← h']; exact hx

/-- The same after every token taken. -/
def After {α : Type} : Prog α → Prop
  | .ret _ => True
  | .peekThen k => (∀ t, After (k (some (t, sp0)))) ∧ After (k none)
  | .peekSkipThen k => (∀ t, After (k (some (t, sp0)))) ∧ After (k none)
  | .bumpThen k => G (k sp0) ∧ After (k sp0)
  | .addErrorThen e k => blame? e = none → After k
  | .leadingThen k => After (k ld0)
  | .trailingThen _ k => After (k cm0)
  | .setTextModeThen _ k => After k
  | .assertNoPeekThen k => After k
  | .failed => True
  | .panicked => True
  | .outOfFuel => True

structure Good {α : Type} (p : Prog α) : Prop where
  g : G p
  after : After p

theorem Good.left {α : Type} {p q : Prog α} {u : Toks} (h : Left p u q) (hp : Good p) : Good q := by
  have key : ∀ {p q : Prog α} {u : Toks}, Left p u q → After p → After q ∧ (u ≠ [] → G q) := by
    intro p q u h
    induction h with
    | here p => exact fun h => ⟨h, fun h => absurd rfl h⟩
    | peek h ih => exact fun hp => ⟨(ih (hp.1 _)).1, fun _ => (ih (hp.1 _)).2 (by simp)⟩
    | peekSkip h ih => exact fun hp => ⟨(ih (hp.1 _)).1, fun _ => (ih (hp.1 _)).2 (by simp)⟩
    | @bump k t u q h ih =>
      intro hp
      refine ⟨(ih hp.2).1, fun _ => ?_⟩
      by_cases hu : u = []
      · subst hu
        clear ih
        obtain ⟨hg, -⟩ := hp
        generalize hr : k sp0 = r at h hg
        clear hr
        generalize hu : ([] : Toks) = u at h
        induction h with
        | here p => exact hg
        | peek h ih => cases hu
        | peekSkip h ih => cases hu
        | bump h ih => cases hu
        | addError he he' h ih => exact ih ((G.addError he he').1 hg) hu
        | leading h ih => exact ih ⟨hg.tok, hg.fin⟩ hu
        | trailing h ih => exact ih ⟨hg.tok, hg.fin⟩ hu
        | setTextMode h ih => exact ih ⟨hg.tok, hg.fin⟩ hu
        | assertNoPeek h ih => exact ih ⟨hg.tok, hg.fin⟩ hu
      · exact (ih hp.2).2 hu
    | addError he he' h ih => exact fun hp => ih (hp he)
    | leading h ih => exact fun hp => ih hp
    | trailing h ih => exact fun hp => ih hp
    | setTextMode h ih => exact fun hp => ih hp
    | assertNoPeek h ih => exact fun hp => ih hp
  refine ⟨?_, (key h hp.after).1⟩
  by_cases hu : u = []
  · -- nothing was taken
    have hg := hp.g
    clear hp key
    induction h with
    | here p => exact hg
    | peek h ih => cases hu
    | peekSkip h ih => cases hu
    | bump h ih => cases hu
    | addError he he' h ih => exact ih hu ((G.addError he he').1 hg)
    | leading h ih => exact ih hu ⟨hg.tok, hg.fin⟩
    | trailing h ih => exact ih hu ⟨hg.tok, hg.fin⟩
    | setTextMode h ih => exact ih hu ⟨hg.tok, hg.fin⟩
    | assertNoPeek h ih => exact ih hu ⟨hg.tok, hg.fin⟩
  · exact (key h hp.after).2 hu

end
end Verif.Exec
