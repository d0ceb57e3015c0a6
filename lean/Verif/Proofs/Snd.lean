import Verif.Spec.Grammar
import Verif.Proofs.Wp
import Verif.Proofs.AstIn
/-! What a grammar method does on a token sequence: soundness for the grammar, spans, progress. Basic methods. -/
namespace Verif.Parse
open Lex Verif.Ast Verif.Grammar

/-- From `st`, the tokens `used` are consumed and `st'` is reached. -/
structure Eats (st : AS) (used : List STok) (st' : AS) : Prop where
  toks : st.toks = used.map some ++ st'.toks
  bad : st.bad = true → st'.bad = true

/-- From `st`, the method fails in `st'`. -/
structure Fails (st st' : AS) : Prop where
  bad : st'.bad = true
  len : st'.toks.length ≤ st.toks.length

/-- The tokens left have spans in order, inside the source. -/
def Pre (L : Nat) (st : AS) : Prop := ∃ a, Chain a st.toks L

theorem Eats.refl (st : AS) : Eats st [] st := ⟨rfl, id⟩
theorem Eats.same {st st' : AS} (h : st.toks = st'.toks) (hb : st'.bad = st.bad) : Eats st [] st' :=
  ⟨by simpa using h, by rw [hb]; exact id⟩
theorem Eats.trans {st st' st'' : AS} {u v} (h : Eats st u st') (h' : Eats st' v st'') : Eats st (u ++ v) st'' :=
  ⟨by rw [h.toks, h'.toks]; simp, fun hb => h'.bad (h.bad hb)⟩
theorem Eats.one {st st' : AS} {t : STok} (h : st.toks = some t :: st'.toks) (hb : st'.bad = st.bad) :
    Eats st [t] st' := ⟨by simpa using h, by rw [hb]; exact id⟩
theorem Eats.len {st st' : AS} {u} (h : Eats st u st') : st.toks.length = u.length + st'.toks.length := by
  rw [h.toks]; simp
theorem Eats.le {st st' : AS} {u n} (h : Eats st u st') (hn : st.toks.length ≤ n) : st'.toks.length ≤ n := by
  have := h.len; omega
theorem Eats.fails {st st' st'' : AS} {u} (h : Eats st u st') (h' : Fails st' st'') : Fails st st'' :=
  ⟨h'.bad, by have := h.len; have := h'.len; omega⟩
theorem Fails.refl {st st' : AS} (hb : st'.bad = true) (ht : st'.toks = st.toks) : Fails st st' :=
  ⟨hb, by rw [ht]; exact Nat.le_refl _⟩

theorem chain_append {a b : Nat} {u : List (Option STok)} {v} :
    Chain a (u ++ v) b ↔ ∃ c, Chain a u c ∧ Chain c v b := by
  constructor
  · intro h
    induction u generalizing a with
    | nil => exact ⟨a, Nat.le_refl _, h⟩
    | cons t ts ih =>
      cases t with
      | none =>
        obtain ⟨c, h1, h2⟩ := ih h
        exact ⟨c, h1, h2⟩
      | some t =>
        obtain ⟨c, h1, h2⟩ := ih h.2.2
        exact ⟨c, ⟨h.1, h.2.1, h1⟩, h2⟩
  · rintro ⟨c, h1, h2⟩
    induction u generalizing a with
    | nil => exact h2.mono h1
    | cons t ts ih =>
      cases t with
      | none => exact ih h1
      | some t => exact ⟨h1.1, h1.2.1, ih h1.2.2⟩

theorem Eats.pre {L st st' u} (h : Eats st u st') (hp : Pre L st) : Pre L st' := by
  obtain ⟨a, ha⟩ := hp
  rw [h.toks, chain_append] at ha
  obtain ⟨c, _, h2⟩ := ha
  exact ⟨c, h2⟩

/-- The spans of the consumed tokens are in order between `a` and `b`. -/
def UC (a : Nat) (u : List STok) (b : Nat) : Prop := Chain a (u.map some) b

theorem UC_append {a b u v} : UC a (u ++ v) b ↔ ∃ c, UC a u c ∧ UC c v b := by
  unfold UC; rw [List.map_append, chain_append]

theorem UC_nil {a b} : UC a [] b ↔ a ≤ b := Iff.rfl

theorem UC_cons {a b t u} : UC a (t :: u) b ↔ ∃ c, SpIn a c t.2 ∧ UC c u b := by
  constructor
  · intro h; exact ⟨t.2.stop, ⟨h.1, h.2.1, Nat.le_refl _⟩, h.2.2⟩
  · rintro ⟨c, h1, h2⟩; exact ⟨h1.1, h1.2.1, Chain.mono h2 h1.2.2⟩

theorem UC_one {a b t} : UC a [t] b ↔ SpIn a b t.2 := by
  rw [UC_cons]
  constructor
  · rintro ⟨c, h1, h2⟩; exact h1.mono (Nat.le_refl _) h2
  · intro h; exact ⟨b, h, Nat.le_refl b⟩

theorem UC.le {a b u} (h : UC a u b) : a ≤ b := Chain.le h

theorem UC.weak {a b b' u} (h : UC a u b) (hb : b ≤ b') : UC a u b' := by
  have : UC a (u ++ []) b' := UC_append.2 ⟨b, h, hb⟩
  simpa using this

/-- The spans of tokens that were consumed lie in the source. -/
theorem Eats.uc {L st st' u} (h : Eats st u st') (hp : Pre L st) : ∃ a, UC a u L := by
  obtain ⟨a, ha⟩ := hp
  rw [h.toks, chain_append] at ha
  obtain ⟨c, h1, h2⟩ := ha
  exact ⟨a, UC.weak h1 h2.le⟩

/-- The tokens without their spans. -/
def bare (u : List STok) : List Token := u.map Prod.fst

@[simp] theorem bare_append (u v) : bare (u ++ v) = bare u ++ bare v := by simp [bare]
@[simp] theorem bare_cons (t u) : bare (t :: u) = t.1 :: bare u := rfl
@[simp] theorem bare_nil : bare [] = [] := rfl

/-- `p`, run on at most `n` tokens: consumes tokens derived by the grammar `G` if no error is recorded, returns
trees whose spans come from those tokens (`I`), and records an error whenever it fails. -/
def Snd (L n : Nat) {α : Type} (p : Prog α) (G : List Token → α → Prop) (I : Nat → Nat → α → Prop) : Prop :=
  ∀ (st : AS) (Q : α → AS → Prop) (E : AS → Prop), st.toks.length ≤ n → Pre L st →
    (∀ used v st', Eats st used st' → (st'.bad = false → G (bare used) v) →
      (∀ a b, UC a used b → I a b v) → Q v st') →
    (∀ st', Fails st st' → E st') → wp L p Q E st

/-! ## Primitive steps -/

section prim
variable {L : Nat} {α β : Type} {Q : β → AS → Prop} {E : AS → Prop} {st : AS}

theorem wp_bind' {p : Prog α} {f : α → Prog β} :
    wp L (p >>= f) Q E st ↔ wp L p (fun a st' => wp L (f a) Q E st') E st := wp_bind p f Q E st

theorem wp_pure {b : β} : wp L (pure b : Prog β) Q E st ↔ Q b st := Iff.rfl

theorem peekK_intro {K : Option STok → AS → Prop}
    (h0 : st.toks = [] → K none ⟨[], false, st.bad⟩)
    (h1 : ∀ st', Fails st st' → st'.toks = st.toks → E st')
    (h2 : ∀ t sp r, st.toks = some (t, sp) :: r → K (some (t, sp)) ⟨some (t, sp) :: r, true, st.bad⟩) :
    st.peekK K E := by
  obtain ⟨toks, pk, bad⟩ := st
  unfold AS.peekK AS.look
  rcases toks with _ | ⟨_ | ⟨t, sp⟩, r⟩
  · exact h0 rfl
  · exact h1 _ ⟨rfl, Nat.le_refl _⟩ rfl
  · exact h2 t sp r rfl

theorem wp_peek {Q : Option STok → AS → Prop} : wp L Prog.peek Q E st ↔ st.peekK Q E := Iff.rfl
theorem wp_peekSkip {Q : Option STok → AS → Prop} : wp L Prog.peekSkip Q E st ↔ st.peekK Q E := Iff.rfl
theorem wp_bump {Q : Span → AS → Prop} {t sp r bad} (h : Q sp ⟨r, false, bad⟩) :
    wp L Prog.bump Q E ⟨some (t, sp) :: r, true, bad⟩ := ⟨rfl, h⟩
theorem wp_leading {Q : List Bytes × Option Bytes → AS → Prop} : wp L Prog.leading Q E st ↔ ∀ c, Q c st.look :=
  Iff.rfl
theorem wp_trailing {Q : Ast.Comments → AS → Prop} {l} : wp L (Prog.trailing l) Q E st ↔ ∀ c, Q c st.look :=
  Iff.rfl
theorem wp_addError {Q : Unit → AS → Prop} {e} :
    wp L (Prog.addError e) Q E st ↔ (∀ sp ∈ e.spans, SpanOk L sp) ∧ Q () { st with bad := true } := Iff.rfl

theorem look_eats : Eats st [] st.look := by
  obtain ⟨toks, pk, bad⟩ := st
  unfold AS.look
  rcases toks with _ | ⟨_ | t, r⟩
  · exact ⟨rfl, id⟩
  · exact ⟨rfl, fun _ => rfl⟩
  · exact ⟨rfl, id⟩

theorem Pre.span {t sp r} (h : Pre L st) (ht : st.toks = some (t, sp) :: r) : SpanOk L sp := by
  obtain ⟨a, h⟩ := h
  rw [ht] at h
  have := h.2.1
  have := h.2.2.le
  simp only [SpanOk] at *
  omega

theorem wp_unexpected {ex : Expect} (hp : Pre L st) (hE : ∀ st', Fails st st' → st'.toks = st.toks → E st') :
    wp L (unexpected ex : Prog β) Q E st := by
  unfold unexpected
  rw [wp_bind', wp_peekSkip]
  apply peekK_intro
  · intro h0
    simp only
    rw [wp_bind', wp_addError]
    exact ⟨by simp [ParseErrorKind.spans], hE _ ⟨rfl, by simp [h0]⟩ h0.symm⟩
  · exact hE
  · intro t sp r ht
    simp only
    rw [wp_bind', wp_addError]
    refine ⟨?_, hE _ ⟨rfl, by simp [ht]⟩ ht.symm⟩
    intro s hs
    simp only [ParseErrorKind.spans, List.mem_singleton] at hs
    subst hs
    exact hp.span ht

theorem wp_expectEq {Q : Span → AS → Prop} {t} (hp : Pre L st)
    (hQ : ∀ sp st', st.toks = some (t, sp) :: st'.toks → Eats st [(t, sp)] st' → st'.peeked = false → Q sp st')
    (hE : ∀ st', Fails st st' → st'.toks = st.toks → (∀ sp r, st.toks ≠ some (t, sp) :: r) → E st') :
    wp L (expectEq t) Q E st := by
  unfold expectEq
  rw [wp_bind', wp_peekSkip]
  have hun : (∀ sp r, st.toks ≠ some (t, sp) :: r) → ∀ pk, wp L (unexpected (.oneOf [.token t])) Q E ⟨st.toks, pk, st.bad⟩ := by
    intro h pk
    apply wp_unexpected hp
    intro st' h1 h2
    exact hE st' ⟨h1.bad, h1.len⟩ h2 h
  unfold AS.peekK AS.look
  obtain ⟨toks, pk, bad⟩ := st
  rcases toks with _ | ⟨_ | ⟨tok, sp⟩, r⟩
  · exact hun (by simp) _
  · exact hE _ ⟨rfl, Nat.le_refl _⟩ rfl (by simp)
  · simp only
    split
    · rename_i heq
      subst heq
      exact wp_bump (hQ _ _ rfl (Eats.one rfl rfl) rfl)
    · rename_i hne
      exact hun (by intro sp' r' h; simp at h; exact hne h.1.1) _

end prim

/-- The result of a `Snd` method is obtained in a larger method. -/
theorem Snd.use {L n : Nat} {α : Type} {p : Prog α} {G I} (h : Snd L n p G I) {st : AS} {Q : α → AS → Prop}
    {E : AS → Prop} (hn : st.toks.length ≤ n) (hp : Pre L st)
    (hQ : ∀ used v st', Eats st used st' → (st'.bad = false → G (bare used) v) →
      (∀ a b, UC a used b → I a b v) → Q v st')
    (hE : ∀ st', Fails st st' → E st') : wp L p Q E st := h st Q E hn hp hQ hE

/-! ## Loops -/

theorem wp_loopM {L : Nat} {σ β : Type} {step : σ → Prog (Step σ β)} {Q : β → AS → Prop} {E : AS → Prop}
    (I : σ → AS → Prop)
    (hstep : ∀ s st, I s st → wp L (step s) (fun r st' => match r with
      | .next s' => I s' st' ∧ st'.toks.length < st.toks.length
      | .done b => Q b st') E st) :
    ∀ (n : Nat) (s : σ) (st : AS), I s st → st.toks.length < n → wp L (loopM step n s) Q E st := by
  intro n
  induction n with
  | zero => intro s st _ h; omega
  | succ n ih =>
    intro s st hI hn
    unfold loopM
    rw [wp_bind']
    apply wp_mono _ _ (fun _ h => h) (hstep s st hI)
    intro r st' h
    cases r with
    | next s' => exact ih s' st' h.1 (by omega)
    | done b => exact h

/-! ## Looking at a token -/

section look
variable {L : Nat} {β : Type} {Q : β → AS → Prop} {E : AS → Prop} {st : AS}

theorem wp_peekSkipU {f : Option STok → Prog β} {ex : Expect} (hf : f none = unexpected ex) (hp : Pre L st)
    (hE : ∀ st', Fails st st' → E st')
    (h : ∀ t sp r, st.toks = some (t, sp) :: r → Eats st [] ⟨some (t, sp) :: r, true, st.bad⟩ →
      Pre L ⟨some (t, sp) :: r, true, st.bad⟩ →
      (∀ {γ : Type} {ex : Expect} {Q' : γ → AS → Prop}, wp L (unexpected ex : Prog γ) Q' E ⟨some (t, sp) :: r, true, st.bad⟩) →
      wp L (f (some (t, sp))) Q E ⟨some (t, sp) :: r, true, st.bad⟩) :
    wp L (Prog.peekSkip >>= f) Q E st := by
  rw [wp_bind', wp_peekSkip]
  apply peekK_intro
  · intro h0
    simp only [hf]
    exact wp_unexpected ⟨0, Nat.zero_le _⟩ (fun st' h _ => hE _ ⟨h.bad, by simpa [h0] using h.len⟩)
  · intro st' h _; exact hE _ h
  · intro t sp r ht
    have he : Eats st [] ⟨some (t, sp) :: r, true, st.bad⟩ := Eats.same ht rfl
    exact h t sp r ht he (he.pre hp) (wp_unexpected (he.pre hp) (fun st' h _ => hE _ (he.fails h)))

theorem wp_peekU {f : Option STok → Prog β} {ex : Expect} (hf : f none = unexpected ex) (hp : Pre L st)
    (hE : ∀ st', Fails st st' → E st')
    (h : ∀ t sp r, st.toks = some (t, sp) :: r → Eats st [] ⟨some (t, sp) :: r, true, st.bad⟩ →
      Pre L ⟨some (t, sp) :: r, true, st.bad⟩ →
      (∀ {γ : Type} {ex : Expect} {Q' : γ → AS → Prop}, wp L (unexpected ex : Prog γ) Q' E ⟨some (t, sp) :: r, true, st.bad⟩) →
      wp L (f (some (t, sp))) Q E ⟨some (t, sp) :: r, true, st.bad⟩) :
    wp L (Prog.peek >>= f) Q E st := wp_peekSkipU hf hp hE h

theorem wp_bumpB {γ : Type} {f : Span → Prog γ} {Q : γ → AS → Prop} {t sp r bad}
    (h : wp L (f sp) Q E ⟨r, false, bad⟩) : wp L (Prog.bump >>= f) Q E ⟨some (t, sp) :: r, true, bad⟩ := by
  rw [wp_bind']; exact wp_bump h

end look

/-- Eating the token that was looked at. -/
theorem Eats.bump {st : AS} {t : STok} {r bad} (h : Eats st [] ⟨some t :: r, true, bad⟩) :
    Eats st [t] ⟨r, false, bad⟩ := h.trans (u := []) (Eats.one rfl rfl)

theorem Eats.fails' {st st' : AS} {E : AS → Prop} {u} (h : Eats st u st') (hE : ∀ st', Fails st st' → E st') :
    ∀ st'', Fails st' st'' → E st'' := fun _ f => hE _ (h.fails f)

theorem Eats.notBad {st st' : AS} {u} (h : Eats st u st') (hb : st'.bad = false) : st.bad = false := by
  cases h' : st.bad with
  | false => rfl
  | true => rw [h.bad h'] at hb; cases hb

/-! ## Terminals -/

theorem parseIdent_snd {L n} : Snd L n parseIdent IdentG Ident.In := by
  intro st Q E hn hp hQ hE
  unfold parseIdent
  refine wp_peekSkipU rfl hp hE fun t sp r ht e hp1 hun => ?_
  cases t <;> try exact hun
  rename_i v
  refine wp_bumpB ?_
  exact hQ [(.ident v, sp)] ⟨v, sp⟩ _ e.bump (fun _ => rfl) (fun a b h => UC_one.1 h)

/-! ## Sequences of steps -/

/-- Where a method started in `st` is after consuming `u`, in state `st1`: `Φ` holds if no error is recorded, at
most `n` tokens are left, and failing from here is covered by `E`. -/
structure At (L n : Nat) (E : AS → Prop) (st : AS) (u : List STok) (Φ : Prop) (st1 : AS) : Prop where
  eats : Eats st u st1
  good : st1.bad = false → Φ
  len : st1.toks.length ≤ n
  pre : Pre L st1
  fail : ∀ st', Fails st1 st' → E st'

namespace At
variable {L n : Nat} {E : AS → Prop} {st st1 : AS} {u : List STok} {Φ : Prop} {α β : Type} {Q : β → AS → Prop}

theorem start {L n st E} (hn : st.toks.length ≤ n) (hp : Pre L st) (hE : ∀ st', Fails st st' → E st') :
    At L n E st [] True st := ⟨Eats.refl st, fun _ => trivial, hn, hp, hE⟩

theorem step {st2 : AS} {v Ψ} (A : At L n E st u Φ st1) (e : Eats st1 v st2) (g : st2.bad = false → Ψ) :
    At L n E st (u ++ v) (Φ ∧ Ψ) st2 :=
  ⟨A.eats.trans e, fun hb => ⟨A.good (e.notBad hb), g hb⟩, e.le A.len, e.pre A.pre, e.fails' A.fail⟩

theorem step0 {st2 : AS} (A : At L n E st u Φ st1) (e : Eats st1 [] st2) :
    At L n E st u Φ st2 :=
  ⟨by simpa using A.eats.trans e, fun hb => A.good (e.notBad hb), e.le A.len, e.pre A.pre, e.fails' A.fail⟩

theorem step1 {st2 : AS} {t} (A : At L n E st u Φ st1) (e : Eats st1 [t] st2) :
    At L n E st (u ++ [t]) Φ st2 :=
  ⟨A.eats.trans e, fun hb => A.good (e.notBad hb), e.le A.len, e.pre A.pre, e.fails' A.fail⟩

theorem leading {f : List Bytes × Option Bytes → Prog β} (A : At L n E st u Φ st1)
    (k : ∀ c st2, At L n E st u Φ st2 → wp L (f c) Q E st2) : wp L (Prog.leading >>= f) Q E st1 := by
  rw [wp_bind', wp_leading]; intro c; exact k c _ (A.step0 look_eats)

theorem trailing {l} {f : Ast.Comments → Prog β} (A : At L n E st u Φ st1)
    (k : ∀ c st2, At L n E st u Φ st2 → wp L (f c) Q E st2) : wp L (Prog.trailing l >>= f) Q E st1 := by
  rw [wp_bind', wp_trailing]; intro c; exact k c _ (A.step0 look_eats)

theorem expect {t} {f : Span → Prog β} (A : At L n E st u Φ st1)
    (k : ∀ sp st2, st2.peeked = false → At L n E st (u ++ [(t, sp)]) Φ st2 → wp L (f sp) Q E st2) :
    wp L (expectEq t >>= f) Q E st1 := by
  rw [wp_bind']
  exact wp_expectEq A.pre (fun sp st2 _ e hpk => k sp st2 hpk (A.step1 e)) (fun st' h _ _ => A.fail _ h)

theorem call {p : Prog α} {G I} {f : α → Prog β} (A : At L n E st u Φ st1) (h : Snd L n p G I)
    (k : ∀ used v st2, Eats st1 used st2 → At L n E st (u ++ used) (Φ ∧ G (bare used) v) st2 →
      (∀ a b, UC a used b → I a b v) → wp L (f v) Q E st2) :
    wp L (p >>= f) Q E st1 := by
  rw [wp_bind']
  exact h st1 _ E A.len A.pre (fun used v st2 e g i => k used v st2 e (A.step e g) i) A.fail

theorem peekSkip {f : Option STok → Prog β} {ex : Expect} (hf : f none = unexpected ex) (A : At L n E st u Φ st1)
    (k : ∀ t sp r, st1.toks = some (t, sp) :: r → At L n E st u Φ ⟨some (t, sp) :: r, true, st1.bad⟩ →
      (∀ {γ : Type} {ex : Expect} {Q' : γ → AS → Prop}, wp L (unexpected ex : Prog γ) Q' E ⟨some (t, sp) :: r, true, st1.bad⟩) →
      wp L (f (some (t, sp))) Q E ⟨some (t, sp) :: r, true, st1.bad⟩) :
    wp L (Prog.peekSkip >>= f) Q E st1 :=
  wp_peekSkipU hf A.pre A.fail fun t sp r ht e _ hun => k t sp r ht (A.step0 e) hun

theorem peek {f : Option STok → Prog β} {ex : Expect} (hf : f none = unexpected ex) (A : At L n E st u Φ st1)
    (k : ∀ t sp r, st1.toks = some (t, sp) :: r → At L n E st u Φ ⟨some (t, sp) :: r, true, st1.bad⟩ →
      (∀ {γ : Type} {ex : Expect} {Q' : γ → AS → Prop}, wp L (unexpected ex : Prog γ) Q' E ⟨some (t, sp) :: r, true, st1.bad⟩) →
      wp L (f (some (t, sp))) Q E ⟨some (t, sp) :: r, true, st1.bad⟩) :
    wp L (Prog.peek >>= f) Q E st1 := peekSkip hf A k

/-- Looking at the next token where the end of input is not an error. -/
theorem peekO {f : Option STok → Prog β} (A : At L n E st u Φ st1)
    (k0 : st1.toks = [] → At L n E st u Φ ⟨[], false, st1.bad⟩ → wp L (f none) Q E ⟨[], false, st1.bad⟩)
    (k : ∀ t sp r, st1.toks = some (t, sp) :: r → At L n E st u Φ ⟨some (t, sp) :: r, true, st1.bad⟩ →
      wp L (f (some (t, sp))) Q E ⟨some (t, sp) :: r, true, st1.bad⟩) :
    wp L (Prog.peekSkip >>= f) Q E st1 := by
  rw [wp_bind', wp_peekSkip]
  apply peekK_intro
  · intro h; exact k0 h (A.step0 (Eats.same h rfl))
  · intro st' h _; exact A.fail _ h
  · intro t sp r h; exact k t sp r h (A.step0 (Eats.same h rfl))

theorem bump {f : Span → Prog β} {t sp r bad} (A : At L n E st u Φ ⟨some (t, sp) :: r, true, bad⟩)
    (k : At L n E st (u ++ [(t, sp)]) Φ ⟨r, false, bad⟩ → wp L (f sp) Q E ⟨r, false, bad⟩) :
    wp L (Prog.bump >>= f) Q E ⟨some (t, sp) :: r, true, bad⟩ :=
  wp_bumpB (k (A.step1 (Eats.one rfl rfl)))

theorem addError {e} {f : Unit → Prog β} (A : At L n E st u Φ st1) (he : ∀ sp ∈ e.spans, SpanOk L sp)
    (k : (∀ Ψ : Prop, At L n E st u Ψ { st1 with bad := true }) → wp L (f ()) Q E { st1 with bad := true }) :
    wp L (Prog.addError e >>= f) Q E st1 := by
  rw [wp_bind', wp_addError]
  refine ⟨he, k fun _ => ⟨?_, nofun, A.len, A.pre, fun st' h => A.fail _ ⟨h.bad, h.len⟩⟩⟩
  exact ⟨A.eats.toks, fun _ => rfl⟩

end At

/-- Like `Snd`, and a failure of the method consumes at least the keyword `kwd` if that is the next token. -/
def SndK (L n : Nat) {α : Type} (kwd : Token) (p : Prog α) (G : List Token → α → Prop)
    (I : Nat → Nat → α → Prop) : Prop :=
  ∀ (st : AS) (Q : α → AS → Prop) (E : AS → Prop), st.toks.length ≤ n → Pre L st →
    (∀ used v st', Eats st used st' → (st'.bad = false → G (bare used) v) →
      (∀ a b, UC a used b → I a b v) → Q v st') →
    (∀ st', Fails st st' → (∀ sp r, st.toks = some (kwd, sp) :: r → st'.toks.length < st.toks.length) → E st') →
    wp L p Q E st

theorem SndK.snd {L n α kwd} {p : Prog α} {G I} (h : SndK L n kwd p G I) : Snd L n p G I :=
  fun st Q E hn hp hQ hE => h st Q E hn hp hQ (fun st' hf _ => hE st' hf)

theorem At.startK {L n : Nat} {β kwd st} {Q : β → AS → Prop} {E : AS → Prop}
    {f : List Bytes × Option Bytes → Span → Prog β} (hn : st.toks.length ≤ n) (hp : Pre L st)
    (hE : ∀ st', Fails st st' → (∀ sp r, st.toks = some (kwd, sp) :: r → st'.toks.length < st.toks.length) → E st')
    (k : ∀ c sp st2, At L n E st [(kwd, sp)] True st2 → wp L (f c sp) Q E st2) :
    wp L (Prog.leading >>= fun c => expectEq kwd >>= f c) Q E st := by
  rw [wp_bind', wp_leading]; intro c
  rw [wp_bind']
  have e : Eats st [] st.look := look_eats
  have ht : st.look.toks = st.toks := by have := e.toks; simpa using this.symm
  refine wp_expectEq (e.pre hp) ?_ ?_
  · intro sp st2 _ e2 _
    have e3 := e.trans e2
    refine k c sp st2 ⟨by simpa using e3, fun _ => trivial, e3.le hn, e3.pre hp, fun st' h => hE st' (e3.fails h) ?_⟩
    intro _ _ _
    have h1 := e3.len
    have h2 := h.len
    simp at h1
    omega
  · intro st' h _ hne
    refine hE st' (e.fails h) ?_
    intro sp r h'
    exact absurd (ht.trans h') (hne sp r)

/-! ## Loops -/

/-- The grammar of one round. -/
def stepG {σ β : Type} (elem : List Token → σ → σ → Prop) (fin : List Token → σ → β → Prop) (s : σ)
    (ts : List Token) : Step σ β → Prop
  | .next s' => elem ts s s'
  | .done v => fin ts s v

/-- The spans of one round. -/
def stepI {σ β : Type} (J : Nat → Nat → σ → Prop) (Jf : Nat → Nat → β → Prop) (s : σ) (a b : Nat) :
    Step σ β → Prop
  | .next s' => a < b ∧ ∀ a0, J a0 a s → J a0 b s'
  | .done v => ∀ a0, J a0 a s → Jf a0 b v

theorem Grammar.Many.snoc {σ : Type} {elem : List Token → σ → σ → Prop} {ts t : List Token} {s s' s'' : σ}
    (h : Many elem ts s s') (h' : elem t s' s'') : Many elem (ts ++ t) s s'' := by
  induction h with
  | nil => simpa using Many.cons h' Many.nil
  | cons h1 _ ih => rw [List.append_assoc]; exact Many.cons h1 (ih h')

theorem At.loopT {L n fuel : Nat} {E : AS → Prop} {st st1 : AS} {u : List STok} {Φ : Prop} {σ β : Type}
    {Q : β → AS → Prop} {step : σ → Prog (Step σ β)} {s0 : σ} (A : At L n E st u Φ st1) (hf : n < fuel)
    {elem fin J Jf} (h : ∀ s, Snd L n (step s) (stepG elem fin s) (stepI J Jf s))
    (h0 : ∀ a b, UC a u b → J a b s0)
    (k : ∀ used v st2, At L n E st (u ++ used)
      (Φ ∧ ∃ t1 t2 s, bare used = t1 ++ t2 ∧ Many elem t1 s0 s ∧ fin t2 s v) st2 →
      (∀ a b, UC a (u ++ used) b → Jf a b v) → Q v st2) :
    wp L (loopM step fuel s0) Q E st1 := by
  refine wp_loopM (fun s st2 => ∃ w, At L n E st (u ++ w) (Φ ∧ Many elem (bare w) s0 s) st2 ∧
      ∀ a b, UC a (u ++ w) b → J a b s) ?_ fuel s0 st1
    ⟨[], ⟨by simpa using A.eats, fun hb => ⟨A.good hb, Many.nil⟩, A.len, A.pre, A.fail⟩, fun a b hab => ?_⟩
    (by have := A.len; omega)
  · rintro s st1 ⟨w, A, hJ⟩
    refine h s st1 _ E A.len A.pre ?_ A.fail
    intro used v st2 e g i
    have A2 := A.step e g
    cases v with
    | next s' =>
      refine ⟨⟨w ++ used, ⟨by simpa using A2.eats, fun hb => ?_, A2.len, A2.pre, A2.fail⟩, ?_⟩, ?_⟩
      · rw [bare_append]; exact ⟨(A2.good hb).1.1, Grammar.Many.snoc (A2.good hb).1.2 (A2.good hb).2⟩
      · intro a b hu
        rw [← List.append_assoc] at hu
        obtain ⟨c, h1, h2⟩ := UC_append.1 hu
        exact (i c b h2).2 a (hJ a c h1)
      · have := e.len
        cases used with
        | nil => have := (i 0 0 (Nat.le_refl 0)).1; omega
        | cons t ts => simp at this; omega
    | done v =>
      refine k (w ++ used) v st2 ⟨by simpa using A2.eats, fun hb => ?_, A2.len, A2.pre, A2.fail⟩ ?_
      · exact ⟨(A2.good hb).1.1, bare w, bare used, s, by simp, (A2.good hb).1.2, (A2.good hb).2⟩
      · intro a b hu
        rw [← List.append_assoc] at hu
        obtain ⟨c, h1, h2⟩ := UC_append.1 hu
        exact i c b h2 a (hJ a c h1)
  · rw [List.append_nil] at hab; exact h0 a b hab

theorem At.loop {L n fuel : Nat} {E : AS → Prop} {st st1 : AS} {u : List STok} {Φ : Prop} {σ α β : Type}
    {Q : β → AS → Prop} {step : σ → Prog (Step σ α)} {s0 : σ} {f : α → Prog β}
    (A : At L n E st u Φ st1) (hf : n < fuel)
    {elem fin J Jf} (h : ∀ s, Snd L n (step s) (stepG elem fin s) (stepI J Jf s))
    (h0 : ∀ a b, UC a u b → J a b s0)
    (k : ∀ used v st2, At L n E st (u ++ used)
      (Φ ∧ ∃ t1 t2 s, bare used = t1 ++ t2 ∧ Many elem t1 s0 s ∧ fin t2 s v) st2 →
      (∀ a b, UC a (u ++ used) b → Jf a b v) → wp L (f v) Q E st2) :
    wp L (loopM step fuel s0 >>= f) Q E st1 := by
  rw [wp_bind']; exact A.loopT hf h h0 k

theorem loop_snd {L n fuel : Nat} {σ β : Type} {step : σ → Prog (Step σ β)} {elem fin J Jf} {s0 : σ}
    (hf : n < fuel) (h0 : ∀ a b, a ≤ b → J a b s0)
    (h : ∀ s, Snd L n (step s) (stepG elem fin s) (stepI J Jf s)) :
    Snd L n (loopM step fuel s0)
      (fun ts v => ∃ t1 t2 s, ts = t1 ++ t2 ∧ Many elem t1 s0 s ∧ fin t2 s v) Jf := by
  intro st Q E hn hp hQ hE
  refine (At.start hn hp hE).loopT hf h h0 fun used v st2 A i => ?_
  exact hQ _ _ _ A.eats (fun hb => (A.good hb).2) i

theorem Snd.weaken {L n : Nat} {α : Type} {p : Prog α} {G G' I I'} (h : Snd L n p G I)
    (hG : ∀ ts v, G ts v → G' ts v) (hI : ∀ a b v, I a b v → I' a b v) : Snd L n p G' I' :=
  fun st Q E hn hp hQ hE => h st Q E hn hp
    (fun used v st' e g i => hQ used v st' e (fun hb => hG _ _ (g hb)) (fun a b hu => hI _ _ _ (i a b hu))) hE

theorem Snd.mono {L n n' : Nat} {α : Type} {p : Prog α} {G I} (h : Snd L n p G I) (hn : n' ≤ n) : Snd L n' p G I :=
  fun st Q E hn' hp hQ hE => h st Q E (Nat.le_trans hn' hn) hp hQ hE

/-- Separated items as a loop. -/
def sepElem {α : Type} (sep : Token) (item : List Token → α → Prop) (ts : List Token) (s s' : List α) : Prop :=
  ∃ t a, ts = sep :: t ∧ item t a ∧ s' = s ++ [a]

theorem sepBy_snoc {α : Type} {sep : Token} {item : List Token → α → Prop} {ts as t a} (h : SepBy sep item ts as)
    (h' : item t a) : SepBy sep item (ts ++ sep :: t) (as ++ [a]) := by
  induction h with
  | one h => exact SepBy.cons h (SepBy.one h')
  | cons h _ ih => simp only [List.append_assoc, List.cons_append]; exact SepBy.cons h ih

theorem sepBy_many {α : Type} {sep : Token} {item : List Token → α → Prop} {t0 ts s s'}
    (h : Many (sepElem sep item) ts s s') (h0 : SepBy sep item t0 s) : SepBy sep item (t0 ++ ts) s' := by
  induction h generalizing t0 with
  | nil => simpa using h0
  | cons h1 _ ih =>
    obtain ⟨t, a, rfl, h3, rfl⟩ := h1
    have := ih (sepBy_snoc h0 h3)
    simpa using this

/-! ## Numbers and strings -/

theorem parseInt_snd {L n} : Snd L n parseInt IntG Int'.In := by
  intro st Q E hn hp hQ hE
  unfold parseInt
  rw [wp_bind']
  have second : ∀ (start : Option Span) (u : List STok) (st1 : AS), At L n E st u True st1 →
      ((start = none ∧ u = []) ∨ ∃ sp, start = some sp ∧ u = [(.minus, sp)]) →
      wp L (Prog.peekSkip >>= fun x => match x with
        | some (tok, stop) => (match tok with
          | .int v => Prog.bump >>= fun _ => (match start with
            | none => pure ⟨false, v, stop⟩
            | some st => pure ⟨true, v, joinSpan st stop⟩)
          | _ => unexpected Says.integer)
        | none => unexpected Says.integer) Q E st1 := by
    intro start u st1 A hs
    refine A.peekSkip rfl fun t sp r ht A hun => ?_
    cases t <;> try exact hun
    rename_i v
    refine A.bump fun A => ?_
    rcases hs with ⟨rfl, rfl⟩ | ⟨sp0, rfl, rfl⟩
    · exact hQ _ _ _ A.eats (fun _ => IntG.pos) (fun a b h => UC_one.1 h)
    · refine hQ _ _ _ A.eats (fun _ => IntG.neg) (fun a b h => ?_)
      obtain ⟨c, h1, h2⟩ := UC_cons.1 h
      exact h1.join (UC_one.1 h2)
  refine (At.start hn hp hE).peekO (fun ht A => ?_) (fun t sp r ht A => ?_)
  · exact second none [] _ A (.inl ⟨rfl, rfl⟩)
  · simp only
    split
    · rename_i heq; subst heq
      refine A.bump fun A => ?_
      exact second (some sp) _ _ A (.inr ⟨sp, rfl, rfl⟩)
    · exact second none [] _ A (.inl ⟨rfl, rfl⟩)

end Verif.Parse
