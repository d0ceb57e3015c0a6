import Verif.Proofs.Pos7
import Verif.Proofs.Cpl7
/-!
Places and comments: a source has only one tree.  Every grammar method, run on tokens that start with a phrase of its
grammar, can only return the tree of that phrase.
-/
namespace Verif.Pos
open Verif.Parse Verif.Spec Verif.Ast Verif.Places
open Verif.Grammar (balanced aggText)

/-- On tokens that start with a phrase of `G`, every successful run of `p` consumes the phrase and returns its tree. -/
def Det {α : Type} (p : Prog α) (G : List ATok → α → Prop) (F : List ATok → Prop) : Prop :=
  ∀ (st : AS) (Q : α → AS → Prop) (u : List ATok) (v : α) (rest : List ATok), G u v → st.toks = u ++ rest → F rest →
    (∀ st', st'.toks = rest → Q v st') → wp p Q st

/-- The same for elements, which have comments. -/
def DetL {α : Type} (p : Prog α) (G : List ATok → α → Prop) : Prop :=
  ∀ (st : AS) (Q : α → AS → Prop) (u : List ATok) (v : α) (rest : List ATok), st.lead = true → G u v → st.toks = u ++ rest →
    (∀ st', st'.toks = rest → st'.lead = true → Q v st') → wp p Q st

/-- The next token is not one of these. -/
def Not (c : Token → Prop) (rest : List ATok) : Prop := ∀ a, rest.head? = some a → ¬ c a.tok

/-- Anything may follow. -/
def Free : List ATok → Prop := fun _ => True

section prim
variable {α β : Type} {Q : β → AS → Prop} {st : AS}

theorem Det.bind {p : Prog α} {G F} {f : α → Prog β} (h : Det p G F) {u v rest} (g : G u v) (e : st.toks = u ++ rest) (hF : F rest)
    (k : ∀ st', st'.toks = rest → wp (f v) Q st') : wp (p >>= f) Q st :=
  Pos.bind.mpr (h st _ u v rest g e hF k)

theorem DetL.bind {p : Prog α} {G} {f : α → Prog β} (h : DetL p G) {u v rest} (hl : st.lead = true) (g : G u v)
    (e : st.toks = u ++ rest) (k : ∀ st', st'.toks = rest → st'.lead = true → wp (f v) Q st') : wp (p >>= f) Q st :=
  Pos.bind.mpr (h st _ u v rest hl g e k)

theorem skipD {f : Option STok → Prog β} {a r} (e : st.toks = a :: r)
    (h : ∀ st', st'.toks = a :: r → wp (f (some (a.tok, a.span))) Q st') : wp (Prog.peekSkip >>= f) Q st := by
  rw [Pos.bind]
  show wp (f st.next) Q st.skip
  have := h st.skip (by simp [e])
  simpa [AS.next, e] using this

theorem peekD {f : Option STok → Prog β} {a r} (e : st.toks = a :: r)
    (h : ∀ st', st'.toks = a :: r → st'.lead = st.lead → wp (f (some (a.tok, a.span))) Q st') : wp (Prog.peek >>= f) Q st := by
  rw [Pos.bind]
  show wp (f st.next) Q st.look
  have := h st.look (by simp [e]) look_lead
  simpa [AS.next, e] using this

theorem expectD {t} {f : Span → Prog β} {a r} (e : st.toks = a :: r) (h : wp (f a.span) Q ⟨r, .fresh, some a⟩) :
    wp (expectEq t >>= f) Q st := by
  refine expect fun a' r' e' _ => ?_
  rw [e] at e'
  cases e'
  exact h

theorem leadingD {f : List Bytes × Option Bytes → Prog β} {a r} (hl : st.lead = true) (e : st.toks = a :: r)
    (h : ∀ st', st'.toks = a :: r → wp (f (a.detached, a.leading)) Q st') : wp (Prog.leading >>= f) Q st := by
  refine leading hl fun c hc => ?_
  cases lead_eq hc e
  exact h _ e

end prim

/-- A loop that ends now. -/
def DoneQ {σ β : Type} (Q : β → AS → Prop) : Step σ β → AS → Prop
  | .next _, _ => False
  | .done b, st => Q b st

/-! ## Separated lists -/

/-- The items of a separated list after the first one. -/
inductive Tail {α : Type} (sep : Token) (item : List ATok → α → Prop) : List ATok → List α → Prop where
  | nil : Tail sep item [] []
  | cons {c t a ts as} : c.tok = sep → item t a → Tail sep item ts as → Tail sep item (c :: (t ++ ts)) (a :: as)

theorem sepBy_tail {α : Type} {sep : Token} {item : List ATok → α → Prop} {ts as} (h : SepBy sep item ts as) :
    ∃ t a us as', ts = t ++ us ∧ as = a :: as' ∧ item t a ∧ Tail sep item us as' := by
  induction h with
  | one h => exact ⟨_, _, [], [], by simp, rfl, h, .nil⟩
  | cons h hc _ ih =>
    obtain ⟨t2, a2, us, as', rfl, rfl, h2, h3⟩ := ih
    exact ⟨_, _, _, _, rfl, rfl, h, .cons hc h2 h3⟩

/-- What follows the first item: a separator or what follows the list. -/
theorem Tail.follow {α : Type} {sep : Token} {item : List ATok → α → Prop} {ts as rest} {F : List ATok → Prop}
    (h : Tail sep item ts as) (hs : ∀ c r, c.tok = sep → F (c :: r)) (hF : F rest) : F (ts ++ rest) := by
  cases h with
  | nil => exact hF
  | cons hc _ _ => exact hs _ _ hc

theorem sepD {α β : Type} {sep : Token} {item : List ATok → α → Prop} {step : List α → Prog (Step (List α) β)} {F : List ATok → Prop}
    {Q : β → AS → Prop} {rest : List ATok} (fuel : Nat)
    (hsep : ∀ c r, c.tok = sep → F (c :: r)) (hF : F rest)
    (hstep : ∀ c t a r s st R, c.tok = sep → item t a → st.toks = c :: (t ++ r) → F r →
      (∀ st', st'.toks = r → R (.next (s ++ [a])) st') → wp (step s) R st)
    {us as} (h : Tail sep item us as) {s0 : List α} {st : AS} (e : st.toks = us ++ rest)
    (hfin : ∀ st, st.toks = rest → wp (step (s0 ++ as)) (DoneQ Q) st) : wp (loopM step fuel s0) Q st := by
  refine loop (fun s st => ∃ us as', Tail sep item us as' ∧ st.toks = us ++ rest ∧ s ++ as' = s0 ++ as) ?_ fuel _ _ ⟨us, as, h, e, rfl⟩
  rintro s st1 ⟨us', as', h1, e1, hs⟩
  cases h1 with
  | nil =>
    rw [List.append_nil] at hs
    subst hs
    refine wp_mono _ ?_ (hfin st1 e1)
    intro r st2 hr
    cases r with
    | next => exact hr.elim
    | done b => exact hr
  | @cons c t a ts as2 hc hi ht =>
    refine hstep c t a (ts ++ rest) s st1 _ hc hi (by rw [e1]; simp) (ht.follow hsep hF) fun st' e' => ?_
    exact ⟨ts, as2, ht, e', by rw [← hs]; simp⟩

/-! ## Names and numbers -/

theorem parseIdent_det : Det parseIdent IdentG Free := by
  intro st Q u v rest g e _ hQ
  obtain ⟨a, rfl, h1, h2⟩ := g
  unfold parseIdent
  refine skipD e fun st' e' => ?_
  simp only [h1]
  refine bump e' ?_
  rw [← h2]
  exact hQ _ rfl

theorem parseInt_det : Det parseInt IntG Free := by
  intro st Q u v rest g e _ hQ
  unfold parseInt
  rw [bind]
  cases g with
  | @pos a v h =>
    refine skipD e fun st' e' => ?_
    simp only
    rw [if_neg (by rw [h]; simp)]
    refine skipD e' fun st2 e2 => ?_
    simp only [h]
    refine bump e2 ?_
    exact hQ _ rfl
  | @neg m a v hm h =>
    refine skipD e fun st' e' => ?_
    simp only
    rw [if_pos hm]
    refine bump e' ?_
    refine skipD rfl fun st2 e2 => ?_
    simp only [h]
    refine bump e2 ?_
    exact hQ _ rfl

/-! ## Strings -/

/-- Not followed by a string literal. -/
abbrev NoString : List ATok → Prop := Not fun t => ∃ v, t = .string v

theorem parseString_det (fuel : Nat) : Det (parseString fuel) StrG NoString := by
  intro st Q u v rest g e hF hQ
  obtain ⟨ps, hne, h1, h2, h3⟩ := g
  cases ps with
  | nil => exact absurd rfl hne
  | cons p ps =>
    cases u with
    | nil => cases h1
    | cons a u =>
      simp only [List.map_cons, List.cons.injEq] at h1
      unfold parseString
      refine skipD e fun st' e' => ?_
      simp only [h1.1]
      refine bump e' ?_
      refine loop (fun s st => ∃ w ps' w0, s.value ++ ps'.flatten = v.value ∧ a :: u = w0 ++ w ∧ w0 ≠ [] ∧ s.span = extent w0 ∧
        w.map (·.tok) = ps'.map .string ∧ st.toks = w ++ rest) ?_ fuel _ _
        ⟨u, ps, [a], by rw [h2]; rfl, rfl, by simp, rfl, h1.2, rfl⟩
      rintro s st1 ⟨w, ps', w0, k1, k2, k3, k4, k5, k6⟩
      unfold stringStep
      cases ps' with
      | nil =>
        have : w = [] := by simpa using k5
        subst this
        have hs : s = v := by
          cases s; cases v
          simp at k1 k2 k4 h3
          simp [k1, k4, h3, k2]
        subst hs
        refine peekSkipO (fun _ => hQ _ (by simpa using k6)) fun b r st2 e1 e1' => ?_
        have hb := hF b (by rw [show rest = st1.toks from k6.symm, e1]; rfl)
        simp only
        split
        · rename_i w hw; exact absurd ⟨_, hw⟩ hb
        · exact hQ _ (by rw [e1', ← e1, k6]; rfl)
      | cons p' ps' =>
        cases w with
        | nil => cases k5
        | cons b w =>
          simp only [List.map_cons, List.cons.injEq] at k5
          refine skipD k6 fun st2 e2 => ?_
          simp only [k5.1]
          refine bump e2 ?_
          refine ⟨w, ps', w0 ++ [b], ?_, by rw [k2]; simp, by simp, ?_, k5.2, rfl⟩
          · rw [← k1]; simp
          · rw [extent_snoc k3, k4]

theorem parseUtf8String_det (fuel : Nat) : Det (parseUtf8String fuel) (fun ts v => Utf8G ts v.1 v.2) NoString := by
  intro st Q u v rest g e hF hQ
  unfold parseUtf8String
  refine (parseString_det fuel).bind g.1 e hF fun st' e' => ?_
  simp only
  rw [if_pos g.2]
  exact hQ _ e'

/-- Not followed by a dot. -/
abbrev NoDot : List ATok → Prop := Not (· = .dot)

theorem parseFullIdent_det (fuel : Nat) (terms : List Expected) : Det (parseFullIdent fuel terms) FullIdentG NoDot := by
  intro st Q u v rest g e hF hQ
  obtain ⟨v⟩ := v
  obtain ⟨t, a, us, as, rfl, rfl, h1, h2⟩ := sepBy_tail g
  unfold parseFullIdent
  refine parseIdent_det.bind h1 (by rw [e, List.append_assoc]) trivial fun st' e' => ?_
  refine sepD (F := Free) fuel (fun _ _ _ => trivial) trivial ?_ h2 e' fun st1 e1 => ?_
  · intro c t a r s st R hc hi e _ hR
    unfold fullIdentStep
    refine skipD e fun st2 e2 => ?_
    simp only
    rw [if_pos hc]
    refine bump e2 ?_
    exact parseIdent_det.bind hi rfl trivial fun st' e' => hR _ e'
  · unfold fullIdentStep
    refine peekSkip rfl fun b r st2 e2 e2' => ?_
    simp only
    rw [if_neg (hF b (by rw [← e1, e2]; rfl))]
    split
    · exact hQ _ (by rw [e2', ← e2, e1])
    · exact unexp'

theorem parseTypeName_det (fuel : Nat) (terms : List Expected) : Det (parseTypeName fuel terms) TypeNameG NoDot := by
  intro st Q u v rest g e hF hQ
  unfold parseTypeName
  rw [bind]
  cases g with
  | @relative ts f h =>
    have h0 := h
    obtain ⟨t, a, us, as, rfl, ha, ⟨b, rfl, h1, _⟩, h2⟩ := sepBy_tail h0
    refine peekD e fun st' e' _ => ?_
    simp only
    rw [if_neg (by rw [h1]; simp), if_pos (by rw [h1]; rfl)]
    refine (parseFullIdent_det fuel terms).bind h e' hF fun st2 e2 => ?_
    exact hQ _ e2
  | @absolute d ts f hd h =>
    refine peekD e fun st' e' _ => ?_
    simp only
    rw [if_pos hd]
    refine bump e' ?_
    refine (parseFullIdent_det fuel terms).bind h rfl hF fun st2 e2 => ?_
    exact hQ _ e2

end Verif.Pos
