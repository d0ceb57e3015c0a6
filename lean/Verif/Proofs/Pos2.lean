import Verif.Spec.Places
import Verif.Proofs.Pos
import Verif.Proofs.Snd3
/-!
Places and comments: primitive steps, names, numbers, strings.
-/
namespace Verif.Pos
open Verif.Parse Verif.Spec Verif.Ast Verif.Places
open Verif.Grammar (balanced aggText)

/-- Every successful run of `p` consumes tokens that the grammar `G` relates to the result. -/
def Snd {α : Type} (p : Prog α) (G : List ATok → α → Prop) : Prop :=
  ∀ (st : AS) (Q : α → AS → Prop), (∀ u v st', st.toks = u ++ st'.toks → G u v → Q v st') → wp p Q st

/-- The same for elements, which have comments. -/
def SndL {α : Type} (p : Prog α) (G : List ATok → α → Prop) : Prop :=
  ∀ (st : AS) (Q : α → AS → Prop), st.lead = true →
    (∀ u v st', st.toks = u ++ st'.toks → st'.lead = true → G u v → Q v st') → wp p Q st

section prim
variable {α β : Type} {Q : β → AS → Prop} {st : AS}

@[simp] theorem noLead_toks : st.noLead.toks = st.toks := rfl
@[simp] theorem noTrail_toks : st.noTrail.toks = st.toks := rfl
@[simp] theorem look_toks : st.look.toks = st.toks := by unfold AS.look; split <;> rfl
@[simp] theorem skip_toks : st.skip.toks = st.toks := by unfold AS.skip; split <;> rfl
/-- Collects the consumed tokens. -/
macro "eats" : tactic => `(tactic| ((try simp only [noLead_toks, noTrail_toks] at *); simp [*]))

theorem look_lead : st.look.lead = st.lead := by
  obtain ⟨t, g, l⟩ := st
  cases g <;> rfl

theorem bind {p : Prog α} {f : α → Prog β} : wp (p >>= f) Q st ↔ wp p (fun a st' => wp (f a) Q st') st :=
  wp_bind p f Q st

theorem Snd.bind {p : Prog α} {G} {f : α → Prog β} (h : Snd p G)
    (k : ∀ u v st', st.toks = u ++ st'.toks → G u v → wp (f v) Q st') : wp (p >>= f) Q st :=
  Pos.bind.mpr (h st _ k)

theorem SndL.bind {p : Prog α} {G} {f : α → Prog β} (h : SndL p G) (hl : st.lead = true)
    (k : ∀ u v st', st.toks = u ++ st'.toks → st'.lead = true → G u v → wp (f v) Q st') : wp (p >>= f) Q st :=
  Pos.bind.mpr (h st _ hl k)

@[simp] theorem unexp {ex : Expect} : wp (unexpected ex : Prog β) Q st = True := by
  unfold unexpected
  simp only [eq_iff_iff, iff_true]
  rw [Pos.bind]
  show wp (Prog.peekSkipThen Prog.ret) _ _
  simp only [wp]
  cases st.next <;> trivial

theorem unexp' {ex : Expect} : wp (unexpected ex : Prog β) Q st := by simp

/-- `peek_skip_comments` followed by a match in which the end of the file is an error. -/
theorem peekSkip {f : Option STok → Prog β} {ex : Expect} (hf : f none = unexpected ex)
    (h : ∀ a r st', st.toks = a :: r → st'.toks = a :: r → wp (f (some (a.tok, a.span))) Q st') :
    wp (Prog.peekSkip >>= f) Q st := by
  rw [Pos.bind]
  show wp (f st.next) Q st.skip
  cases ht : st.toks with
  | nil => simp [AS.next, ht, hf]
  | cons a r => simpa [AS.next, ht] using h a r st.skip ht (by simp [ht])

theorem peekSkipO {f : Option STok → Prog β} (h0 : st.toks = [] → wp (f none) Q st.skip)
    (h : ∀ a r st', st.toks = a :: r → st'.toks = a :: r → wp (f (some (a.tok, a.span))) Q st') :
    wp (Prog.peekSkip >>= f) Q st := by
  rw [Pos.bind]
  show wp (f st.next) Q st.skip
  cases ht : st.toks with
  | nil => simpa [AS.next, ht] using h0 ht
  | cons a r => simpa [AS.next, ht] using h a r st.skip ht (by simp [ht])

theorem peekO {f : Option STok → Prog β} (h0 : st.toks = [] → wp (f none) Q st.look)
    (h : ∀ a r st', st.toks = a :: r → st'.toks = a :: r → st'.lead = st.lead → wp (f (some (a.tok, a.span))) Q st') :
    wp (Prog.peek >>= f) Q st := by
  rw [Pos.bind]
  show wp (f st.next) Q st.look
  cases ht : st.toks with
  | nil => simpa [AS.next, ht] using h0 ht
  | cons a r => simpa [AS.next, ht] using h a r st.look ht (by simp [ht]) look_lead

theorem peek {f : Option STok → Prog β} {ex : Expect} (hf : f none = unexpected ex)
    (h : ∀ a r st', st.toks = a :: r → st'.toks = a :: r → st'.lead = st.lead → wp (f (some (a.tok, a.span))) Q st') :
    wp (Prog.peek >>= f) Q st :=
  peekO (fun _ => by rw [hf]; exact unexp') h

theorem bump {f : Span → Prog β} {a r} (ht : st.toks = a :: r) (h : wp (f a.span) Q ⟨r, .fresh, some a⟩) :
    wp (Prog.bump >>= f) Q st := by
  rw [Pos.bind]
  intro a' r' e
  rw [ht] at e
  cases e
  exact h

theorem expect {t} {f : Span → Prog β}
    (h : ∀ a r, st.toks = a :: r → a.tok = t → wp (f a.span) Q ⟨r, .fresh, some a⟩) :
    wp (expectEq t >>= f) Q st := by
  rw [Pos.bind]
  unfold expectEq
  refine peekSkip rfl fun a r st' e e' => ?_
  simp only
  split
  · rename_i ht
    show ∀ a r, _
    intro a' r' e2
    rw [e'] at e2
    cases e2
    exact h a r e ht
  · exact unexp'

theorem leading {f : List Bytes × Option Bytes → Prog β} (hl : st.lead = true)
    (h : ∀ c, (∀ a, st.toks.head? = some a → c = (a.detached, a.leading)) → wp (f c) Q st.noLead) :
    wp (Prog.leading >>= f) Q st := by
  rw [Pos.bind]
  exact fun c hc => h c (hc hl)

theorem trailing {l} {f : Ast.Comments → Prog β} {r z}
    (h : wp (f ⟨l.1, l.2, z.trailing⟩) Q ⟨r, .seen true false, some z⟩) :
    wp (Prog.trailing l >>= f) Q ⟨r, .fresh, some z⟩ := by
  rw [Pos.bind]
  intro x hx
  rw [hx rfl z rfl]
  exact h

end prim

/-- A loop with an invariant. -/
theorem loop {σ β : Type} {step : σ → Prog (Step σ β)} {Q : β → AS → Prop} (Inv : σ → AS → Prop)
    (h : ∀ s st, Inv s st → wp (step s) (fun r st' => match r with
      | .next s' => Inv s' st'
      | .done b => Q b st') st) : ∀ (n : Nat) (s : σ) (st : AS), Inv s st → wp (loopM step n s) Q st
  | 0, _, _, _ => trivial
  | n + 1, s, st, hi => by
    show wp (step s >>= _) Q st
    rw [bind]
    refine wp_mono _ ?_ (h s st hi)
    intro r st' hr
    cases r with
    | next s' => exact loop Inv h n s' st' hr
    | done b => exact hr

/-! ## Extents -/

theorem extent_eq {ts : List ATok} {a z : ATok} (ha : ts.head? = some a) (hz : ts.getLast? = some z) :
    extent ts = joinSpan a.span z.span := by simp [extent, ha, hz, joinSpan]

@[simp] theorem extent_one (a : ATok) : extent [a] = a.span := rfl
@[simp] theorem extent_two (a b : ATok) : extent [a, b] = joinSpan a.span b.span := rfl
theorem extent_ends (a : ATok) (ts : List ATok) (z : ATok) : extent (a :: ts ++ [z]) = joinSpan a.span z.span :=
  extent_eq rfl (by rw [List.getLast?_append]; rfl)
theorem extent_snoc {ts : List ATok} (h : ts ≠ []) (z : ATok) : extent (ts ++ [z]) = joinSpan (extent ts) z.span := by
  cases ts with
  | nil => exact absurd rfl h
  | cons a r => rw [extent_ends, extent_eq rfl (List.getLast?_eq_some_getLast (by simp))]; rfl
theorem comments_cons (a : ATok) (ts : List ATok) (z : ATok) : comments (a :: ts) z = ⟨a.detached, a.leading, z.trailing⟩ :=
  rfl

/-! ## Separators and repetitions -/

theorem sepBy_snoc {α : Type} {sep : Token} {item : List ATok → α → Prop} {ts as c t a} (h : SepBy sep item ts as)
    (hc : c.tok = sep) (h' : item t a) : SepBy sep item (ts ++ c :: t) (as ++ [a]) := by
  induction h with
  | one h => exact SepBy.cons h hc (SepBy.one h')
  | cons h hc' _ ih => simp only [List.append_assoc, List.cons_append]; exact SepBy.cons h hc' ih

theorem many_snoc {σ : Type} {elem : List ATok → σ → σ → Prop} {ts t : List ATok} {s s' s'' : σ}
    (h : Many elem ts s s') (h' : elem t s' s'') : Many elem (ts ++ t) s s'' := by
  induction h with
  | nil => simpa using Many.cons h' Many.nil
  | cons h1 _ ih => rw [List.append_assoc]; exact Many.cons h1 (ih h')

theorem sepBy_ne {α : Type} {sep : Token} {item : List ATok → α → Prop} {ts l} (hi : ∀ t a, item t a → t ≠ [])
    (h : SepBy sep item ts l) : ts ≠ [] := by
  cases h with
  | one h => exact hi _ _ h
  | cons h _ _ => simp

/-! ## Names and numbers -/

theorem parseIdent_snd : Snd parseIdent IdentG := by
  intro st Q k
  unfold parseIdent
  refine peekSkip rfl fun a r st' e e' => ?_
  simp only
  split
  · rename_i v hv
    refine bump e' ?_
    exact k [a] _ _ (by simpa using e) ⟨a, rfl, hv, rfl⟩
  · exact unexp'

theorem parseInt_snd : Snd parseInt IntG := by
  intro st Q k
  unfold parseInt
  rw [bind]
  have second : ∀ (start : Option Span) (u : List ATok) (st1 : AS), st.toks = u ++ st1.toks →
      ((start = none ∧ u = []) ∨ ∃ m, start = some m.span ∧ m.tok = .minus ∧ u = [m]) →
      wp (Prog.peekSkip >>= fun x => match x with
        | some (tok, stop) => (match tok with
          | .int v => Prog.bump >>= fun _ => (match start with
            | none => pure ⟨false, v, stop⟩
            | some st => pure ⟨true, v, joinSpan st stop⟩)
          | _ => unexpected Says.integer)
        | none => unexpected Says.integer) Q st1 := by
    intro start u st1 A hs
    refine peekSkip rfl fun a r st' e e' => ?_
    simp only
    split
    · rename_i v hv
      refine bump e' ?_
      rcases hs with ⟨rfl, rfl⟩ | ⟨m, rfl, hm, rfl⟩
      · exact k [a] _ ⟨r, .fresh, some a⟩ (by simp [A, e]) (.pos hv)
      · exact k [m, a] _ ⟨r, .fresh, some a⟩ (by simp [A, e]) (.neg hm hv)
    · exact unexp'
  refine peekSkipO (fun ht => ?_) (fun a r st' e e' => ?_)
  · exact second none [] _ (by simp) (.inl ⟨rfl, rfl⟩)
  · simp only
    split
    · rename_i hm
      refine bump e' ?_
      exact second (some a.span) [a] _ (by simp [e]) (.inr ⟨a, rfl, hm, rfl⟩)
    · exact second none [] _ (by simp [e, e']) (.inl ⟨rfl, rfl⟩)

/-! ## Strings -/

theorem parseString_snd (fuel : Nat) : Snd (parseString fuel) StrG := by
  intro st Q k
  unfold parseString
  refine peekSkip rfl fun a r st' e e' => ?_
  simp only
  split
  · rename_i v hv
    refine bump e' ?_
    refine loop (fun s st1 => ∃ u, st.toks = u ++ st1.toks ∧ StrG u s) ?_ fuel _ _
      ⟨[a], by simp [e], [v], by simp, by simp [hv], by simp, rfl⟩
    rintro s st1 ⟨u, hu, hg⟩
    unfold stringStep
    have fin : ∀ st2 : AS, st2.toks = st1.toks → Q s st2 := fun st2 h => k u s st2 (by rw [hu, h]) hg
    refine peekSkipO (fun ht => fin _ (by simp)) (fun b r st2 e1 e1' => ?_)
    simp only
    split
    · rename_i w hw
      refine bump e1' ?_
      obtain ⟨ps, h1, h2, h3, h4⟩ := hg
      have hne : u ≠ [] := by
        rintro rfl
        simp at h2
        exact h1 h2
      refine ⟨u ++ [b], by simp [hu, e1], ps ++ [w], by simp, by simp [h2, hw], by simp [h3], ?_⟩
      rw [extent_snoc hne, h4]
    · exact fin _ (by rw [e1', e1])
  · exact unexp'

theorem parseUtf8String_snd (fuel : Nat) : Snd (parseUtf8String fuel) (fun ts v => Utf8G ts v.1 v.2) := by
  intro st Q k
  unfold parseUtf8String
  refine (parseString_snd fuel).bind fun u v st1 e g => ?_
  split
  · rename_i hv
    exact k u _ _ e ⟨g, hv⟩
  · trivial

theorem parseFullIdent_snd (fuel : Nat) (terms : List Expected) : Snd (parseFullIdent fuel terms) FullIdentG := by
  intro st Q k
  unfold parseFullIdent
  refine parseIdent_snd.bind fun u v st1 e g => ?_
  refine loop (fun s st1 => ∃ u, st.toks = u ++ st1.toks ∧ FullIdentG u ⟨s⟩) ?_ fuel _ _ ⟨u, e, .one g⟩
  clear e g
  rintro s st1 ⟨u, hu, hg⟩
  unfold fullIdentStep
  refine peekSkip rfl fun a r st2 e1 e1' => ?_
  simp only
  split
  · rename_i hd
    refine bump e1' ?_
    refine parseIdent_snd.bind fun u2 v2 st3 e2 g2 => ?_
    exact ⟨u ++ a :: u2, by eats, sepBy_snoc hg hd g2⟩
  · split
    · exact k u _ _ (by rw [hu, e1', e1]) hg
    · exact unexp'

theorem parseTypeName_snd (fuel : Nat) (terms : List Expected) : Snd (parseTypeName fuel terms) TypeNameG := by
  intro st Q k
  unfold parseTypeName
  rw [bind]
  refine peek rfl fun a r st' e e' _ => ?_
  simp only
  split
  · rename_i hd
    refine bump e' ?_
    refine (parseFullIdent_snd fuel terms).bind fun u v st1 e1 g => ?_
    exact k (a :: u) _ _ (by simp only at e1; rw [e, e1]; rfl) (.absolute hd g)
  · split
    · refine (parseFullIdent_snd fuel terms).bind fun u v st1 e1 g => ?_
      exact k u _ _ (by rw [e, ← e1, e']) (.relative g)
    · exact unexp'

theorem fullIdentG_ne {ts f} (h : FullIdentG ts f) : ts ≠ [] :=
  sepBy_ne (fun _ _ ⟨_, h, _⟩ => by simp [h]) h

theorem typeNameG_ne {ts f} (h : TypeNameG ts f) : ts ≠ [] := by
  cases h with
  | relative h => exact fullIdentG_ne h
  | absolute _ _ => simp

theorem sepBy_span {ts : List ATok} {l : List Ident} (h : SepBy .dot IdentG ts l) :
    ∃ i j, l.head? = some i ∧ l.getLast? = some j ∧ extent ts = joinSpan i.span j.span := by
  suffices ∃ i j a z, l.head? = some i ∧ l.getLast? = some j ∧ ts.head? = some a ∧ ts.getLast? = some z ∧ i.span = a.span ∧
      j.span = z.span by
    obtain ⟨i, j, a, z, h1, h2, h3, h4, h5, h6⟩ := this
    exact ⟨i, j, h1, h2, by rw [extent_eq h3 h4, h5, h6]⟩
  induction h with
  | one h => obtain ⟨a, rfl, _, h2⟩ := h; exact ⟨_, _, a, a, rfl, rfl, rfl, rfl, h2, h2⟩
  | cons h _ h' ih =>
    obtain ⟨a, rfl, _, h2⟩ := h
    obtain ⟨i, j, b, z, h3, h4, h5, h6, h7, h8⟩ := ih
    refine ⟨_, j, a, z, rfl, ?_, rfl, ?_, h2, h8⟩
    · rw [List.getLast?_cons, h4]; rfl
    · simp [List.getLast?_cons, h6]

theorem typeName_span {ts : List ATok} {t : Ast.TypeName} (h : TypeNameG ts t) : t.span = some (extent ts) := by
  cases h with
  | relative h =>
    obtain ⟨i, j, h1, h2, h3⟩ := sepBy_span h
    simp [Ast.TypeName.span, FullIdent.span, h1, h2, h3, joinSpan]
  | @absolute d ts f hd h =>
    obtain ⟨i, j, h1, h2, h3⟩ := sepBy_span h
    have hne : ts ≠ [] := fullIdentG_ne h
    simp only [Ast.TypeName.span, FullIdent.span, h1, h2]
    rw [extent_eq (a := d) rfl (z := ts.getLast hne) (by rw [List.getLast?_cons]; simp [List.getLast?_eq_some_getLast hne])]
    have h4 : (joinSpan i.span j.span).stop = (ts.getLast hne).span.stop := by
      rw [← h3]; cases ts with
      | nil => exact absurd rfl hne
      | cons a r => rw [extent_eq rfl (List.getLast?_eq_some_getLast hne)]; rfl
    simp only [joinSpan] at h4 ⊢
    simp [h4, joinSpan]

end Verif.Pos
