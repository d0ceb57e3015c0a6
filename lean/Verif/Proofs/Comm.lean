import Verif.Spec.Comments
import Verif.Proofs.Wp
/-! The comment machine of the parser computes the split of the specification. -/
namespace Verif.Parse
open Verif.Spec

/-- What the loop of `peek` does with the comments and newlines in front of a token. -/
def mRun : CState → List Token → Option CState
  | c, .lineComment t :: r => (c.lineComment t).bind (mRun · r)
  | c, .blockComment t :: .newline :: r => (c.blockComment t).bind (mRun · r)
  | c, .blockComment t :: r => (c.blockComment t).bind (mRun · r)
  | c, .newline :: r => c.flush.bind fun c => mRun c.detach r
  | c, _ :: r => mRun c r
  | c, [] => some c

/-- The end of the loop. -/
def mEnd (closed : Bool) (c : CState) (gap : List Token) : Option CState :=
  (mRun c gap).bind fun c => if closed then c.flush else some c

/-- The items when a comment is pending. -/
def pend (p : Bytes) (i : Bool) (gap : List Token) : List Item :=
  if i then items (.lineComment p :: gap) else .comment p :: items gap

theorem items_line (p : Bytes) (gap : List Token) : ∃ q l, items (.lineComment p :: gap) = .comment q :: l := by
  cases gap with
  | nil => exact ⟨p, [], by simp [items]⟩
  | cons t r =>
    cases t <;> first | exact ⟨p, _, by rw [items]; simp⟩ | skip
    rw [items]
    split
    · exact ⟨_, _, rfl⟩
    · exact ⟨_, _, rfl⟩

theorem items_lines (p t : Bytes) (r : List Token) :
    items (.lineComment p :: .lineComment t :: r) = items (.lineComment (p ++ t) :: r) := by
  obtain ⟨q, l, h⟩ := items_line t r
  rw [items, h]
  cases r with
  | nil => simp [items] at h ⊢; obtain ⟨rfl, rfl⟩ := h; exact ⟨rfl, rfl⟩
  | cons x r =>
    cases x <;> first
      | (rw [items] at h ⊢
         · simp only [List.cons.injEq, Item.comment.injEq] at h
           obtain ⟨rfl, rfl⟩ := h; rfl
         · simp
         · simp)
      | skip
    obtain ⟨q', l', h'⟩ := items_line ‹_› r
    rw [items, h'] at h ⊢
    simp only [List.cons.injEq, Item.comment.injEq] at h ⊢
    obtain ⟨rfl, rfl⟩ := h
    exact ⟨by simp, rfl⟩

theorem items_line_other (p : Bytes) (r : List Token) (h : ∀ t r', r ≠ .lineComment t :: r') :
    items (.lineComment p :: r) = .comment p :: items r := by
  rw [items]
  intro t r' h'
  exact absurd h' (h t r')

theorem items_line_ne (p : Bytes) (r : List Token) : items (.lineComment p :: r) ≠ [] := by
  obtain ⟨q, l, h⟩ := items_line p r
  rw [h]; simp

theorem before_cons (closed : Bool) (x : Item) {l : List Item} (h : l ≠ []) :
    before closed (x :: l) = { before closed l with detached := texts [x] ++ (before closed l).detached } := by
  unfold before
  obtain ⟨y, l, rfl⟩ := List.exists_cons_of_ne_nil h
  simp only [List.getLast?_cons_cons]
  split
  · split
    · simp [texts, List.filterMap_cons]; cases x <;> rfl
    · simp only [List.dropLast_cons_cons, texts, List.filterMap_cons]; cases x <;> simp [texts]
  · simp [texts, List.filterMap_cons]; cases x <;> rfl

theorem before_blank (closed : Bool) (l : List Item) : before closed (.blank :: l) = before closed l := by
  cases l with
  | nil => simp [before, texts]
  | cons x l => rw [before_cons closed .blank (by simp)]; simp [texts]

theorem before_one (t : Bytes) (closed : Bool) : before closed [.comment t] =
    if closed then { detached := [t] } else { leading := some t } := by
  cases closed <;> simp [before, texts]

theorem before_trailing (closed : Bool) (l : List Item) : (before closed l).trailing = none := by
  unfold before
  split
  · split <;> rfl
  · rfl

/-- The comment state shows the split. -/
structure Shows (c : CState) (s : Split) : Prop where
  trailing : c.trailing = s.trailing
  detached : c.leadingDetached = s.detached
  leading : c.leading = s.leading

theorem flush_f {D ℓ T i} : (⟨D, ℓ, T, false, i⟩ : CState).flush = some ⟨D ++ ℓ.toList, none, T, false, false⟩ := rfl
theorem flush_t {ℓ T i} : (⟨[], ℓ, T, true, i⟩ : CState).flush = some ⟨[], none, ℓ, false, false⟩ := rfl

theorem line_none {D T b i t} : (⟨D, none, T, b, i⟩ : CState).lineComment t = some ⟨D, some t, T, b, true⟩ := rfl
theorem line_line {D T b p t} : (⟨D, some p, T, b, true⟩ : CState).lineComment t = some ⟨D, some (p ++ t), T, b, true⟩ := rfl
theorem line_block {D T p t} : (⟨D, some p, T, false, false⟩ : CState).lineComment t =
    some ⟨D ++ [p], some t, T, false, true⟩ := rfl
theorem line_blockT {T p t} : (⟨[], some p, T, true, false⟩ : CState).lineComment t =
    some ⟨[], some t, some p, false, true⟩ := rfl
theorem block_none {D T b i t} : (⟨D, none, T, b, i⟩ : CState).blockComment t = some ⟨D, some t, T, b, i⟩ := rfl
theorem block_some {D T i p t} : (⟨D, some p, T, false, i⟩ : CState).blockComment t =
    some ⟨D ++ [p], some t, T, false, false⟩ := rfl
theorem block_someT {T i p t} : (⟨[], some p, T, true, i⟩ : CState).blockComment t =
    some ⟨[], some t, some p, false, false⟩ := rfl

/-- A pending comment in front of more items. -/
theorem pend_block (p : Bytes) (i : Bool) (t : Bytes) (r : List Token) :
    pend p i (.blockComment t :: r) = .comment p :: items (.blockComment t :: r) := by
  cases i
  · rfl
  · exact items_line_other _ _ (by simp)

theorem pend_newline (p : Bytes) (i : Bool) (r : List Token) :
    pend p i (.newline :: r) = .comment p :: .blank :: items r := by
  have : items (.newline :: r) = .blank :: items r := by rw [items]
  cases i
  · simp [pend, this]
  · rw [← this]; exact items_line_other _ _ (by simp)

theorem before_drop (closed : Bool) (t : Bytes) {l : List Item} (h : l ≠ []) :
    (before closed (.comment t :: l)).detached = t :: (before closed l).detached ∧
    (before closed (.comment t :: l)).leading = (before closed l).leading := by
  rw [before_cons closed _ h]; simp [texts]

/-- Not waiting for a trailing comment. -/
theorem mEnd_before (closed : Bool) (n : Nat) : ∀ (gap : List Token), gap.length < n → (∀ t ∈ gap, t.isTrivia = true) →
    ∀ (D : List Bytes) (T : Option Bytes),
    (∃ c, mEnd closed ⟨D, none, T, false, false⟩ gap = some c ∧ Shows c ⟨T, D ++ (before closed (items gap)).detached,
      (before closed (items gap)).leading⟩) ∧
    ∀ (p : Bytes) (i : Bool), ∃ c, mEnd closed ⟨D, some p, T, false, i⟩ gap = some c ∧
      Shows c ⟨T, D ++ (before closed (pend p i gap)).detached, (before closed (pend p i gap)).leading⟩ := by
  induction n with
  | zero => intro gap h; omega
  | succ n ih =>
    intro gap hn htr D T
    have fin : ∀ {c g p i} {l : List Item} {D'}, (∀ D T, ∃ c', mEnd closed ⟨D, some p, T, false, i⟩ g = some c' ∧
        Shows c' ⟨T, D ++ (before closed (pend p i g)).detached, (before closed (pend p i g)).leading⟩) →
        c = (⟨D', some p, T, false, i⟩ : CState) → l = pend p i g →
        ∃ c', mEnd closed c g = some c' ∧ Shows c' ⟨T, D' ++ (before closed l).detached, (before closed l).leading⟩ := by
      rintro c g p i l D' h rfl rfl
      exact h _ _
    have fin2 : ∀ {c g p i q} {l : List Item}, (∀ D T, ∃ c', mEnd closed ⟨D, some p, T, false, i⟩ g = some c' ∧
        Shows c' ⟨T, D ++ (before closed (pend p i g)).detached, (before closed (pend p i g)).leading⟩) →
        c = (⟨D ++ [q], some p, T, false, i⟩ : CState) → pend p i g ≠ [] → l = .comment q :: pend p i g →
        ∃ c', mEnd closed c g = some c' ∧ Shows c' ⟨T, D ++ (before closed l).detached, (before closed l).leading⟩ := by
      rintro c g p i q l h rfl hne rfl
      rw [(before_drop closed q hne).1, (before_drop closed q hne).2]
      simpa using h (D ++ [q]) T
    have pne : ∀ p i g, pend p i g ≠ [] := by
      intro p i g
      cases i
      · simp [pend]
      · exact items_line_ne p g
    cases gap with
    | nil =>
      constructor
      · cases closed
        · exact ⟨_, rfl, rfl, by simp [before, items, texts], by simp [before, items]⟩
        · exact ⟨_, rfl, rfl, by simp [before, items, texts, CState.flush], by simp [before, items]⟩
      · intro p i
        have : pend p i [] = [.comment p] := by cases i <;> simp [pend, items]
        rw [this, before_one]
        cases closed
        · exact ⟨_, rfl, rfl, by simp, rfl⟩
        · exact ⟨_, rfl, rfl, by simp, rfl⟩
    | cons t r =>
      have hr : ∀ t ∈ r, t.isTrivia = true := fun t ht => htr t (.tail _ ht)
      simp only [List.length_cons] at hn
      cases t <;> try (have := htr _ (.head _); cases this)
      · -- line comment
        rename_i t
        have h1 : ∀ i D T, _ := fun i D T => (ih r (by omega) hr D T).2 t i
        constructor
        · exact fin (c := ⟨D, some t, T, false, true⟩) (h1 true) rfl rfl
        · intro p i
          cases i
          · exact fin2 (c := ⟨D ++ [p], some t, T, false, true⟩) (q := p) (h1 true) rfl (pne _ _ _) rfl
          · refine fin (c := ⟨D, some (p ++ t), T, false, true⟩) (fun D T => (ih r (by omega) hr D T).2 (p ++ t) true) rfl ?_
            exact items_lines _ _ _
      · -- block comment
        rename_i t
        have key : ∀ (r' : List Token), r'.length < n → (∀ t ∈ r', t.isTrivia = true) → items (.blockComment t :: r) = .comment t :: items r' →
            (∀ c, mEnd closed c (.blockComment t :: r) = (c.blockComment t).bind fun c => mEnd closed c r') →
            (∃ c, mEnd closed ⟨D, none, T, false, false⟩ (.blockComment t :: r) = some c ∧
              Shows c ⟨T, D ++ (before closed (items (.blockComment t :: r))).detached,
                (before closed (items (.blockComment t :: r))).leading⟩) ∧
            ∀ (p : Bytes) (i : Bool), ∃ c, mEnd closed ⟨D, some p, T, false, i⟩ (.blockComment t :: r) = some c ∧
              Shows c ⟨T, D ++ (before closed (pend p i (.blockComment t :: r))).detached,
                (before closed (pend p i (.blockComment t :: r))).leading⟩ := by
          intro r' hl hr' hi hm
          have h1 : ∀ D T, _ := fun D T => (ih r' hl hr' D T).2 t false
          constructor
          · rw [hm, block_none]
            exact fin (c := ⟨D, some t, T, false, false⟩) h1 rfl hi
          · intro p i
            rw [hm, block_some, pend_block]
            exact fin2 (c := ⟨D ++ [p], some t, T, false, false⟩) (q := p) h1 rfl (pne _ _ _) (by rw [hi]; rfl)
        have one : ∀ (r' : List Token), (fun c => mRun c (.blockComment t :: r)) = (fun c => (c.blockComment t).bind (mRun · r')) →
            ∀ c, mEnd closed c (.blockComment t :: r) = (c.blockComment t).bind fun c => mEnd closed c r' := by
          intro r' h c
          show (Option.bind ((fun c => mRun c (.blockComment t :: r)) c) _) = _
          rw [h]
          simp only [Option.bind_assoc]; rfl
        cases r with
        | nil => exact key [] (by simp at hn ⊢; omega) hr (by simp [items]) (one _ (by funext c; simp [mRun]))
        | cons x r =>
          by_cases hx : x = .newline
          · subst hx
            exact key r (by simp at hn; omega) (fun t ht => hr t (.tail _ ht)) (by rw [items]) (one _ (by funext c; rw [mRun]))
          · exact key (x :: r) (by simp at hn ⊢; omega) hr (by rw [items]; simp [hx]) (one _ (by funext c; rw [mRun]; simp [hx]))
      · -- newline
        have hi : items (.newline :: r) = .blank :: items r := by rw [items]
        constructor
        · rw [hi, before_blank]
          show ∃ c, (Option.bind _ _) = some c ∧ _
          simpa [mEnd, mRun, flush_f, CState.detach] using (ih r (by omega) hr D T).1
        · intro p i
          rw [pend_newline, (before_drop closed p (by simp)).1, (before_drop closed p (by simp)).2, before_blank]
          simpa [mEnd, mRun, flush_f, CState.detach] using (ih r (by omega) hr (D ++ [p]) T).1

/-- A comment on the next lines may still be a trailing one. -/
theorem mEnd_between (closed : Bool) (n : Nat) : ∀ (gap : List Token), gap.length < n → (∀ t ∈ gap, t.isTrivia = true) →
    (∃ c, mEnd closed ⟨[], none, none, true, false⟩ gap = some c ∧ Shows c (between closed (items gap))) ∧
    ∀ (p : Bytes) (i : Bool), ∃ c, mEnd closed ⟨[], some p, none, true, i⟩ gap = some c ∧
      Shows c (between closed (pend p i gap)) := by
  have pne : ∀ p i g, pend p i g ≠ [] := by
    intro p i g
    cases i
    · simp [pend]
    · exact items_line_ne p g
  have bet : ∀ t {l}, l ≠ [] → between closed (.comment t :: l) = { before closed l with trailing := some t } := by
    intro t l hl
    cases l with
    | nil => exact absurd rfl hl
    | cons x l => rfl
  have fin2 : ∀ {g : List Token} {p q : Bytes} {i : Bool} {l : List Item}, (∀ t ∈ g, t.isTrivia = true) →
      l = .comment q :: pend p i g →
      ∃ c', mEnd closed ⟨[], some p, some q, false, i⟩ g = some c' ∧ Shows c' (between closed l) := by
    rintro g p q i l hg rfl
    rw [bet q (pne _ _ _)]
    simpa using (mEnd_before closed (g.length + 1) g (by omega) hg [] (some q)).2 p i
  induction n with
  | zero => intro gap h; omega
  | succ n ih =>
    intro gap hn htr
    cases gap with
    | nil =>
      constructor
      · cases closed
        · exact ⟨_, rfl, rfl, rfl, rfl⟩
        · exact ⟨_, rfl, rfl, rfl, rfl⟩
      · intro p i
        have : pend p i [] = [.comment p] := by cases i <;> simp [pend, items]
        rw [this]
        cases closed
        · exact ⟨_, rfl, rfl, rfl, rfl⟩
        · exact ⟨_, rfl, rfl, rfl, rfl⟩
    | cons t r =>
      have hr : ∀ t ∈ r, t.isTrivia = true := fun t ht => htr t (.tail _ ht)
      simp only [List.length_cons] at hn
      cases t <;> try (have := htr _ (.head _); cases this)
      · -- line comment
        rename_i t
        constructor
        · exact (ih r (by omega) hr).2 t true
        · intro p i
          cases i
          · exact fin2 (g := r) (p := t) (q := p) (i := true) hr rfl
          · have := (ih r (by omega) hr).2 (p ++ t) true
            simp only [pend, if_true] at this ⊢
            rw [items_lines]
            exact this
      · -- block comment
        rename_i t
        have key : ∀ (r' : List Token), r'.length < n → (∀ t ∈ r', t.isTrivia = true) → items (.blockComment t :: r) = .comment t :: items r' →
            (∀ c, mEnd closed c (.blockComment t :: r) = (c.blockComment t).bind fun c => mEnd closed c r') →
            (∃ c, mEnd closed ⟨[], none, none, true, false⟩ (.blockComment t :: r) = some c ∧
              Shows c (between closed (items (.blockComment t :: r)))) ∧
            ∀ (p : Bytes) (i : Bool), ∃ c, mEnd closed ⟨[], some p, none, true, i⟩ (.blockComment t :: r) = some c ∧
              Shows c (between closed (pend p i (.blockComment t :: r))) := by
          intro r' hl hr' hi hm
          constructor
          · rw [hm, block_none, hi]
            exact (ih r' hl hr').2 t false
          · intro p i
            rw [hm, block_someT, pend_block]
            exact fin2 (g := r') (p := t) (q := p) (i := false) hr' (by rw [hi]; rfl)
        have one : ∀ (r' : List Token), (fun c => mRun c (.blockComment t :: r)) = (fun c => (c.blockComment t).bind (mRun · r')) →
            ∀ c, mEnd closed c (.blockComment t :: r) = (c.blockComment t).bind fun c => mEnd closed c r' := by
          intro r' h c
          show (Option.bind ((fun c => mRun c (.blockComment t :: r)) c) _) = _
          rw [h]
          simp only [Option.bind_assoc]; rfl
        cases r with
        | nil => exact key [] (by simp at hn ⊢; omega) hr (by simp [items]) (one _ (by funext c; simp [mRun]))
        | cons x r =>
          by_cases hx : x = .newline
          · subst hx
            exact key r (by simp at hn; omega) (fun t ht => hr t (.tail _ ht)) (by rw [items]) (one _ (by funext c; rw [mRun]))
          · exact key (x :: r) (by simp at hn ⊢; omega) hr (by rw [items]; simp [hx]) (one _ (by funext c; rw [mRun]; simp [hx]))
      · -- newline
        have hi : items (.newline :: r) = .blank :: items r := by rw [items]
        constructor
        · rw [hi]
          show ∃ c, (Option.bind _ _) = some c ∧ Shows c (before closed (.blank :: items r))
          rw [before_blank]
          have := (mEnd_before closed (r.length + 1) r (by omega) hr [] none).1
          have e : before closed (items r) = ⟨none, (before closed (items r)).detached, (before closed (items r)).leading⟩ := by
            have := before_trailing closed (items r)
            cases hb : before closed (items r); rw [hb] at this; simp at this; simp [this]
          rw [e]
          simpa [mEnd, mRun, flush_t, CState.detach] using this
        · intro p i
          rw [pend_newline, bet _ (by simp), before_blank]
          have := (mEnd_before closed (r.length + 1) r (by omega) hr [] (some p)).1
          simpa [mEnd, mRun, flush_t, CState.detach] using this

end Verif.Parse
