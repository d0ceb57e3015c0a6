import Verif.Spec.Endings
import Verif.Proofs.Concat
/-! Lexing two sources that differ in their line endings. -/
namespace Verif.Endings
open Verif.Spec Verif.Lex

/-- Two texts are equal up to line endings; `p`: they follow a carriage return. -/
inductive E : Bool → Bytes → Bytes → Prop
  | nil {p} : E p [] []
  | same {p s t} (b : UInt8) : E (b == 13) s t → E p (b :: s) (b :: t)
  | right {s t} : E false s t → E false (10 :: s) (13 :: 10 :: t)
  | left {s t} : E false s t → E false (13 :: 10 :: s) (10 :: t)

/-- The same, without regard to what they follow. -/
inductive E0 : Bytes → Bytes → Prop
  | nil : E0 [] []
  | same {s t} (b : UInt8) : E0 s t → E0 (b :: s) (b :: t)
  | right {s t} : E0 s t → E0 (10 :: s) (13 :: 10 :: t)
  | left {s t} : E0 s t → E0 (13 :: 10 :: s) (10 :: t)

theorem E0.refl : ∀ s, E0 s s
  | [] => .nil
  | b :: s => .same b (E0.refl s)

theorem E0.app {x y x' y'} (h : E0 x y) (h' : E0 x' y') : E0 (x ++ x') (y ++ y') := by
  induction h with
  | nil => exact h'
  | same b _ ih => exact .same b ih
  | right _ ih => exact .right ih
  | left _ ih => exact .left ih

theorem E.any {p s t} (h : E p s t) : E0 s t := by
  induction h with
  | nil => exact .nil
  | same b _ ih => exact .same b ih
  | right _ ih => exact .right ih
  | left _ ih => exact .left ih

theorem E.weak {p s t} (h : E p s t) : E false s t := by
  cases h with
  | nil => exact .nil
  | same b h => exact .same b h
  | right h => exact .right h
  | left h => exact .left h

theorem E.symm {p s t} (h : E p s t) : E p t s := by
  induction h with
  | nil => exact .nil
  | same b _ ih => exact .same b ih
  | right _ ih => exact .left ih
  | left _ ih => exact .right ih

theorem unix_cons {b : UInt8} {s : Bytes} (h : b ≠ 13 ∨ s.head? ≠ some 10) : unix (b :: s) = b :: unix s := by
  conv => lhs; unfold unix
  split
  · rename_i heq
    injection heq with h1 h2
    subst h1; subst h2
    simp at h
  · rename_i heq
    injection heq with h1 h2
    subst h1; subst h2
    rfl
  · rename_i h; cases h

theorem E.unix {p s t} (h : E p s t) : unix s = unix t ∧ (p = true → unix (13 :: s) = unix (13 :: t)) := by
  induction h with
  | nil => exact ⟨rfl, fun _ => rfl⟩
  | same b _ ih =>
    rename_i p s t _
    have h1 : Spec.unix (b :: s) = Spec.unix (b :: t) := by
      by_cases hb : b = 13
      · subst hb; exact ih.2 rfl
      · rw [unix_cons (.inl hb), unix_cons (.inl hb), ih.1]
    refine ⟨h1, fun _ => ?_⟩
    by_cases hb : b = 10
    · subst hb
      show 10 :: Spec.unix s = 10 :: Spec.unix t
      rw [ih.1]
    · have := fun r : Bytes => unix_cons (b := 13) (s := b :: r) (.inr (by simpa using hb))
      rw [this, this, h1]
  | right _ ih =>
    refine ⟨?_, nofun⟩
    rw [unix_cons (.inl (by decide))]
    exact congrArg _ ih.1
  | left _ ih =>
    refine ⟨?_, nofun⟩
    show 10 :: Spec.unix _ = _
    rw [unix_cons (b := 10) (.inl (by decide)), ih.1]

theorem normalize_unix (s : Bytes) : normalizeNewlines s = unix s := by
  fun_induction normalizeNewlines s with
  | case1 r ih => rw [ih]; rfl
  | case2 b r hno ih =>
    rw [ih, unix_cons]
    by_cases hb : b = 13
    · refine .inr ?_
      cases r with
      | nil => nofun
      | cons c r => intro h; cases h; exact hno r hb rfl
    · exact .inl hb
  | case3 => rfl

theorem E.normalize {p s t} (h : E p s t) : normalizeNewlines s = normalizeNewlines t := by
  rw [normalize_unix, normalize_unix, h.unix.1]

/-- Dropping a common beginning. -/
theorem E.tail {p b s t} (h : E p (b :: s) (b :: t)) : E false s t := by
  cases h with
  | same _ h => exact h.weak

theorem E.drop {p s t} : ∀ (a : Bytes), E p (a ++ s) (a ++ t) → E false s t
  | [], h => h.weak
  | _ :: a, h => E.drop a h.tail

/-- A beginning without line feeds that does not end with a carriage return. -/
theorem E.front : ∀ {x r t : Bytes} {p}, E p (x ++ r) t → 10 ∉ x → x.getLast? ≠ some 13 → ∃ r', t = x ++ r' ∧ E false r r'
  | [], r, t, p, h, _, _ => ⟨t, rfl, h.weak⟩
  | b :: x, r, t, p, h, h1, h2 => by
    have hx : 10 ∉ x := fun h => h1 (.tail _ h)
    have hb : b ≠ 10 := fun h => h1 (h ▸ .head _)
    rw [List.cons_append] at h
    generalize hs : x ++ r = s at h
    cases h with
    | same _ h =>
      subst hs
      obtain ⟨r', e, h'⟩ := E.front h hx (by
        cases x with
        | nil => nofun
        | cons c x => rwa [List.getLast?_cons_cons] at h2)
      exact ⟨r', by rw [e]; rfl, h'⟩
    | right h => exact absurd rfl hb
    | left h =>
      cases x with
      | nil => exact absurd rfl h2
      | cons c x => cases hs; exact absurd (.head _) hx

/-- Splitting at a byte that is no part of a line ending. -/
theorem E.split {c : UInt8} (h10 : c ≠ 10) (h13 : c ≠ 13) : ∀ (n : Nat) {x r t : Bytes} {p}, x.length < n → E p (x ++ c :: r) t →
    ∃ x' r', t = x' ++ c :: r' ∧ E p x x' ∧ E false r r'
  | 0, _, _, _, _, hn => absurd hn (Nat.not_lt_zero _)
  | n + 1, x, r, t, p, hn => by
    intro h
    cases x with
    | nil =>
      rw [List.nil_append] at h
      cases h with
      | same _ h => exact ⟨[], _, rfl, .nil, h.weak⟩
      | right h => exact absurd rfl h10
      | left h => exact absurd rfl h13
    | cons b x =>
      rw [List.cons_append] at h
      simp only [List.length_cons] at hn
      generalize hs : x ++ c :: r = s at h
      cases h with
      | same _ h =>
        subst hs
        obtain ⟨x', r', e, i1, i2⟩ := E.split h10 h13 n (by omega) h
        exact ⟨b :: x', r', by rw [e]; rfl, .same b i1, i2⟩
      | right h =>
        subst hs
        obtain ⟨x', r', e, i1, i2⟩ := E.split h10 h13 n (by omega) h
        exact ⟨13 :: 10 :: x', r', by rw [e]; rfl, .right i1, i2⟩
      | left h =>
        cases x with
        | nil => injection hs with hs _; exact absurd hs h10
        | cons d x =>
          injection hs with hs1 hs
          subst hs1
          subst hs
          simp only [List.length_cons] at hn
          obtain ⟨x', r', e, i1, i2⟩ := E.split h10 h13 n (by omega) h
          exact ⟨10 :: x', r', by rw [e]; rfl, .left i1, i2⟩

/-- At the end of the source or of a line. -/
def Eol (e : Bytes) : Prop := e = [] ∨ (∃ Z, e = 10 :: Z) ∨ ∃ Z, e = 13 :: Z

/-- The rest of the line. -/
theorem E.line {p s t} (h : E p s t) : ∃ a e e', s = a ++ e ∧ t = a ++ e' ∧ Eol e ∧ Eol e' := by
  induction h with
  | nil => exact ⟨[], [], [], rfl, rfl, .inl rfl, .inl rfl⟩
  | same b _ ih =>
    obtain ⟨a, e, e', h1, h2, h3, h4⟩ := ih
    exact ⟨b :: a, e, e', by rw [h1]; rfl, by rw [h2]; rfl, h3, h4⟩
  | right _ _ => exact ⟨[], _, _, rfl, rfl, .inr (.inl ⟨_, rfl⟩), .inr (.inr ⟨_, rfl⟩)⟩
  | left _ _ => exact ⟨[], _, _, rfl, rfl, .inr (.inr ⟨_, rfl⟩), .inr (.inl ⟨_, rfl⟩)⟩

/-- The rest of a line, with its line feed. -/
def lineOf : Bytes → Bytes
  | [] => []
  | b :: r => if b = 10 then [10] else b :: lineOf r

def afterLine : Bytes → Bytes
  | [] => []
  | b :: r => if b = 10 then r else afterLine r

theorem E.lines {p s t} (h : E p s t) : E p (lineOf s) (lineOf t) ∧ E false (afterLine s) (afterLine t) := by
  induction h with
  | nil => exact ⟨.nil, .nil⟩
  | same b h ih =>
    unfold lineOf afterLine
    by_cases hb : b = 10
    · subst hb
      rw [if_pos rfl, if_pos rfl, if_pos rfl, if_pos rfl]
      exact ⟨.same _ .nil, h.weak⟩
    · rw [if_neg hb, if_neg hb, if_neg hb, if_neg hb]
      exact ⟨.same _ ih.1, ih.2⟩
  | right h ih =>
    refine ⟨?_, ?_⟩
    · show E false [10] [13, 10]; exact .right .nil
    · exact h
  | left h ih =>
    refine ⟨?_, ?_⟩
    · show E false [13, 10] [10]; exact .left .nil
    · exact h

theorem line_split : ∀ s, s = lineOf s ++ afterLine s
  | [] => rfl
  | b :: s => by
    unfold lineOf afterLine
    by_cases hb : b = 10
    · rw [if_pos hb, if_pos hb, hb]; rfl
    · rw [if_neg hb, if_neg hb, List.cons_append, ← line_split s]

theorem lineOf_take (s : Bytes) : lineOf s = s.take ((s.takeWhile (· != 10)).length +
    match s.dropWhile (· != 10) with | _ :: _ => 1 | [] => 0) := by
  induction s with
  | nil => rfl
  | cons b s ih =>
    unfold lineOf
    by_cases hb : b = 10
    · subst hb; rfl
    · have : (b != 10) = true := by simpa using hb
      rw [if_neg hb, List.takeWhile_cons_of_pos (by simpa using hb), List.dropWhile_cons_of_pos (by simpa using hb), ih, List.length_cons,
        Nat.add_right_comm, List.take_succ_cons]

/-! ## Blanks -/

/-- Before a token: at the end, before a line feed, or before the same byte. -/
inductive J (x y : Bytes) : Bytes → Bytes → Prop
  | eof : E0 x y → J x y [] []
  | newline {s t} : E0 (x ++ [10]) (y ++ [10]) → E false s t → J x y (10 :: s) (10 :: t)
  | byte {b s t} : b ≠ 10 → isSkip b = false → E0 x y → E false s t → J x y (b :: s) (b :: t)

theorem J.of_skip {p s t} (h : E p s t) : ∀ {x y}, E0 x y →
    J (x ++ s.takeWhile isSkip) (y ++ t.takeWhile isSkip) (s.dropWhile isSkip) (t.dropWhile isSkip) := by
  induction h with
  | nil => intro x y h; simpa using J.eof h
  | @same p s t b h ih =>
    intro x y h0
    by_cases hb : isSkip b = true
    · rw [List.takeWhile_cons_of_pos hb, List.takeWhile_cons_of_pos hb, List.dropWhile_cons_of_pos hb, List.dropWhile_cons_of_pos hb]
      have := ih (h0.app (.same b .nil))
      simpa using this
    · rw [List.takeWhile_cons_of_neg hb, List.takeWhile_cons_of_neg hb, List.dropWhile_cons_of_neg hb, List.dropWhile_cons_of_neg hb,
        List.append_nil, List.append_nil]
      by_cases hb2 : b = 10
      · subst hb2; exact .newline (h0.app (.same _ .nil)) h.weak
      · exact .byte hb2 (by simpa using hb) h0 h.weak
  | @right s t h ih =>
    intro x y h0
    show J (x ++ []) (y ++ [13]) (10 :: s) (10 :: t)
    refine .newline ?_ h
    rw [List.append_nil, List.append_assoc]
    exact h0.app (.right .nil)
  | @left s t h ih =>
    intro x y h0
    show J (x ++ [13]) (y ++ []) (10 :: s) (10 :: t)
    refine .newline ?_ h
    rw [List.append_nil, List.append_assoc]
    exact h0.app (.left .nil)

/-- Between two tokens. -/
inductive K (x y s t : Bytes) : Prop
  | same : E0 x y → E false s t → K x y s t
  | newline {s' t'} : s = 10 :: s' → t = 10 :: t' → E0 (x ++ [10]) (y ++ [10]) → E false s' t' → K x y s t

theorem J.between {x y s t} (h : J x y s t) : K x y s t := by
  cases h with
  | eof h => exact .same h .nil
  | newline h h' => exact .newline rfl rfl h h'
  | @byte b _ _ h1 h2 h3 h4 =>
    refine .same h3 (.same _ ?_)
    have : ¬ (b == (13 : UInt8)) = true := fun hb => by
      have := beq_iff_eq.1 hb
      subst this
      cases h2
    rw [Bool.not_eq_true] at this
    rw [this]
    exact h4

theorem K.before {x y s t} (h : K x y s t) :
    J (x ++ s.takeWhile isSkip) (y ++ t.takeWhile isSkip) (s.dropWhile isSkip) (t.dropWhile isSkip) := by
  cases h with
  | same h h' => exact J.of_skip h' h
  | newline hs ht h h' =>
    subst hs
    subst ht
    show J (x ++ []) (y ++ []) (10 :: _) (10 :: _)
    rw [List.append_nil, List.append_nil]
    exact .newline h h'

end Verif.Endings
