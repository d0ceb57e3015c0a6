import Verif.Proofs.Endings4
import Verif.Proofs.MoveG
/-! All the tokens of two sources that differ in their line endings. -/
namespace Verif.Endings
open Verif.Spec Verif.Lex Verif.Ast Verif.Pos Verif.Parse

/-- One step of the lexer. -/
theorem next_step {tf} {x y s t : Bytes} {tok} (hr : (next tf x.length s []).res = .tok tok) (he : (next tf x.length s []).errs = [])
    (hK : K x y s t) : (next tf y.length t []).res = .tok tok ∧ (next tf y.length t []).errs = [] ∧
    ∃ x1 x2 y1 y2 : Bytes, (next tf x.length s []).span = ⟨(x ++ x1).length, (x ++ x1 ++ x2).length⟩ ∧
      (next tf y.length t []).span = ⟨(y ++ y1).length, (y ++ y1 ++ y2).length⟩ ∧
      s = x1 ++ (x2 ++ (next tf x.length s []).rest) ∧ t = y1 ++ (y2 ++ (next tf y.length t []).rest) ∧
      K (x ++ x1 ++ x2) (y ++ y1 ++ y2) (next tf x.length s []).rest (next tf y.length t []).rest ∧
      (tok.isTrivia = false → E0 (x ++ x1) (y ++ y1) ∧ E0 (x ++ x1 ++ x2) (y ++ y1 ++ y2)) := by
  have hJ := hK.before
  have e1 := List.takeWhile_append_dropWhile (p := isSkip) (l := s)
  have e2 := List.takeWhile_append_dropWhile (p := isSkip) (l := t)
  unfold next at hr he ⊢
  dsimp only at hr he ⊢
  generalize s.takeWhile isSkip = x1 at *
  generalize t.takeWhile isSkip = y1 at *
  generalize s.dropWhile isSkip = s2 at *
  generalize t.dropWhile isSkip = t2 at *
  cases s2 with
  | nil => cases hr
  | cons b s2 =>
    cases t2 with
    | nil => cases hJ
    | cons c t2 =>
      dsimp only at hr he ⊢
      rcases hx : lexToken tf (x.length + x1.length) (b :: s2) [] with ⟨o, n, es⟩
      rw [hx] at hr he
      cases o with
      | none => cases hr
      | some tok' =>
        cases hr
        cases he
        obtain ⟨n', h1, h2, h3⟩ := tok_go (y.length + y1.length) hx hJ
        rw [h1]
        have b1 := ((good_lexToken (b :: s2) (by simp)).bounds tf (x.length + x1.length) []).2
        rw [hx] at b1
        have b2 := ((good_lexToken (c :: t2) (by simp)).bounds tf (y.length + y1.length) []).2
        rw [h1] at b2
        dsimp only at b1 b2 ⊢
        refine ⟨rfl, rfl, x1, (b :: s2).take n, y1, (c :: t2).take n', ?_, ?_, ?_, ?_, h2, h3⟩
        · simp only [List.length_append, List.length_take, Nat.min_eq_left b1]
        · simp only [List.length_append, List.length_take, Nat.min_eq_left b2]
        · rw [List.take_append_drop]; exact e1.symm
        · rw [List.take_append_drop]; exact e2.symm

theorem next_end {tf} {x y s t : Bytes} (hr : (next tf x.length s []).res = .eof) (hK : K x y s t) :
    (next tf y.length t []).res = .eof ∧ (next tf y.length t []).errs = [] := by
  have hJ := hK.before
  rw [next_eof_or] at hr ⊢
  rw [hr] at hJ
  generalize ht : t.dropWhile isSkip = t2 at hJ
  cases hJ with
  | eof _ =>
    refine ⟨rfl, ?_⟩
    unfold next
    dsimp only
    rw [ht]

/-- The offsets `o` in `S` and `o'` in `T` are the same place. -/
def Place (S T : Bytes) (o o' : Nat) : Prop := ∃ x y s t, S = x ++ s ∧ T = y ++ t ∧ E0 x y ∧ o = x.length ∧ o' = y.length

/-- The same tokens in the same places; the places of comments and line feeds do not matter. -/
inductive Rel (S T : Bytes) : List (Option Token × Span) → List (Option Token × Span) → Prop
  | nil : Rel S T [] []
  | cons {tok : Token} {sp sp' : Span} {l l'} : (tok.isTrivia = false → Place S T sp.start sp'.start ∧ Place S T sp.stop sp'.stop) →
      Rel S T l l' → Rel S T ((some tok, sp) :: l) ((some tok, sp') :: l')

theorem toks_go {S T : Bytes} : ∀ (k : Nat) {x y s t : Bytes} {m : Mode}, s.length < k → K x y s t → S = x ++ s → T = y ++ t →
    okFrom m x.length s = true → okFrom m y.length t = true ∧ Rel S T (rawToks x.length s) (rawToks y.length t)
  | 0, _, _, _, _, _, h => absurd h (Nat.not_lt_zero _)
  | k + 1, x, y, s, t, m, hk => by
    intro hK hS hT h
    rw [okFrom_unfold] at h
    obtain ⟨h0, h1⟩ := Bool.and_eq_true_iff.1 h
    have h0 := of_decide_eq_true h0
    obtain ⟨c1, c2, c3⟩ := next_same m.text x.length s []
    obtain ⟨d1, d2, d3⟩ := next_same m.text y.length t []
    cases hr : (next m.text x.length s []).res with
    | error => rw [hr] at h1; cases h1
    | eof =>
      obtain ⟨i1, i2⟩ := next_end hr hK
      rw [okFrom_unfold, rawToks_unfold x.length s, ← c1, hr, rawToks_unfold y.length t, ← d1, i1, i2]
      exact ⟨rfl, .nil⟩
    | tok tok =>
      rw [hr] at h1
      dsimp only at h1
      obtain ⟨g1, g2, x1, x2, y1, y2, g3, g4, g5, g6, g7, g8⟩ := next_step hr h0 hK
      have hlt := next_rest_lt' m.text x.length s (by simp [hr])
      rw [okFrom_unfold, rawToks_unfold x.length s, ← c1, hr, rawToks_unfold y.length t, ← d1, g1, g2, ← c2, ← c3, ← d2, ← d3, g3, g4]
      rw [g3] at h1
      dsimp only at h1 ⊢
      have eS : S = x ++ x1 ++ x2 ++ (next m.text x.length s []).rest := by
        rw [hS, List.append_assoc, List.append_assoc, ← g5]
      have eT : T = y ++ y1 ++ y2 ++ (next m.text y.length t []).rest := by
        rw [hT, List.append_assoc, List.append_assoc, ← g6]
      obtain ⟨i1, i2⟩ := toks_go k (by omega) g7 eS eT h1
      refine ⟨by rw [i1]; rfl, .cons (fun ht => ?_) i2⟩
      obtain ⟨j1, j2⟩ := g8 ht
      exact ⟨⟨_, _, _, _, eS.trans (List.append_assoc ..), eT.trans (List.append_assoc ..), j1, rfl, rfl⟩,
        ⟨_, _, _, _, eS, eT, j2, rfl, rfl⟩⟩

/-- Two sources that are equal up to line endings. -/
theorem source_go {S T : Bytes} (h : E false S T) (hl : lexOk S = true) : lexOk T = true ∧ Rel S T (rawToks 0 S) (rawToks 0 T) :=
  toks_go (x := []) (y := []) _ (Nat.lt_succ_self _) (.same .nil h) rfl rfl hl

theorem lexOk_same {S T : Bytes} (h : E false S T) : lexOk S = lexOk T := by
  cases h1 : lexOk S with
  | true => exact (source_go h h1).1.symm
  | false =>
    cases h2 : lexOk T with
    | false => rfl
    | true => rw [(source_go h.symm h2).1] at h1; cases h1

theorem Rel.words {S T l l'} (h : Rel S T l l') : (significant l).map (·.map (·.1)) = (significant l').map (·.map (·.1)) := by
  induction h with
  | nil => rfl
  | @cons tok sp sp' l l' _ _ ih =>
    unfold significant at ih ⊢
    cases ht : tok.isTrivia <;> simp [ht, ih]

theorem Rel.some {S T l l'} (h : Rel S T l l') : ∀ x ∈ l', x.1 ≠ none := by
  induction h with
  | nil => nofun
  | cons _ _ ih =>
    intro x hx
    cases hx with
    | head => nofun
    | tail _ hx => exact ih x hx

/-! ## Comments -/

theorem gap_fst : ∀ {l l' : List STok}, l.map (·.1) = l'.map (·.1) → gapOf l = gapOf l' ∧ (afterGap l).map (·.1) = (afterGap l').map (·.1)
  | [], [], _ => ⟨rfl, rfl⟩
  | [], _ :: _, h => nomatch h
  | _ :: _, [], h => nomatch h
  | a :: l, b :: l', h => by
    obtain ⟨h1, h2⟩ := List.cons.inj h
    dsimp only at h1
    have ih := gap_fst h2
    unfold gapOf afterGap
    rw [h1]
    split
    · exact ⟨by rw [ih.1], ih.2⟩
    · exact ⟨rfl, h⟩

theorem closes_fst {l l' : List STok} (h : l.map (·.1) = l'.map (·.1)) : closes l = closes l' := by
  cases l with
  | nil => cases l' with
    | nil => rfl
    | cons b l' => cases h
  | cons a l => cases l' with
    | nil => cases h
    | cons b l' =>
      obtain ⟨h1, h2⟩ := List.cons.inj h
      obtain ⟨t, sp⟩ := a
      obtain ⟨t', sp'⟩ := b
      cases h1
      rfl

theorem ahead_fst {l l' : List STok} (h : l.map (·.1) = l'.map (·.1)) (start) : splitAhead start l = splitAhead start l' := by
  unfold splitAhead
  rw [closes_fst (gap_fst h).2, (gap_fst h).1]

abbrev toks (l : List (Option Token × Span)) : List STok := l.filterMap fun x => x.1.map (·, x.2)

theorem Rel.fst {S T l l'} (h : Rel S T l l') : (toks l).map (·.1) = (toks l').map (·.1) := by
  induction h with
  | nil => rfl
  | cons _ _ ih => simpa using ih

theorem Rel.annotate {S T l l'} {g : Nat → Nat} (hg : ∀ o o', Place S T o o' → g o = o') (h : Rel S T l l') :
    ∀ (start gap), annotate start gap (toks l') = (annotate start gap (toks l)).map (mvA g) := by
  induction h with
  | nil => intros; rfl
  | @cons tok sp sp' l l' hp h ih =>
    intro start gap
    show Spec.annotate start gap ((tok, sp') :: toks l') = (Spec.annotate start gap ((tok, sp) :: toks l)).map (mvA g)
    unfold Spec.annotate
    dsimp only
    cases ht : tok.isTrivia with
    | true => simp only [if_true]; exact ih _ _
    | false =>
      obtain ⟨p1, p2⟩ := hp ht
      have hsp : sp' = mv g sp := by
        obtain ⟨a, b⟩ := sp
        obtain ⟨a', b'⟩ := sp'
        show _ = (⟨g a, g b⟩ : Span)
        rw [hg _ _ p1, hg _ _ p2]
      have hf : ((tok, sp') :: toks l').map (·.1) = ((tok, sp) :: toks l).map (·.1) := by
        rw [List.map_cons, List.map_cons, h.fst]
      simp only [Bool.false_eq_true, if_false, List.map_cons]
      rw [closes_fst hf, ahead_fst h.fst.symm, ih, hsp]
      rfl

/-! ## Offsets -/

/-- The offset in the second text of the place at an offset in the first one. -/
def shift : Bytes → Bytes → Nat → Nat
  | _, _, 0 => 0
  | 10 :: s, 13 :: 10 :: t, o + 1 => shift s t o + 2
  | 13 :: 10 :: s, 10 :: t, o + 2 => shift s t o + 1
  | _ :: s, _ :: t, o + 1 => shift s t o + 1
  | _, _, o + 1 => o + 1

theorem shift_same (b : UInt8) (s t : Bytes) (o : Nat) : shift (b :: s) (b :: t) (o + 1) = shift s t o + 1 := by
  rw [shift]
  · intro _ h1 h2; rw [h1] at h2; cases h2
  · intro _ _ h1 _ h2; rw [h1] at h2; cases h2

theorem shift_place {x y : Bytes} (h : E0 x y) (s t : Bytes) : shift (x ++ s) (y ++ t) x.length = y.length := by
  induction h with
  | nil => cases s <;> cases t <;> rfl
  | same b _ ih => rw [List.length_cons, List.cons_append, List.cons_append, shift_same, ih, List.length_cons]
  | right _ ih => simp only [List.length_cons, List.cons_append, shift, ih]
  | left _ ih => simp only [List.length_cons, List.cons_append, shift, ih]

/-- The second text has a carriage return wherever the first one has one. -/
inductive A : Bytes → Bytes → Prop
  | nil : A [] []
  | same {s t} (b : UInt8) : A s t → A (b :: s) (b :: t)
  | right {s t} : A s t → A (10 :: s) (13 :: 10 :: t)

theorem A.any {s t} (h : A s t) : E0 s t := by
  induction h with
  | nil => exact .nil
  | same b _ ih => exact .same b ih
  | right _ ih => exact .right ih

theorem A.place {s t} (h : A s t) : ∀ o, o ≤ s.length → Place s t o (shift s t o) := by
  have cons : ∀ {s t : Bytes} {o o'} {a b : Bytes}, E0 a b → Place s t o o' → Place (a ++ s) (b ++ t) (o + a.length) (o' + b.length) := by
    rintro s t o o' a b h0 ⟨x, y, s1, t1, rfl, rfl, h1, rfl, rfl⟩
    exact ⟨a ++ x, b ++ y, s1, t1, by simp, by simp, h0.app h1, by simp [Nat.add_comm], by simp [Nat.add_comm]⟩
  have zero : ∀ {s t : Bytes}, Place s t 0 (shift s t 0) := fun {s t} => ⟨[], [], s, t, rfl, rfl, .nil, rfl, by cases s <;> cases t <;> rfl⟩
  induction h with
  | nil => intro o ho; cases Nat.le_zero.1 ho; exact zero
  | @same s t b _ ih =>
    intro o ho
    cases o with
    | zero => exact zero
    | succ o =>
      rw [shift_same]
      exact cons (.same b .nil) (ih o (Nat.le_of_succ_le_succ ho))
  | @right s t _ ih =>
    intro o ho
    cases o with
    | zero => exact zero
    | succ o =>
      simp only [shift]
      exact cons (.right .nil) (ih o (Nat.le_of_succ_le_succ ho))

/-! ## Lines and columns -/

theorem E0.line {x y} (h : E0 x y) : (x.filter (· == 10)).length = (y.filter (· == 10)).length := by
  induction h with
  | nil => rfl
  | same b _ ih => simp only [List.filter_cons]; split <;> simp [ih]
  | right _ ih => simp [ih]
  | left _ ih => simp [ih]

/-- The length of the last line. -/
def last (x : Bytes) : Nat := (x.reverse.takeWhile (· != 10)).length

theorem tw_all {p : UInt8 → Bool} : ∀ {l : Bytes}, (∀ c ∈ l, p c = true) → l.takeWhile p = l
  | [], _ => rfl
  | c :: l, h => by rw [List.takeWhile_cons_of_pos (h c (.head _)), tw_all fun c hc => h c (.tail _ hc)]

theorem last_full {x : Bytes} (h : 10 ∉ x) : last x = x.length := by
  unfold last
  rw [tw_all, List.length_reverse]
  intro c hc
  simp only [bne_iff_ne, ne_eq]
  rintro rfl
  exact h (List.mem_reverse.1 hc)

theorem last_short {x : Bytes} (h : 10 ∈ x) : (x.reverse.takeWhile (· != 10)).length ≠ x.reverse.length := by
  intro hl
  have hs := List.takeWhile_prefix (p := (· != 10)) (l := x.reverse)
  have := hs.eq_of_length hl
  have h10 := List.mem_reverse.2 h
  rw [← this] at h10
  have := List.all_eq_true.1 (List.all_takeWhile (p := (· != 10)) (l := x.reverse)) 10 h10
  simp at this

theorem last_cons (b : UInt8) (x : Bytes) : last (b :: x) = if 10 ∈ x ∨ b = 10 then last x else last x + 1 := by
  by_cases hx : 10 ∈ x
  · rw [if_pos (.inl hx)]
    unfold last
    rw [List.reverse_cons, List.takeWhile_append, if_neg (last_short hx)]
  · have hf := last_full hx
    have hf' : (x.reverse.takeWhile (· != 10)).length = x.reverse.length := by rw [List.length_reverse]; exact hf
    by_cases hb : b = 10
    · rw [if_pos (.inr hb), hf]
      subst hb
      unfold last
      rw [List.reverse_cons, List.takeWhile_append, if_pos hf']
      simp
    · rw [if_neg (fun h => h.elim hx hb), hf]
      unfold last
      rw [List.reverse_cons, List.takeWhile_append, if_pos hf', List.takeWhile_cons_of_pos (by simpa using hb)]
      simp

theorem E0.last {x y} (h : E0 x y) : last x = last y ∧ (10 ∈ x ↔ 10 ∈ y) := by
  induction h with
  | nil => exact ⟨rfl, Iff.rfl⟩
  | same b _ ih =>
    rw [last_cons, last_cons, ih.1]
    refine ⟨by simp only [ih.2], by simp only [List.mem_cons, ih.2]⟩
  | right _ ih =>
    rw [last_cons, last_cons, last_cons, ih.1]
    simp
  | left _ ih =>
    rw [last_cons, last_cons, last_cons, ih.1]
    simp

theorem place_line {S T o o'} (h : Place S T o o') : Spec.lineOf S o = Spec.lineOf T o' ∧ Spec.colOf S o = Spec.colOf T o' := by
  obtain ⟨x, y, s, t, rfl, rfl, h0, rfl, rfl⟩ := h
  unfold Spec.lineOf Spec.colOf
  rw [List.take_left, List.take_left]
  exact ⟨h0.line, h0.last.1⟩

theorem unix_same : ∀ (n : Nat) {s : Bytes}, s.length < n → E false s (dos (unix s)) ∧ A s (dos (unix s)) ∧ (s.head? ≠ some 10 → E true s (dos (unix s)))
  | 0, _, h => absurd h (Nat.not_lt_zero _)
  | n + 1, s, hn => by
    match s, hn with
    | [], _ => exact ⟨.nil, .nil, fun _ => .nil⟩
    | 10 :: s, hn =>
      rw [unix_cons (.inl (by decide))]
      obtain ⟨h1, h2, _⟩ := unix_same n (s := s) (by simp at hn; omega)
      exact ⟨.right h1, .right h2, fun h => absurd rfl h⟩
    | 13 :: 10 :: s, hn =>
      obtain ⟨h1, h2, _⟩ := unix_same n (s := s) (by simp at hn; omega)
      show E false _ (13 :: 10 :: dos (Spec.unix s)) ∧ A _ (13 :: 10 :: dos (Spec.unix s)) ∧ (_ → E true _ (13 :: 10 :: dos (Spec.unix s)))
      exact ⟨.same 13 (.same 10 h1), .same 13 (.same 10 h2), fun _ => .same 13 (.same 10 h1)⟩
    | b :: s, hn =>
      by_cases hb : b = 10
      · subst hb
        rw [unix_cons (.inl (by decide))]
        obtain ⟨h1, h2, _⟩ := unix_same n (s := s) (by simp at hn; omega)
        exact ⟨.right h1, .right h2, fun h => absurd rfl h⟩
      by_cases hc : b = 13 ∧ s.head? = some 10
      · obtain ⟨rfl, hc⟩ := hc
        cases s with
        | nil => cases hc
        | cons c s =>
          cases hc
          obtain ⟨h1, h2, _⟩ := unix_same n (s := s) (by simp at hn; omega)
          show E false _ (13 :: 10 :: dos (Spec.unix s)) ∧ A _ (13 :: 10 :: dos (Spec.unix s)) ∧ (_ → E true _ (13 :: 10 :: dos (Spec.unix s)))
          exact ⟨.same 13 (.same 10 h1), .same 13 (.same 10 h2), fun _ => .same 13 (.same 10 h1)⟩
      rw [unix_cons (by
        by_cases h : b = 13
        · exact .inr fun h' => hc ⟨h, h'⟩
        · exact .inl h)]
      have hd : dos (b :: Spec.unix s) = b :: dos (Spec.unix s) := by
        rw [dos]
        exact fun h => hb h
      rw [hd]
      obtain ⟨h1, h2, h3⟩ := unix_same n (s := s) (by simp at hn; omega)
      have key : E (b == 13) s (dos (Spec.unix s)) := by
        by_cases h : b = 13
        · subst h; exact h3 fun h' => hc ⟨rfl, h'⟩
        · have : (b == 13) = false := by simpa using h
          rw [this]; exact h1
      exact ⟨.same b key, .same b h2, fun _ => .same b key⟩

end Verif.Endings
