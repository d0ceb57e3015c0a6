import Verif.Proofs.Faults2
/-! The diagnostics of the lexer say what is there: block comments, and a token as a whole. -/
namespace Verif
open Verif.Spec Verif.Lex

/-- Each `*/` is part of a `/*/`. -/
def Clo (s : Bytes) : Prop := [42, 47] <:+: s → [47, 42, 47] <:+: s

theorem clo_nil : Clo [] := fun h => by simp at h

theorem clo_cons {b : UInt8} {s : Bytes} (h : Clo s) (hb : ¬ (b = 42 ∧ s.head? = some 47)) : Clo (b :: s) := by
  intro hi
  rcases List.infix_cons_iff.1 hi with hp | hi
  · obtain ⟨t, ht⟩ := hp
    simp only [List.cons_append, List.nil_append, List.cons.injEq] at ht
    obtain ⟨rfl, rfl⟩ := ht
    exact absurd ⟨rfl, rfl⟩ hb
  · exact List.infix_cons (h hi)

theorem clo_append {p s : Bytes} (hp : ∀ b ∈ p, b ≠ 42) (h : Clo s) : Clo (p ++ s) := by
  induction p with
  | nil => exact h
  | cons b p ih => exact clo_cons (ih fun c hc => hp c (by simp [hc])) fun hh => hp b (by simp) hh.1

theorem clo_open {r : Bytes} (h : Clo r) : Clo (47 :: 42 :: r) := by
  by_cases hr : r.head? = some 47
  · intro _
    cases r with
    | nil => cases hr
    | cons b r => cases hr; exact ⟨[], r, by simp⟩
  · exact clo_cons (clo_cons h fun hh => hr hh.2) (by rintro ⟨h, _⟩; cases h)

theorem clo_newline {r : Bytes} (h : Clo (skipStar (trimStart r))) : Clo (10 :: r) := by
  obtain ⟨ind, e, hi⟩ := trimStart_indent r
  have hib := indent_bytes hi
  rw [e]
  refine clo_cons (clo_append (fun b hb => (hib b hb).1) ?_) (by rintro ⟨h, _⟩; cases h)
  rcases skipStar_cases (trimStart r) with ⟨rr, htr, hsk⟩ | ⟨rr, htr, hno, hsk⟩ | ⟨hno, hsk⟩
  · rwa [hsk] at h
  · rw [hsk] at h
    rw [htr]
    refine clo_cons h ?_
    rintro ⟨_, hh⟩
    cases rr with
    | nil => cases hh
    | cons b bs => cases hh; exact hno _ rfl
  · rwa [hsk] at h

inductive ComEnd (src : Bytes) (start : Nat) : Option Nat → ParseErrorKind → Prop where
  | nested {e a} : start + 2 ≤ a → textOf src ⟨a, a + 2⟩ = [47, 42] → ComEnd src start e (.nestedBlockComment ⟨a, a + 2⟩)
  | eof {stop} : stop = src.length → Clo (src.drop (start + 2)) → ComEnd src start (some stop) (.unexpectedEof (.text b!"comment terminator"))

theorem ComEnd.any {src start e k} (h : ComEnd src start none k) : ComEnd src start e k := by
  cases h with
  | nested h1 h2 => exact .nested h1 h2

theorem commentLoop_faults (src : Bytes) (start total : Nat) (errs : List ParseErrorKind) (ht : start + 2 + total = src.length) :
    ∀ (fuel pos : Nat) (s : Bytes) (n depth : Nat) (lastEnd : Option Nat) (acc : Bytes) (new : List ParseErrorKind),
      s = src.drop pos → start + 2 ≤ pos →
      (lastEnd = none → Clo s → Clo (src.drop (start + 2))) → (∀ k ∈ new, ComEnd src start none k) →
      ∃ new', (commentLoop fuel pos s n total depth lastEnd acc (errs ++ new)).2.2 = errs ++ new' ∧
        ∀ k ∈ new', ComEnd src start (some (start + 2 + (commentLoop fuel pos s n total depth lastEnd acc (errs ++ new)).2.1)) k := by
  intro fuel
  induction fuel with
  | zero =>
    intro pos s n depth lastEnd acc new hs hp hc hn
    exact ⟨new, rfl, fun k hk => (hn k hk).any⟩
  | succ fuel ih =>
    intro pos s n depth lastEnd acc new hs hp hc hn
    unfold commentLoop
    split
    · split
      · exact ⟨new, rfl, fun k hk => (hn k hk).any⟩
      · refine ⟨new ++ [.unexpectedEof (.text b!"comment terminator")], by simp, fun k hk => ?_⟩
        rcases List.mem_append.1 hk with hk | hk
        · exact (hn k hk).any
        · rw [List.mem_singleton.1 hk]
          exact .eof ht (hc rfl clo_nil)
    · simp only
      split
      · exact ⟨new, rfl, fun k hk => (hn k hk).any⟩
      · exact ih _ _ _ _ _ _ _ (by rw [hs, List.drop_drop]) (by omega) (by simp) hn
    · rename_i r
      rw [List.append_assoc]
      refine ih _ _ _ _ _ _ _ ?_ (by omega) (fun hl h => hc hl (clo_open h)) fun k hk => ?_
      · have := congrArg (List.drop 2) hs
        rw [List.drop_drop] at this
        exact this
      · rcases List.mem_append.1 hk with hk | hk
        · exact hn k hk
        · rw [List.mem_singleton.1 hk]
          refine .nested hp ?_
          have := textOf_at hs 0 2
          simp only [Nat.add_zero, List.drop_zero] at this
          rw [this]; rfl
    · rename_i r
      simp only
      have hsuf : ∃ pre, r = pre ++ skipStar (trimStart r) := by
        obtain ⟨ind, e, _⟩ := trimStart_indent r
        rcases skipStar_cases (trimStart r) with ⟨rr, htr, hsk⟩ | ⟨rr, htr, hno, hsk⟩ | ⟨hno, hsk⟩
        · exact ⟨ind, by rw [hsk]; exact e⟩
        · exact ⟨ind ++ [42], by rw [hsk, List.append_assoc, List.singleton_append, ← htr]; exact e⟩
        · exact ⟨ind, by rw [hsk]; exact e⟩
      obtain ⟨pre, hpre⟩ := hsuf
      refine ih _ _ _ _ _ _ _ ?_ (by omega) (fun hl h => hc hl (clo_newline h)) hn
      have hl := congrArg List.length hpre
      rw [List.length_append] at hl
      rw [← List.drop_drop, ← hs]
      have : (10 :: r).length - (skipStar (trimStart r)).length = (10 :: pre).length := by
        simp only [List.length_cons]; omega
      rw [this]
      conv => rhs; arg 2; rw [hpre, ← List.cons_append]
      rw [List.drop_left]
    · rename_i b r hne1 hne2 hne3
      simp only
      refine ih _ _ _ _ _ _ _ (by rw [hs, List.drop_drop]) (by omega) (fun hl h => hc hl ?_) hn
      have hd : (b :: r).drop (errLen (b :: r)) = r.dropWhile isCont := by
        have h1 : (b :: r).take (errLen (b :: r)) ++ (b :: r).drop (errLen (b :: r)) = b :: r := List.take_append_drop _ _
        have h2 := List.takeWhile_append_dropWhile (p := isCont) (l := r)
        rw [take_errLen] at h1
        have h3 : r.takeWhile isCont ++ (b :: r).drop (errLen (b :: r)) = r := by simpa using h1
        exact List.append_cancel_left (h3.trans h2.symm)
      rw [hd] at h
      have hr := List.takeWhile_append_dropWhile (p := isCont) (l := r)
      have h' : Clo r := by
        rw [← hr]
        exact clo_append (fun c hc => (cont_bytes (conts c hc)).1) h
      refine clo_cons h' ?_
      rintro ⟨rfl, hh⟩
      cases r with
      | nil => cases hh
      | cons c r => cases hh; exact hne1 _ rfl rfl

variable [FloatFmt]

theorem block_adds {src r : Bytes} {pos : Nat} {errs : List ParseErrorKind} (h : 47 :: 42 :: r = src.drop pos) :
    Adds src pos errs (some (blockComment pos r errs).1) (blockComment pos r errs).2.1 (blockComment pos r errs).2.2 := by
  have hl := congrArg List.length h
  rw [List.length_drop] at hl
  simp only [List.length_cons] at hl
  have hr : r = src.drop (pos + 2) := by
    have := congrArg (List.drop 2) h
    rw [List.drop_drop] at this
    exact this
  obtain ⟨new, h1, h2⟩ := commentLoop_faults src pos r.length errs (by omega) (r.length + 1) (pos + 2) r 0 1 none [] [] hr
    (Nat.le_refl _) (fun _ h => hr ▸ h) nofun
  rw [List.append_nil] at h1 h2
  unfold blockComment
  refine ⟨new, h1, fun k hk => ?_⟩
  have := h2 k hk
  simp only
  rw [← Nat.add_assoc]
  cases this with
  | nested h3 h4 => exact .nested h3 h4
  | eof h3 h4 => exact .openComment h3 h4

theorem string_adds {src r : Bytes} {pos : Nat} {q : UInt8} {errs : List ParseErrorKind} (hq : q ≠ 10) (hb : Before pos errs)
    (h : q :: r = src.drop pos) :
    Adds src pos errs (some (string pos q r errs).1) (string pos q r errs).2.1 (string pos q r errs).2.2 := by
  have hl := congrArg List.length h
  rw [List.length_drop] at hl
  simp only [List.length_cons] at hl
  have hr : r = src.drop (pos + 1) := by
    have := congrArg (List.drop 1) h
    rw [List.drop_drop] at this
    exact this
  have h10 : 10 ∉ textOf src ⟨pos, pos + 1⟩ := by
    have := textOf_at h 0 1
    simp only [Nat.add_zero, List.drop_zero] at this
    rw [this]
    simp [Ne.symm hq]
  obtain ⟨new, h1, h2⟩ := strLoop_faults q src pos errs hb (r.length + 1) (pos + 1) r 0 [] [] hr rfl (by omega) h10 nofun
  rw [List.append_nil] at h1 h2
  unfold string
  refine ⟨new, h1, fun k hk => ?_⟩
  have := h2 k hk
  simp only
  rw [← Nat.add_assoc]
  cases this with
  | ok h =>
    cases h with
    | char h1 h2 h3 h4 => exact .badCharacter h1 h2 h3 h4
    | escape h1 h2 h3 h4 => exact .badEscape h1 h2 h3 h4
  | line h1 h2 h3 h4 => exact .unterminated h1 h2 h3 h4
  | eof h1 h2 => exact .openString h1 h2

theorem lexToken_adds {src s : Bytes} {tf : Bool} {pos : Nat} {errs : List ParseErrorKind} (h : s = src.drop pos)
    (hb : Before pos errs) :
    Adds src pos errs (lexToken tf pos s errs).1 (lexToken tf pos s errs).2.1 (lexToken tf pos s errs).2.2 := by
  unfold lexToken
  cases s with
  | nil => exact .none
  | cons b r =>
    simp only
    split
    · exact .none
    · split
      · rename_i hd
        exact number_adds h (by simp [List.takeWhile_cons, hd])
      · split
        · rename_i hd
          simp only [Bool.and_eq_true, beq_iff_eq] at hd
          obtain ⟨rfl, _⟩ := hd
          refine float_adds h fun hh => ?_
          have hfr := List.takeWhile_append_dropWhile (p := isDigit) (l := r)
          have e : 46 :: r = (46 :: r.takeWhile isDigit ++ (r.dropWhile isDigit).take (exponentLen (r.dropWhile isDigit))) ++
              (r.dropWhile isDigit).drop (exponentLen (r.dropWhile isDigit)) := by
            rw [List.append_assoc, List.take_append_drop, List.cons_append, hfr]
          conv => enter [1, a, 1, f, 2, 1]; rw [e]
          conv => enter [1, a, 1, f, 2, 2]; rw [e]
          exact suffix_take (by rw [List.length_append, take_exp_length]; simp; omega) hh
        · split
          · rename_i hq
            simp only [Bool.or_eq_true, beq_iff_eq] at hq
            exact string_adds (by rcases hq with rfl | rfl <;> decide) hb h
          · split
            · rename_i hq
              exact lineComment_adds h fun _ => ⟨rfl, by simpa using hq⟩
            · split
              · exact lineComment_adds h nofun
              · split
                · rename_i hq
                  simp only [Bool.and_eq_true, beq_iff_eq, decide_eq_true_eq] at hq
                  obtain ⟨rfl, hr⟩ := hq
                  cases r with
                  | nil => cases hr
                  | cons c r => cases hr; exact block_adds h
                · split
                  · exact .none
                  · exact .none

end Verif
