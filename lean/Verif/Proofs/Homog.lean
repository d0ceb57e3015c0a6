import Verif.Proofs.LexErrs
/-! What the lexer reports does not depend on what has been reported before (unless that ends with an error inside a string). -/
namespace Verif.Lex

/-- The last error is not about a string. -/
def Fresh (errs : List ParseErrorKind) : Prop :=
  ∀ e ∈ errs.getLast?, (∀ s, e ≠ .invalidStringCharacters s) ∧ ∀ s, e ≠ .invalidStringEscape s

theorem fresh_of {errs : List ParseErrorKind} (h : errs.filter isLexical = []) : Fresh errs := by
  intro e he
  have hm : e ∈ errs := List.mem_of_getLast? he
  have := List.filter_eq_nil_iff.1 h e hm
  exact ⟨fun s hs => this (by rw [hs]; rfl), fun s hs => this (by rw [hs]; rfl)⟩

section
variable {E : List ParseErrorKind} (hE : Fresh E)
include hE

theorem strError_app (sl span errs) : strError sl span (E ++ errs) = E ++ strError sl span errs := by
  rcases List.eq_nil_or_concat errs with rfl | ⟨l, x, rfl⟩
  · rw [List.append_nil]
    have h0 : strError sl span [] = (if sl.head? = some 92 then [.invalidStringEscape span] else [.invalidStringCharacters span]) := rfl
    rw [h0]
    have h1 : strError sl span E = (if sl.head? = some 92 then E ++ [.invalidStringEscape span] else E ++ [.invalidStringCharacters span]) := by
      unfold strError
      cases h : E.getLast? with
      | none => rfl
      | some e =>
        have := hE e h
        cases e <;> first | rfl | exact absurd rfl (this.1 _) | exact absurd rfl (this.2 _)
    rw [h1]
    split <;> rfl
  · rw [List.concat_eq_append, ← List.append_assoc]
    unfold strError
    simp only [List.getLast?_concat, List.dropLast_concat]
    cases x <;> (repeat' split) <;> simp

theorem strLoop_app (term : UInt8) : ∀ (fuel pos : Nat) (s : Bytes) (n : Nat) (acc errs),
    (strLoop term fuel pos s n acc (E ++ errs)).2.2 = E ++ (strLoop term fuel pos s n acc errs).2.2 := by
  intro fuel
  induction fuel with
  | zero => intros; rfl
  | succ fuel ih =>
    intro pos s n acc errs
    simp only [strLoop]
    split
    · simp
    · split
      · exact ih ..
      · split
        · rfl
        · exact ih ..
      · exact ih ..
      · exact ih ..
      · split
        · simp
        · rw [strError_app hE]
          exact ih ..
end

variable {E : List ParseErrorKind}

theorem commentLoop_app : ∀ (fuel pos : Nat) (s : Bytes) (n total depth : Nat) (lastEnd : Option Nat) (acc errs),
    (commentLoop fuel pos s n total depth lastEnd acc (E ++ errs)).2.2 = E ++ (commentLoop fuel pos s n total depth lastEnd acc errs).2.2 := by
  intro fuel
  induction fuel with
  | zero => intros; rfl
  | succ fuel ih =>
    intro pos s n total depth lastEnd acc errs
    simp only [commentLoop]
    split
    · split <;> simp
    · split
      · rfl
      · exact ih ..
    · rw [List.append_assoc]
      exact ih ..
    · exact ih ..
    · exact ih ..

theorem noSpace_app (span rest errs) : noSpace span rest (E ++ errs) = E ++ noSpace span rest errs := by
  unfold noSpace
  (repeat' split) <;> simp

theorem int_app (radix pre pos len ds rest errs) :
    (int radix pre pos len ds rest (E ++ errs)).2 = E ++ (int radix pre pos len ds rest errs).2 := by
  unfold int
  simp only
  split <;> simp [noSpace_app]

theorem float_app (tf pos n hs s errs) : (float tf pos n hs s (E ++ errs)).2.2 = E ++ (float tf pos n hs s errs).2.2 := by
  unfold float
  (repeat' split) <;> simp

theorem number_app (tf pos s errs) : (number tf pos s (E ++ errs)).2.2 = E ++ (number tf pos s errs).2.2 := by
  unfold number
  simp only
  (repeat' split) <;> first | exact float_app .. | rfl | exact int_app ..

theorem lineComment_app (tf pos pre hash s errs) : (lineComment tf pos pre hash s (E ++ errs)).2.2 = E ++ (lineComment tf pos pre hash s errs).2.2 := by
  simp only [lineComment]
  split <;> simp

theorem lexToken_app (hE : Fresh E) (tf pos s errs) : (lexToken tf pos s (E ++ errs)).2.2 = E ++ (lexToken tf pos s errs).2.2 := by
  unfold lexToken
  simp only
  (repeat' split) <;> first
    | rfl
    | exact number_app ..
    | exact float_app ..
    | exact lineComment_app ..
    | exact strLoop_app hE ..
    | exact commentLoop_app ..

/-- Errors of one step of the lexer. -/
theorem next_app (hE : Fresh E) (tf pos s) : (next tf pos s E).errs = E ++ (next tf pos s []).errs := by
  have h := lexToken_app hE tf (pos + (s.takeWhile isSkip).length) (s.dropWhile isSkip) []
  rw [List.append_nil] at h
  unfold next
  simp only
  split
  · simp
  · rename_i b r hs
    rcases h1 : lexToken tf (pos + (s.takeWhile isSkip).length) (s.dropWhile isSkip) E with ⟨o, n, e⟩
    rcases h2 : lexToken tf (pos + (s.takeWhile isSkip).length) (s.dropWhile isSkip) [] with ⟨o', n', e'⟩
    rw [h1, h2] at h
    cases o <;> cases o' <;> exact h

end Verif.Lex
