import Verif.Spec.Expect
import Verif.Proofs.Lexer2
/-! The lexer only adds errors of its own kinds at the end of the list (it may widen the last string error). -/
namespace Verif.Lex

/-- The kinds of error the lexer reports. -/
def isLexical : ParseErrorKind → Bool
  | .integerOutOfRange _ | .invalidStringCharacters _ | .unterminatedString _ | .invalidStringEscape _
  | .nestedBlockComment _ | .noSpaceBetweenIntAndIdent _ | .hashCommentOutsideTextFormat _
  | .floatSuffixOutsideTextFormat _ => true
  | .unexpectedEof ex => Spec.lexEnd ex
  | _ => false

/-- Forgets the spans of the string errors, which the lexer may widen. -/
def norm : ParseErrorKind → ParseErrorKind
  | .invalidStringCharacters _ => .invalidStringCharacters ⟨0, 0⟩
  | .invalidStringEscape _ => .invalidStringEscape ⟨0, 0⟩
  | e => e

theorem lexical_norm {e} : isLexical (norm e) = isLexical e := by cases e <;> rfl

theorem norm_id {e} (h : isLexical e = false) : norm e = e := by cases e <;> first | rfl | cases h

theorem norm_eq {e k} (hk : isLexical k = false) (h : norm e = k) : e = k := by
  cases e <;> first | exact h | (subst h; cases hk)

/-- The second list continues the first with errors of the lexer. -/
def LexExt (errs out : List ParseErrorKind) : Prop :=
  ∃ l, out.map norm = errs.map norm ++ l ∧ ∀ e ∈ l, isLexical e = true

theorem LexExt.refl (errs) : LexExt errs errs := ⟨[], by simp, nofun⟩

theorem LexExt.trans {a b c} (h : LexExt a b) (h' : LexExt b c) : LexExt a c := by
  obtain ⟨l, h1, h2⟩ := h
  obtain ⟨l', h3, h4⟩ := h'
  refine ⟨l ++ l', by rw [h3, h1, List.append_assoc], fun e he => ?_⟩
  rcases List.mem_append.1 he with he | he
  · exact h2 e he
  · exact h4 e he

theorem LexExt.one {errs e} (h : isLexical e = true) : LexExt errs (errs ++ [e]) :=
  ⟨[norm e], by simp, fun x hx => by rw [List.mem_singleton.1 hx, lexical_norm, h]⟩

theorem strError_ext (sl span errs) : LexExt errs (strError sl span errs) := by
  have fresh : LexExt errs (if sl.head? = some 92 then errs ++ [.invalidStringEscape span]
    else errs ++ [.invalidStringCharacters span]) := by
    split <;> exact .one rfl
  have wide : ∀ k k', errs.getLast? = some k → norm k' = norm k → LexExt errs (errs.dropLast ++ [k']) := by
    intro k k' h hk
    refine ⟨[], ?_, nofun⟩
    obtain ⟨l, rfl⟩ := List.getLast?_eq_some_iff.1 h
    simp [hk]
  unfold strError
  simp only
  split
  · split
    · rename_i heq _; exact wide _ _ heq rfl
    · exact fresh
  · split
    · rename_i heq _; exact wide _ _ heq rfl
    · exact fresh
  · exact fresh

theorem strLoop_ext (term : UInt8) : ∀ (fuel pos : Nat) (s : Bytes) (n : Nat) (acc errs),
    LexExt errs (strLoop term fuel pos s n acc errs).2.2 := by
  intro fuel
  induction fuel with
  | zero => intro pos s n acc errs; exact .refl _
  | succ fuel ih =>
    intro pos s n acc errs
    simp only [strLoop]
    split
    · exact .one rfl
    · split
      · exact ih ..
      · split
        · exact .refl _
        · exact ih ..
      · exact ih ..
      · exact ih ..
      · split
        · exact .one rfl
        · exact (strError_ext _ _ _).trans (ih ..)

theorem commentLoop_ext : ∀ (fuel pos : Nat) (s : Bytes) (n total depth : Nat) (lastEnd : Option Nat) (acc errs),
    LexExt errs (commentLoop fuel pos s n total depth lastEnd acc errs).2.2 := by
  intro fuel
  induction fuel with
  | zero => intros; exact .refl _
  | succ fuel ih =>
    intro pos s n total depth lastEnd acc errs
    simp only [commentLoop]
    split
    · split
      · exact .refl _
      · exact .one rfl
    · split
      · exact .refl _
      · exact ih ..
    · exact LexExt.trans (.one rfl) (ih ..)
    · exact ih ..
    · exact ih ..

theorem noSpace_ext (span rest errs) : LexExt errs (noSpace span rest errs) := by
  unfold noSpace
  split
  · split
    · exact .one rfl
    · exact .refl _
  · exact .refl _

theorem int_ext (radix pre pos len ds rest errs) : LexExt errs (int radix pre pos len ds rest errs).2 := by
  unfold int
  simp only
  split
  · exact noSpace_ext ..
  · exact (noSpace_ext _ _ _).trans (.one rfl)

theorem float_ext (tf pos n hs s errs) : LexExt errs (float tf pos n hs s errs).2.2 := by
  unfold float
  split
  · simp only
    split
    · exact .refl _
    · exact .one rfl
  · exact .refl _

theorem number_ext (tf pos s errs) : LexExt errs (number tf pos s errs).2.2 := by
  unfold number
  simp only
  (repeat' split) <;> first | exact float_ext .. | exact .refl _ | exact int_ext ..

theorem lineComment_ext (tf pos pre hash s errs) : LexExt errs (lineComment tf pos pre hash s errs).2.2 := by
  simp only [lineComment]
  split
  · exact .one rfl
  · exact .refl _

theorem lexToken_ext (tf pos s errs) : LexExt errs (lexToken tf pos s errs).2.2 := by
  unfold lexToken
  simp only
  (repeat' split) <;> first | exact .refl _ | exact number_ext .. | exact float_ext .. | exact lineComment_ext .. | exact strLoop_ext .. | exact commentLoop_ext ..

/-- Errors of one step of the lexer. -/
theorem next_ext (tf pos s errs) : LexExt errs (next tf pos s errs).errs := by
  unfold next
  simp only
  split
  · exact .refl _
  · rename_i b r hs
    have h := lexToken_ext tf (pos + (s.takeWhile isSkip).length) (s.dropWhile isSkip) errs
    split <;> (rename_i heq; rw [heq] at h; exact h)

/-- The first error, unless the lexer may have reported it. -/
theorem LexExt.head {errs out e es} (h : LexExt errs out) (ho : out = e :: es) (hk : isLexical e = false) :
    ∃ es', errs = e :: es' := by
  obtain ⟨l, h1, h2⟩ := h
  subst ho
  cases errs with
  | nil =>
    rw [List.map_nil, List.nil_append, List.map_cons] at h1
    have := h2 (norm e) (by rw [← h1]; exact List.mem_cons_self ..)
    rw [lexical_norm, hk] at this; cases this
  | cons e' es' =>
    rw [List.map_cons, List.map_cons, List.cons_append] at h1
    injection h1 with h1 _
    rw [norm_id hk] at h1
    exact ⟨es', by rw [norm_eq hk h1.symm]⟩

end Verif.Lex
