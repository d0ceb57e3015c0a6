import Verif.Proofs.LexemeC2
import Verif.Proofs.Source2
/-! The texts the code prints for tokens and byte strings are lexed back to what they were printed from. -/
namespace Verif.Lex
open Verif.Spec Verif.Ast

/-! ## Overflow -/

/-- A literal that does not fit stands for no token. -/
theorem literal_fits {tf text n t} (h : IntLiteral text n) (hl : Lexeme tf text t) : n < 2 ^ 64 ∧ t = .int n := by
  have hn : n < 2 ^ 64 := by
    have h1 := lexToken_of hl 0 [] [] (ends_nil _ _)
    rw [List.append_nil] at h1
    obtain ⟨sp, h2⟩ := number_int' (tf := tf) (pos := 0) (errs := []) h follow_nil
    rw [List.append_nil] at h2
    obtain ⟨c, r, rfl, hc⟩ := isDigit_head h
    rw [lexToken_digit hc, h2] at h1
    simp only [Prod.mk.injEq] at h1
    have h3 := h1.2.2
    unfold intErrs at h3
    split at h3
    · assumption
    · simp at h3
  exact ⟨hn, (lexeme_unique (.int h hn) hl).symm⟩

/-! ## Escapes -/

theorem octal3_spec : ∀ b : UInt8, (∀ c ∈ octal3 b, isHexDigit c = true ∧ digitVal c < 8) ∧
    digitsVal 8 (octal3 b) = b.toNat := by
  apply forall_u8
  decide +kernel

theorem hex2_spec : ∀ b : UInt8, (∀ c ∈ hex2 b, isHexDigit c = true ∧ digitVal c < 16) ∧
    digitsVal 16 (hex2 b) = b.toNat := by
  apply forall_u8
  decide +kernel

theorem printable_raw {q b : UInt8} {r v} (h1 : 0x20 ≤ b ∧ b ≤ 0x7e) (h2 : b ≠ 92) (h3 : b ≠ 39) (h4 : b ≠ 34)
    (h : StrBody q r v) : StrBody q (b :: r) (b :: v) := by
  refine .raw ?_ ?_ h2 (by rintro (rfl | rfl) <;> contradiction) h
  · rintro rfl; exact absurd h1 (by decide)
  · rintro rfl; exact absurd h1 (by decide)

theorem escapeByte_body {q b : UInt8} {r v} (h : StrBody q r v) : StrBody q (escapeByte b ++ r) (b :: v) := by
  unfold escapeByte
  split
  · rename_i hb; subst hb; exact .simple (c := 116) (by decide) h
  split
  · rename_i hb; subst hb; exact .simple (c := 114) (by decide) h
  split
  · rename_i hb; subst hb; exact .simple (c := 110) (by decide) h
  split
  · rename_i hb; subst hb; exact .simple (c := 92) (by decide) h
  split
  · rename_i hb; subst hb; exact .simple (c := 39) (by decide) h
  split
  · rename_i hb; subst hb; exact .simple (c := 34) (by decide) h
  split
  · exact printable_raw ‹_› ‹_› ‹_› ‹_› h
  · obtain ⟨h1, h2⟩ := octal3_spec b
    have hn := numeral_of (r := 8) (ds := octal3 b) (by simp [octal3]) h1
    have := StrBody.oct (q := q) hn (.inl rfl) (by rw [h2]; exact b.toNat_lt) h
    rw [h2, UInt8.ofNat_toNat] at this
    exact this

theorem escapeDefault_body {q b : UInt8} {r v} (h : StrBody q r v) : StrBody q (escapeDefault b ++ r) (b :: v) := by
  unfold escapeDefault
  split
  · rename_i hb; subst hb; exact .simple (c := 116) (by decide) h
  split
  · rename_i hb; subst hb; exact .simple (c := 114) (by decide) h
  split
  · rename_i hb; subst hb; exact .simple (c := 110) (by decide) h
  split
  · rename_i hb; subst hb; exact .simple (c := 39) (by decide) h
  split
  · rename_i hb; subst hb; exact .simple (c := 34) (by decide) h
  split
  · rename_i hb; subst hb; exact .simple (c := 92) (by decide) h
  split
  · exact printable_raw ‹_› ‹_› ‹_› ‹_› h
  · obtain ⟨h1, h2⟩ := hex2_spec b
    have hn := numeral_of (r := 16) (ds := hex2 b) (by simp [hex2]) h1
    have := StrBody.hex (q := q) (x := 120) (.inl rfl) hn (.inl rfl) h
    rw [h2, UInt8.ofNat_toNat] at this
    exact this

theorem flatMap_body {q : UInt8} {e : UInt8 → Bytes}
    (he : ∀ {b r v}, StrBody q r v → StrBody q (e b ++ r) (b :: v)) (v : Bytes) : StrBody q (v.flatMap e) v := by
  induction v with
  | nil => exact .nil
  | cons b v ih => rw [List.flatMap_cons]; exact he ih

/-- What `Display for String` prints stands, between quotes, for the bytes it was printed from. -/
theorem strDisplay_body (q : UInt8) (s : Str) : StrBody q s.display s.value := flatMap_body escapeByte_body _

theorem tokenDisplay_body (q : UInt8) (v : Bytes) : StrBody q (v.flatMap escapeDefault) v := flatMap_body escapeDefault_body _

/-- Both kinds of escapes are printable ASCII. -/
theorem escapeByte_ascii : ∀ b : UInt8, ∀ c ∈ escapeByte b, 0x20 ≤ c ∧ c ≤ 0x7e := by
  apply forall_u8
  decide +kernel

theorem escapeDefault_ascii : ∀ b : UInt8, ∀ c ∈ escapeDefault b, 0x20 ≤ c ∧ c ≤ 0x7e := by
  apply forall_u8
  decide +kernel

/-! ## Tokens -/

theorem decimal_numeral (n : Nat) : Numeral 10 (decimal n) n := by
  induction n using decimal.induct with
  | case1 n h =>
    unfold decimal
    rw [if_pos h]
    have := Gen.decimal_digit n h
    refine .one ?_ h
    rw [digitOf_hex (isHex_of_digit this.1)]
    unfold digitVal
    rw [if_pos, this.2]
    have h1 := this.1
    simp only [isDigit, Bool.and_eq_true, decide_eq_true_eq] at h1
    exact h1.2
  | case2 n h ih =>
    unfold decimal
    rw [if_neg h]
    have := Gen.decimal_digit (n % 10) (Nat.mod_lt _ (by omega))
    have e : 10 * (n / 10) + n % 10 = n := Nat.div_add_mod n 10
    have h2 := Numeral.snoc (b := UInt8.ofNat (48 + n % 10)) (d := n % 10) ih (by
      rw [digitOf_hex (isHex_of_digit this.1)]
      unfold digitVal
      rw [if_pos, this.2]
      have h1 := this.1
      simp only [isDigit, Bool.and_eq_true, decide_eq_true_eq] at h1
      exact h1.2) (Nat.mod_lt _ (by omega))
    rwa [e] at h2

theorem decimal_literal (n : Nat) : IntLiteral (decimal n) n := by
  by_cases h : (decimal n).head? = some 48
  · have h0 := Gen.decimal_head n h
    subst h0
    have : decimal 0 = [48] := by unfold decimal; rfl
    rw [this]; exact .zero
  · exact .decimal (decimal_numeral n) h

theorem display_lexeme [FloatFmt] {t : Token} (hg : TokGood t) (ht : t.isTrivia = false) (hp : Printable t) :
    Lexeme false t.display (reprint t) := by
  cases t with
  | ident s => exact .ident hg
  | int n => exact .int (decimal_literal n) hg
  | float t => exact .float hp
  | string v => exact .string (.inl rfl) (tokenDisplay_body _ _)
  | dot => exact .dot
  | minus => exact .minus
  | plus => exact .plus
  | leftParen => exact .leftParen
  | rightParen => exact .rightParen
  | leftBrace => exact .leftBrace
  | rightBrace => exact .rightBrace
  | leftBracket => exact .leftBracket
  | rightBracket => exact .rightBracket
  | leftAngle => exact .leftAngle
  | rightAngle => exact .rightAngle
  | comma => exact .comma
  | equals => exact .equals
  | colon => exact .colon
  | semicolon => exact .semicolon
  | slash => exact .slash
  | lineComment => cases ht
  | blockComment => cases ht
  | newline => cases ht

theorem reprint_trivia [FloatFmt] (t : Token) : (reprint t).isTrivia = t.isTrivia := by cases t <;> rfl

theorem lexeme_head {tf text t} (h : Lexeme tf text t) : ∃ b r, text = b :: r ∧ isSkip b = false := by
  have := lexToken_of h 0 [] [] (ends_nil _ _)
  rw [List.append_nil] at this
  cases text with
  | nil => cases this
  | cons b r =>
    refine ⟨b, r, rfl, ?_⟩
    cases hb : isSkip b with
    | false => rfl
    | true =>
      simp only [isSkip, Bool.or_eq_true, beq_iff_eq] at hb
      rcases hb with (((rfl | rfl) | rfl) | rfl) | rfl <;> cases this

/-- A text that stands for a token, after blanks, is the next token. -/
theorem next_of {tf lead text t r} (hl : Blank lead) (h : Lexeme tf text t) (hr : Ends text t r) (pos errs) :
    next tf pos (lead ++ (text ++ r)) errs =
      ⟨.tok t, ⟨pos + lead.length, pos + lead.length + text.length⟩, r, errs⟩ := by
  have hlex := lexToken_of h (pos + lead.length) r errs hr
  obtain ⟨b, x, rfl, hb⟩ := lexeme_head h
  have hs : startsWith isSkip (b :: x ++ r) = false := hb
  obtain ⟨h1, h2⟩ := tw_append (p := isSkip) (s := lead) (fun c hc => by
    rcases hl c hc with rfl | rfl | rfl | rfl | rfl <;> rfl) hs
  unfold next
  simp only [h1, h2]
  rw [List.cons_append] at hlex ⊢
  simp only [hlex]
  simp

theorem ends_space {t : Token} (h : t.isTrivia = false) (text r : Bytes) : Ends text t (32 :: r) := by
  cases t <;> first | trivial | (cases h; done) | (intro b hb; cases hb; decide)

/-- Texts of tokens separated by spaces are lexed as these tokens. -/
theorem rawToks_join : ∀ (xs : List (Bytes × Token)) (pos : Nat) (lead : Bytes), Blank lead →
    (∀ x ∈ xs, Lexeme false x.1 x.2 ∧ x.2.isTrivia = false) →
    (rawToks pos (lead ++ joinWith 32 (xs.map (·.1)))).map (·.1) = xs.map (fun x => some x.2) ∧
    lexClean pos (lead ++ joinWith 32 (xs.map (·.1))) = true := by
  intro xs
  induction xs with
  | nil =>
    intro pos lead hl _
    have h1 : (lead ++ []).dropWhile isSkip = [] := by
      have := (tw_append (p := isSkip) (s := lead) (r := []) (fun c hc => by
        rcases hl c hc with rfl | rfl | rfl | rfl | rfl <;> rfl) rfl).2
      exact this
    have hn : (next false pos (lead ++ []) []).res = .eof ∧ (next false pos (lead ++ []) []).errs = [] := by
      unfold next; simp only [h1]; exact ⟨trivial, trivial⟩
    constructor
    · show (rawToks pos (lead ++ [])).map _ = []
      rw [rawToks_unfold, hn.1]; rfl
    · show lexClean pos (lead ++ []) = true
      rw [lexClean_unfold, hn.1, hn.2]; rfl
  | cons x xs ih =>
    intro pos lead hl h
    obtain ⟨hx, htr⟩ := h x (by simp)
    have key : ∀ r, joinWith 32 ((x :: xs).map (·.1)) = x.1 ++ r → Ends x.1 x.2 r →
        (∀ p, (rawToks p r).map (·.1) = xs.map (fun x => some x.2) ∧ lexClean p r = true) →
        (rawToks pos (lead ++ joinWith 32 ((x :: xs).map (·.1)))).map (·.1) = (x :: xs).map (fun x => some x.2) ∧
        lexClean pos (lead ++ joinWith 32 ((x :: xs).map (·.1))) = true := by
      intro r e he hr
      rw [e, rawToks_unfold, lexClean_unfold, next_of hl hx he]
      simp only [List.map_cons, decide_true, Bool.true_and]
      exact ⟨by rw [(hr _).1], (hr _).2⟩
    cases xs with
    | nil =>
      refine key [] (by simp [joinWith]) (ends_nil _ _) fun p => ?_
      exact ih p [] (by intro b hb; cases hb) nofun
    | cons y ys =>
      refine key (32 :: joinWith 32 ((y :: ys).map (·.1))) (by simp [joinWith]) (ends_space htr _ _) fun p => ?_
      exact ih p [32] (by intro b hb; simp at hb; simp [hb]) fun z hz => h z (by simp [hz])

theorem aggText_join [FloatFmt] (ts : List Token) (h : ∀ t ∈ ts, t.display ≠ []) :
    Grammar.aggText ts = joinWith 32 (ts.map Token.display) := by
  have step : ∀ (us : List Token) (acc : Bytes), acc ≠ [] →
      us.foldl (fun text t => (if text = [] then text else text ++ [32]) ++ t.display) acc =
        acc ++ us.flatMap fun t => 32 :: t.display := by
    intro us
    induction us with
    | nil => intro acc _; simp
    | cons u us ih =>
      intro acc hacc
      rw [List.foldl_cons, if_neg hacc, ih _ (by simp [hacc])]
      simp
  have join : ∀ (t : Token) (us : List Token), joinWith 32 ((t :: us).map Token.display) =
      t.display ++ us.flatMap fun t => 32 :: t.display := by
    intro t us
    induction us generalizing t with
    | nil => simp [joinWith]
    | cons u us ih =>
      have := ih u
      simp only [List.map_cons, joinWith, List.flatMap_cons] at this ⊢
      rw [this]; simp
  cases ts with
  | nil => rfl
  | cons t us =>
    rw [join, Grammar.aggText, List.foldl_cons, if_pos rfl, List.nil_append, step _ _ (h t (by simp))]

/-- The text kept for an aggregate lexes back to its tokens. -/
theorem aggText_relex [FloatFmt] {ts : List Token} (hg : ∀ t ∈ ts, TokGood t) (ht : ∀ t ∈ ts, t.isTrivia = false)
    (hp : ∀ t ∈ ts, Printable t) :
    (rawToks 0 (Grammar.aggText ts)).map (·.1) = ts.map (fun t => some (reprint t)) ∧
    lexClean 0 (Grammar.aggText ts) = true := by
  have hlex : ∀ t ∈ ts, Lexeme false t.display (reprint t) := fun t h => display_lexeme (hg t h) (ht t h) (hp t h)
  rw [aggText_join ts fun t h => by
    obtain ⟨b, r, e, _⟩ := lexeme_head (hlex t h)
    rw [e]; simp]
  have := rawToks_join (ts.map fun t => (t.display, reprint t)) 0 [] (by intro b hb; cases hb) (by
    intro x hx
    obtain ⟨t, h, rfl⟩ := List.mem_map.1 hx
    exact ⟨hlex t h, by rw [reprint_trivia, ht t h]⟩)
  simpa [Function.comp_def] using this

end Verif.Lex
