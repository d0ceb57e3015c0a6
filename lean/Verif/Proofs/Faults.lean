import Verif.Spec.Faults
import Verif.Proofs.Explains
import Verif.Proofs.Lexeme2
import Verif.Proofs.LexText
/-! The diagnostics of the lexer say what is there: strings. -/
namespace Verif
open Verif.Spec Verif.Lex

theorem textOf_at {src s : Bytes} {pos : Nat} (h : s = src.drop pos) (i j : Nat) :
    textOf src ⟨pos + i, pos + j⟩ = (s.drop i).take (j - i) := by
  subst h
  simp only [textOf, List.drop_drop]
  congr 1
  omega

theorem not_escape_none {c : UInt8} (h : charEscape c = none) (b : UInt8) : (c, b) ∉ simpleEscapes := by
  intro hm
  simp only [simpleEscapes, List.mem_cons, Prod.mk.injEq, List.not_mem_nil, or_false] at hm
  rcases hm with ⟨rfl, _⟩ | ⟨rfl, _⟩ | ⟨rfl, _⟩ | ⟨rfl, _⟩ | ⟨rfl, _⟩ | ⟨rfl, _⟩ | ⟨rfl, _⟩ | ⟨rfl, _⟩ | ⟨rfl, _⟩ | ⟨rfl, _⟩ | ⟨rfl, _⟩ <;>
    cases h

theorem take_errLen {b : UInt8} {r : Bytes} : (b :: r).take (errLen (b :: r)) = b :: r.takeWhile isCont := by
  rw [errLen, Nat.add_comm, List.take_succ_cons, take_takeWhile]

theorem split_errLen {b : UInt8} {r : Bytes} : b :: r = b :: r.takeWhile isCont ++ r.dropWhile isCont := by
  simp

theorem conts {r : Bytes} : ∀ c ∈ r.takeWhile isCont, isCont c = true := fun c h => takeWhile_all (p := isCont) c h

/-- An unmatched piece of a string is the end of a line or a bad piece. -/
theorem strComp_bad {s : Bytes} {len : Nat} (hs : s ≠ []) (h : strComp s = (.error, len)) :
    (∃ cs, s.take len = 10 :: cs ∧ ∀ c ∈ cs, isCont c = true) ∨ (10 ∉ s.take len ∧ BadPiece s (s.take len)) := by
  have hc10 : ∀ {r : Bytes}, 10 ∉ r.takeWhile isCont := fun hm => by have := conts _ hm; revert this; decide
  cases s with
  | nil => exact absurd rfl hs
  | cons b r =>
    unfold strComp at h
    simp only at h
    split at h
    · cases h
    · rename_i hq
      split at h
      · rename_i hb92
        have := eq_of_beq hb92; subst this
        refine .inr ?_
        cases r with
        | nil =>
          cases h
          refine ⟨by decide, ?_⟩
          exact BadPiece.backslash (cs := []) (r := []) nofun (by intro h; cases h)
        | cons c r' =>
          simp only at h
          split at h
          · cases h
          · rename_i hx
            split at h
            · rename_i ho
              simp only [Prod.mk.injEq] at h
              obtain ⟨h1, rfl⟩ := h
              split at h1
              · cases h1
              · rename_i hlt
                have hne : ((c :: r').take 3).takeWhile isOctDigit ≠ [] := by simp [ho]
                have hnum : Numeral 8 (((c :: r').take 3).takeWhile isOctDigit) _ := numeral_of hne fun b hb =>
                  ⟨isHex_of_digit (isDigit_of_oct (takeWhile_all (p := isOctDigit) b hb)),
                    (isOct_iff (isDigit_of_oct (takeWhile_all b hb))).1 (takeWhile_all b hb)⟩
                have hn10 : 10 ∉ ((c :: r').take 3).takeWhile isOctDigit := fun hm => by
                  have := takeWhile_all (p := isOctDigit) _ hm; revert this; decide
                rw [Nat.add_comm 1, List.take_succ_cons, take_greedy]
                refine ⟨by simpa using hn10, ?_⟩
                have hlen : (((c :: r').take 3).takeWhile isOctDigit).length = 3 := by
                  have h3 := greedy_len (p := isOctDigit) (k := 3) (s := c :: r')
                  generalize ((c :: r').take 3).takeWhile isOctDigit = ds at *
                  have hd : ∀ b ∈ ds, digitVal b < 8 := fun b hb => ((numeral_val hnum).2.1 b hb).2
                  match ds, hne, h3, hd with
                  | [a], _, _, hd =>
                    have := hd a (by simp)
                    simp [digitsVal] at hlt; omega
                  | [a, a'], _, _, hd =>
                    have := hd a (by simp)
                    have := hd a' (by simp)
                    simp [digitsVal] at hlt; omega
                  | [_, _, _], _, _, _ => rfl
                  | _ :: _ :: _ :: _ :: _, _, h3, _ => simp at h3
                have e : (92 : UInt8) :: c :: r' = 92 :: ((c :: r').take 3).takeWhile isOctDigit ++
                    (c :: r').drop (((c :: r').take 3).takeWhile isOctDigit).length := by
                  have := List.take_append_drop (((c :: r').take 3).takeWhile isOctDigit).length (c :: r')
                  rw [take_greedy] at this
                  simp only [List.cons_append]
                  rw [this]
                rw [e]
                exact .octal hnum hlen (by omega)
            · rename_i ho
              have uni : ∀ {k : Nat} {u : UInt8}, (u = 117 ∧ k = 4 ∨ u = 85 ∧ k = 8) → (r'.take k).length = k →
                  (r'.take k).all isHexDigit = true → unicodeEscape (r'.take k) = .error →
                  10 ∉ ((92 : UInt8) :: u :: r').take (k + 2) ∧ BadPiece (92 :: u :: r') (((92 : UInt8) :: u :: r').take (k + 2)) := by
                intro k u hk hl hall hu
                rw [List.all_eq_true] at hall
                have hne : r'.take k ≠ [] := by
                  intro h0; rw [h0] at hl; simp at hl; omega
                have hnum : Numeral 16 (r'.take k) _ := numeral_of hne fun b hb => ⟨hall b hb, digitVal_hex (hall b hb)⟩
                rw [List.take_succ_cons, List.take_succ_cons]
                constructor
                · intro hm
                  simp only [List.mem_cons] at hm
                  rcases hm with hm | hm | hm
                  · cases hm
                  · rcases hk with ⟨rfl, _⟩ | ⟨rfl, _⟩ <;> cases hm
                  · have := hall _ hm; revert this; decide
                · have e : (92 : UInt8) :: u :: r' = 92 :: u :: r'.take k ++ r'.drop k := by simp
                  rw [e]
                  refine .unicode ?_ hnum ?_
                  · rw [hl]; exact hk
                  · unfold unicodeEscape at hu
                    split at hu
                    · cases hu
                    · rename_i hsc
                      intro hS
                      apply hsc
                      simp only [isScalar, Bool.or_eq_true, Bool.and_eq_true, decide_eq_true_eq]
                      rcases hS with h | ⟨h, h'⟩
                      · exact .inl h
                      · exact .inr ⟨h, h'⟩
              split at h
              · rename_i hu
                simp only [Bool.and_eq_true, beq_iff_eq, decide_eq_true_eq] at hu
                simp only [Prod.mk.injEq] at h
                obtain ⟨h1, rfl⟩ := h
                rw [hu.1.1]
                exact uni (k := 4) (.inl ⟨rfl, rfl⟩) hu.1.2 hu.2 h1
              · rename_i hu4
                split at h
                · rename_i hu
                  simp only [Bool.and_eq_true, beq_iff_eq, decide_eq_true_eq] at hu
                  simp only [Prod.mk.injEq] at h
                  obtain ⟨h1, rfl⟩ := h
                  rw [hu.1.1]
                  exact uni (k := 8) (.inr ⟨rfl, rfl⟩) hu.1.2 hu.2 h1
                · rename_i hu8
                  split at h
                  · cases h
                  · rename_i hce
                    cases h
                    rw [take_errLen]
                    refine ⟨by simpa using hc10, ?_⟩
                    have hno : ¬ EscapeForm (92 :: c :: r') := by
                      intro hE
                      generalize hs' : (92 : UInt8) :: c :: r' = s' at hE
                      cases hE with
                      | simple hm => cases hs'; exact not_escape_none hce _ hm
                      | hex hx' hd =>
                        cases hs'
                        apply hx
                        rename_i b0 _
                        cases hb0 : digitOf b0 with
                        | none => exact absurd hb0 hd
                        | some d =>
                          have := isHex_of_digitOf hb0
                          rcases hx' with rfl | rfl <;> simp [startsWith, this]
                      | oct hd hlt => cases hs'; exact ho (oct_of_digitOf _ _ hd hlt)
                      | unicode4 hn hl =>
                        simp only [List.cons_append, List.cons.injEq, true_and] at hs'
                        obtain ⟨rfl, rfl⟩ := hs'
                        apply hu4
                        rw [take_prefix 4 hl.symm]
                        simp only [beq_self_eq_true, Bool.true_and, Bool.and_eq_true, decide_eq_true_eq, List.all_eq_true]
                        exact ⟨hl, fun b hb => ((numeral_val hn).2.1 b hb).1⟩
                      | unicode8 hn hl =>
                        simp only [List.cons_append, List.cons.injEq, true_and] at hs'
                        obtain ⟨rfl, rfl⟩ := hs'
                        apply hu8
                        rw [take_prefix 8 hl.symm]
                        simp only [beq_self_eq_true, Bool.true_and, Bool.and_eq_true, decide_eq_true_eq, List.all_eq_true]
                        exact ⟨hl, fun b hb => ((numeral_val hn).2.1 b hb).1⟩
                    have e := split_errLen (b := 92) (r := c :: r')
                    rw [e] at hno ⊢
                    rw [← e]
                    have e' : (c :: r').takeWhile isCont = (c :: r').takeWhile isCont := rfl
                    exact e ▸ BadPiece.backslash conts hno
      · rename_i hb92
        split at h
        · cases h
        · rename_i hpl
          cases h
          rw [take_errLen]
          have : b = 0 ∨ b = 10 := by
            simp only [isPlain, Bool.not_eq_true', Bool.not_eq_false, Bool.or_eq_true, beq_iff_eq] at hpl hq hb92
            rcases hpl with (((h | h) | h) | h) | h
            · exact .inl h
            · exact .inr h
            · exact absurd h hb92
            · exact absurd (.inl h) hq
            · exact absurd (.inr h) hq
          rcases this with rfl | rfl
          · refine .inr ⟨by simpa using hc10, ?_⟩
            have e := split_errLen (b := 0) (r := r)
            exact e ▸ BadPiece.nul conts
          · exact .inl ⟨_, rfl, conts⟩

/-- The other pieces have no end of a line in them. -/
theorem strComp_ok {s : Bytes} {c : Comp} {len : Nat} (hs : s ≠ []) (h : strComp s = (c, len)) (hc : c ≠ .error) :
    10 ∉ s.take len := by
  cases s with
  | nil => exact absurd rfl hs
  | cons b r =>
    unfold strComp at h
    simp only at h
    split at h
    · rename_i hq
      cases h
      simp only [Bool.or_eq_true, beq_iff_eq] at hq
      rcases hq with rfl | rfl <;> simp
    · split at h
      · rename_i hb92
        have := eq_of_beq hb92; subst this
        cases r with
        | nil => cases h; exact absurd rfl hc
        | cons c' r' =>
          simp only at h
          split at h
          · rename_i hx
            cases h
            simp only [Bool.and_eq_true, Bool.or_eq_true, beq_iff_eq] at hx
            rw [Nat.add_comm 2, List.take_succ_cons, List.take_succ_cons, take_greedy]
            intro hm
            simp only [List.mem_cons] at hm
            rcases hm with hm | hm | hm
            · cases hm
            · rcases hx.1 with h | h <;> rw [h] at hm <;> cases hm
            · have := takeWhile_all (p := isHexDigit) _ hm; revert this; decide
          · split at h
            · simp only [Prod.mk.injEq] at h
              obtain ⟨_, rfl⟩ := h
              rw [Nat.add_comm 1, List.take_succ_cons, take_greedy]
              intro hm
              simp only [List.mem_cons] at hm
              rcases hm with hm | hm
              · cases hm
              · have := takeWhile_all (p := isOctDigit) _ hm; revert this; decide
            · have uni : ∀ {k : Nat}, c' = 117 ∨ c' = 85 → (r'.take k).all isHexDigit = true → 
                  10 ∉ ((92 : UInt8) :: c' :: r').take (k + 2) := by
                intro k hk hall
                rw [List.all_eq_true] at hall
                rw [List.take_succ_cons, List.take_succ_cons]
                intro hm
                simp only [List.mem_cons] at hm
                rcases hm with hm | hm | hm
                · cases hm
                · rcases hk with rfl | rfl <;> cases hm
                · have := hall _ hm; revert this; decide
              split at h
              · rename_i hu
                simp only [Bool.and_eq_true, beq_iff_eq, decide_eq_true_eq] at hu
                simp only [Prod.mk.injEq] at h
                obtain ⟨_, rfl⟩ := h
                exact uni (k := 4) (.inl hu.1.1) hu.2
              · split at h
                · rename_i hu
                  simp only [Bool.and_eq_true, beq_iff_eq, decide_eq_true_eq] at hu
                  simp only [Prod.mk.injEq] at h
                  obtain ⟨_, rfl⟩ := h
                  exact uni (k := 8) (.inr hu.1.1) hu.2
                · split at h
                  · rename_i v hce
                    cases h
                    rw [List.take_succ_cons, List.take_succ_cons]
                    intro hm
                    simp only [List.take_zero, List.mem_cons, List.not_mem_nil, or_false] at hm
                    rcases hm with hm | hm
                    · cases hm
                    · subst hm; cases hce
                  · cases h; exact absurd rfl hc
      · split at h
        · cases h
          rw [take_takeWhile]
          intro hm
          have := takeWhile_all (p := isPlain) _ hm; revert this; decide
        · cases h; exact absurd rfl hc

theorem badPiece_head {s t : Bytes} (h : BadPiece s t) : t.head? = some 0 ∨ t.head? = some 92 := by
  cases h with
  | nul => exact .inl rfl
  | backslash | octal | unicode => exact .inr rfl

theorem badPiece_first {s t : Bytes} (h : BadPiece s t) : s.head? = t.head? := by
  cases h <;> rfl

/-- An error of a string that was recorded. -/
inductive StrOk (src : Bytes) (start pos : Nat) : ParseErrorKind → Prop where
  | char {a b} : start < a → b ≤ pos → BadRun src a b → (src.drop a).head? = some 0 → StrOk src start pos (.invalidStringCharacters ⟨a, b⟩)
  | escape {a b} : start < a → b ≤ pos → BadRun src a b → (src.drop a).head? = some 92 → StrOk src start pos (.invalidStringEscape ⟨a, b⟩)

theorem StrOk.mono {src : Bytes} {start p p' : Nat} {k : ParseErrorKind} (h : StrOk src start p k) (hp : p ≤ p') : StrOk src start p' k := by
  cases h with
  | char h1 h2 h3 h4 => exact .char h1 (by omega) h3 h4
  | escape h1 h2 h3 h4 => exact .escape h1 (by omega) h3 h4

/-- The errors from before end before the string. -/
def Before (start : Nat) (errs : List ParseErrorKind) : Prop :=
  ∀ sp, .invalidStringCharacters sp ∈ errs ∨ .invalidStringEscape sp ∈ errs → sp.stop ≤ start

theorem strError_str {src : Bytes} {start pos : Nat} {sl : Bytes} {errs new : List ParseErrorKind} (hb : Before start errs)
    (hn : ∀ k ∈ new, StrOk src start pos k) (hpos : start < pos) (hp : BadPiece (src.drop pos) sl) :
    ∃ new', strError sl ⟨pos, pos + sl.length⟩ (errs ++ new) = errs ++ new' ∧ ∀ k ∈ new', StrOk src start (pos + sl.length) k := by
  have hfirst := badPiece_first hp
  have hmono : ∀ k ∈ new, StrOk src start (pos + sl.length) k := fun k hk => (hn k hk).mono (by omega)
  have fresh : ∃ new', (if sl.head? = some 92 then (errs ++ new) ++ [ParseErrorKind.invalidStringEscape ⟨pos, pos + sl.length⟩]
      else (errs ++ new) ++ [.invalidStringCharacters ⟨pos, pos + sl.length⟩]) = errs ++ new' ∧
      ∀ k ∈ new', StrOk src start (pos + sl.length) k := by
    split
    · rename_i h92
      refine ⟨new ++ [.invalidStringEscape ⟨pos, pos + sl.length⟩], by simp, fun k hk => ?_⟩
      rcases List.mem_append.1 hk with hk | hk
      · exact hmono k hk
      · rw [List.mem_singleton.1 hk]; exact .escape hpos (Nat.le_refl _) (.one hp) (hfirst.trans h92)
    · rename_i h92
      refine ⟨new ++ [.invalidStringCharacters ⟨pos, pos + sl.length⟩], by simp, fun k hk => ?_⟩
      rcases List.mem_append.1 hk with hk | hk
      · exact hmono k hk
      · rw [List.mem_singleton.1 hk]
        exact .char hpos (Nat.le_refl _) (.one hp) (hfirst.trans ((badPiece_head hp).resolve_right h92))
  have last : ∀ k, (errs ++ new).getLast? = some k → (∃ l, new = l ++ [k]) ∨ k ∈ errs := by
    intro k hk
    rcases List.eq_nil_or_concat new with rfl | ⟨l, x, rfl⟩
    · right
      rw [List.append_nil] at hk
      exact List.mem_of_getLast? hk
    · left
      refine ⟨l, ?_⟩
      rw [List.concat_eq_append] at hk ⊢
      rw [← List.append_assoc, List.getLast?_append] at hk
      simp at hk
      rw [hk]
  unfold strError
  simp only
  split
  · rename_i e hl
    split
    · rename_i he
      rcases last _ hl with ⟨l, rfl⟩ | hm
      · refine ⟨l ++ [.invalidStringCharacters ⟨e.start, pos + sl.length⟩], by rw [← List.append_assoc, List.dropLast_concat, List.append_assoc], fun k hk => ?_⟩
        rcases List.mem_append.1 hk with hk | hk
        · exact hmono k (by simp [hk])
        · rw [List.mem_singleton.1 hk]
          have h0 := hn (.invalidStringCharacters e) (by simp)
          cases h0 with
          | char h1 h2 h3 h4 =>
            subst he
            exact .char h1 (Nat.le_refl _) (.more h3 hp) h4
      · have := hb e (.inl hm)
        omega
    · exact fresh
  · rename_i e hl
    split
    · rename_i he
      rcases last _ hl with ⟨l, rfl⟩ | hm
      · refine ⟨l ++ [.invalidStringEscape ⟨e.start, pos + sl.length⟩], by rw [← List.append_assoc, List.dropLast_concat, List.append_assoc], fun k hk => ?_⟩
        rcases List.mem_append.1 hk with hk | hk
        · exact hmono k (by simp [hk])
        · rw [List.mem_singleton.1 hk]
          have h0 := hn (.invalidStringEscape e) (by simp)
          cases h0 with
          | escape h1 h2 h3 h4 =>
            subst he
            exact .escape h1 (Nat.le_refl _) (.more h3 hp) h4
      · have := hb e (.inr hm)
        omega
    · exact fresh
  · exact fresh

/-- An error of a string, at its end. -/
inductive StrEnd (src : Bytes) (start stop : Nat) : ParseErrorKind → Prop where
  | ok {k} : StrOk src start stop k → StrEnd src start stop k
  | line {a cs} : start < a → 10 ∉ textOf src ⟨start, a⟩ → textOf src ⟨a, stop⟩ = 10 :: cs → (∀ c ∈ cs, isCont c = true) →
      StrEnd src start stop (.unterminatedString ⟨a, stop⟩)
  | eof : stop = src.length → 10 ∉ textOf src ⟨start, stop⟩ → StrEnd src start stop (.unexpectedEof (.text b!"string terminator"))

theorem textOf_split {src : Bytes} {a b c : Nat} (h1 : a ≤ b) (h2 : b ≤ c) :
    textOf src ⟨a, c⟩ = textOf src ⟨a, b⟩ ++ textOf src ⟨b, c⟩ := by
  simp only [textOf]
  have e1 : c - a = (b - a) + (c - b) := by omega
  have e2 : src.drop b = (src.drop a).drop (b - a) := by rw [List.drop_drop]; congr 1; omega
  rw [e1, e2, List.take_add]

theorem strLoop_faults (q : UInt8) (src : Bytes) (start : Nat) (errs : List ParseErrorKind) (hb : Before start errs) :
    ∀ (fuel pos : Nat) (s : Bytes) (n : Nat) (acc : Bytes) (new : List ParseErrorKind), s = src.drop pos → pos = start + 1 + n →
      pos ≤ src.length → 10 ∉ textOf src ⟨start, pos⟩ → (∀ k ∈ new, StrOk src start pos k) →
      ∃ new', (strLoop q fuel pos s n acc (errs ++ new)).2.2 = errs ++ new' ∧
        ∀ k ∈ new', StrEnd src start (start + 1 + (strLoop q fuel pos s n acc (errs ++ new)).2.1) k := by
  intro fuel
  induction fuel with
  | zero =>
    intro pos s n acc new hs hp hl h10 hn
    exact ⟨new, rfl, fun k hk => .ok (hp ▸ hn k hk)⟩
  | succ fuel ih =>
    intro pos s n acc new hs hp hl h10 hn
    cases s with
    | nil =>
      have hlen : src.length ≤ pos := List.drop_eq_nil_iff.1 hs.symm
      refine ⟨new ++ [.unexpectedEof (.text b!"string terminator")], by simp [strLoop], fun k hk => ?_⟩
      have e : start + 1 + (strLoop q (fuel + 1) pos [] n acc (errs ++ new)).2.1 = pos := hp.symm
      rw [e]
      rcases List.mem_append.1 hk with hk | hk
      · exact .ok (hn k hk)
      · rw [List.mem_singleton.1 hk]; exact .eof (by omega) h10
    | cons b r =>
      have hbd := strComp_len (b :: r) (by simp)
      have hne : b :: r ≠ [] := by simp
      have hlen : pos + (b :: r).length = src.length := by rw [hs, List.length_drop]; omega
      have next : ∀ {len : Nat}, 1 ≤ len → len ≤ (b :: r).length → 10 ∉ (b :: r).take len →
          (b :: r).drop len = src.drop (pos + len) ∧ pos + len = start + 1 + (n + len) ∧ pos + len ≤ src.length ∧
          10 ∉ textOf src ⟨start, pos + len⟩ := by
        intro len h1 h2 h3
        refine ⟨by rw [hs, List.drop_drop], by omega, by omega, ?_⟩
        rw [textOf_split (b := pos) (by omega) (by omega), List.mem_append]
        intro hm
        refine hm.elim h10 fun hm => h3 ?_
        have := textOf_at hs 0 len
        rw [Nat.add_zero] at this
        rwa [this] at hm
      have mono : ∀ {len : Nat}, ∀ k ∈ new, StrOk src start (pos + len) k := fun k hk => (hn k hk).mono (by omega)
      rw [strLoop]
      simp only
      generalize hcomp : strComp (b :: r) = cl at hbd
      obtain ⟨c, len⟩ := cl
      simp only at hbd
      cases c with
      | unescaped t =>
        obtain ⟨n1, n2, n3, n4⟩ := next hbd.1 hbd.2 (strComp_ok hne hcomp (by simp))
        exact ih _ _ _ _ _ n1 n2 n3 n4 mono
      | terminator t =>
        obtain ⟨n1, n2, n3, n4⟩ := next hbd.1 hbd.2 (strComp_ok hne hcomp (by simp))
        simp only
        split
        · exact ⟨new, rfl, fun k hk => .ok (n2 ▸ mono k hk)⟩
        · exact ih _ _ _ _ _ n1 n2 n3 n4 mono
      | byte t =>
        obtain ⟨n1, n2, n3, n4⟩ := next hbd.1 hbd.2 (strComp_ok hne hcomp (by simp))
        exact ih _ _ _ _ _ n1 n2 n3 n4 mono
      | char t =>
        obtain ⟨n1, n2, n3, n4⟩ := next hbd.1 hbd.2 (strComp_ok hne hcomp (by simp))
        exact ih _ _ _ _ _ n1 n2 n3 n4 mono
      | error =>
        simp only
        rcases strComp_bad hne hcomp with ⟨cs, h1, h2⟩ | ⟨h1, h2⟩
        · have h10' : ((b :: r).take len).contains 10 = true := by rw [h1]; simp
          rw [if_pos h10']
          refine ⟨new ++ [.unterminatedString ⟨pos, pos + len⟩], by simp, fun k hk => ?_⟩
          have e : start + 1 + (n + len) = pos + len := by omega
          simp only [e]
          rcases List.mem_append.1 hk with hk | hk
          · exact .ok (mono k hk)
          · rw [List.mem_singleton.1 hk]
            refine .line (by omega) h10 ?_ h2
            have := textOf_at hs 0 len
            rw [Nat.add_zero] at this
            rw [this]
            exact h1
        · have h10' : ¬ ((b :: r).take len).contains 10 = true := by simpa using h1
          rw [if_neg h10']
          obtain ⟨n1, n2, n3, n4⟩ := next hbd.1 hbd.2 h1
          have htl : ((b :: r).take len).length = len := List.length_take_of_le hbd.2
          obtain ⟨new', e, h3⟩ := strError_str (src := src) (pos := pos) (sl := (b :: r).take len) hb hn (by omega) (hs ▸ h2)
          rw [htl] at e h3
          rw [e]
          exact ih _ _ _ _ _ n1 n2 n3 n4 h3

end Verif
