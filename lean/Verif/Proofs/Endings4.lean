import Verif.Proofs.Endings3
/-! One token with different line endings. -/
namespace Verif.Endings
open Verif.Spec Verif.Lex

theorem lineOf_len (s : Bytes) : (lineOf s).length = (s.takeWhile (· != 10)).length +
    match s.dropWhile (· != 10) with | _ :: _ => 1 | [] => 0 := by
  induction s with
  | nil => rfl
  | cons b s ih =>
    unfold lineOf
    by_cases hb : b = 10
    · subst hb; rfl
    · rw [if_neg hb, List.takeWhile_cons_of_pos (by simpa using hb), List.dropWhile_cons_of_pos (by simpa using hb), List.length_cons, ih,
        List.length_cons, Nat.add_right_comm]

theorem line_value (tf pos pre hash s errs) : tl (lineComment tf pos pre hash s errs) =
    (.lineComment (normalizeNewlines (lineOf (s.drop pre))), pre + (lineOf (s.drop pre)).length) := by
  rw [tl_line]
  dsimp only
  rw [Nat.add_assoc]
  exact Prod.ext (congrArg (fun z => Token.lineComment (normalizeNewlines z)) (lineOf_take _).symm) (congrArg (pre + ·) (lineOf_len _).symm)

/-- A line comment after the beginning `a`. -/
theorem line_go {tf pos pos'} {hash : Bool} {a s t x y : Bytes} (h : (lineComment tf pos a.length hash (a ++ s) []).2.2 = []) (h0 : E0 x y)
    (hE : E false s t) : ∃ c n n', lineComment tf pos a.length hash (a ++ s) [] = (.lineComment c, n, []) ∧
      lineComment tf pos' a.length hash (a ++ t) [] = (.lineComment c, n', []) ∧
      K (x ++ (a ++ s).take n) (y ++ (a ++ t).take n') ((a ++ s).drop n) ((a ++ t).drop n') := by
  have h' : (lineComment tf pos' a.length hash (a ++ t) []).2.2 = [] := by
    rw [lineComment_errs] at h ⊢
    exact h
  have v1 := line_value tf pos a.length hash (a ++ s) []
  have v2 := line_value tf pos' a.length hash (a ++ t) []
  rw [List.drop_left] at v1 v2
  obtain ⟨l1, l2⟩ := hE.lines
  refine ⟨normalizeNewlines (lineOf s), a.length + (lineOf s).length, a.length + (lineOf t).length, ?_, ?_, ?_⟩
  · rcases hx : lineComment tf pos a.length hash (a ++ s) [] with ⟨o, k, es⟩
    rw [hx] at h v1
    cases h
    cases v1
    rfl
  · rcases hx : lineComment tf pos' a.length hash (a ++ t) [] with ⟨o, k, es⟩
    rw [hx] at h' v2
    cases h'
    cases v2
    rw [← l1.normalize]
    rfl
  · have hd : ∀ s : Bytes, (a ++ s).take (a.length + (lineOf s).length) = a ++ lineOf s ∧ (a ++ s).drop (a.length + (lineOf s).length) = afterLine s := by
      intro s
      have := line_split s
      generalize lineOf s = l at *
      generalize afterLine s = m at *
      subst this
      rw [← List.append_assoc, ← List.length_append]
      exact ⟨List.take_left .., List.drop_left ..⟩
    rw [(hd s).1, (hd s).2, (hd t).1, (hd t).2]
    exact .same (h0.app ((E0.refl a).app l1.any)) l2

theorem numeral_no {r ds n} (hr : r ≤ 16) (h : Numeral r ds n) : 10 ∉ ds := by
  have no : ∀ {b d}, digitOf b = some d → b ≠ 10 := by
    rintro b d h rfl
    cases h
  induction h with
  | one h _ => simpa using Ne.symm (no h)
  | snoc _ h _ ih =>
    intro hm
    rcases List.mem_append.1 hm with hm | hm
    · exact ih hm
    · simp at hm
      exact no h hm.symm

theorem string_no {q body v} (h : StrBody q body v) : 10 ∉ body := by
  induction h with
  | nil => nofun
  | raw _ h _ _ _ ih => simp [Ne.symm h, ih]
  | quote h _ _ ih =>
    rcases h with rfl | rfl <;> simp [ih]
  | simple h _ ih =>
    rename_i c b r v _
    have : c ≠ 10 := by
      rintro rfl
      simp [simpleEscapes] at h
    simp [Ne.symm this, ih]
  | hex hx hn _ _ ih =>
    have := numeral_no (by decide) hn
    rcases hx with rfl | rfl <;> simp [this, ih]
  | oct hn _ _ _ ih => simp [numeral_no (by decide) hn, ih]
  | unicode4 hn _ _ ih => simp [numeral_no (by decide) hn, ih]
  | unicode8 hn _ _ ih => simp [numeral_no (by decide) hn, ih]

/-- One token, in one text and in the other. -/
theorem tok_go {tf pos} (pos') {x y s2 t2 : Bytes} {tok n} (h : lexToken tf pos s2 [] = (some tok, n, [])) (hJ : J x y s2 t2) :
    ∃ n', lexToken tf pos' t2 [] = (some tok, n', []) ∧
      K (x ++ s2.take n) (y ++ t2.take n') (s2.drop n) (t2.drop n') ∧
      (tok.isTrivia = false → E0 x y ∧ E0 (x ++ s2.take n) (y ++ t2.take n')) := by
  have hl := lexToken_lexeme h
  have hn : n ≤ s2.length := by
    cases s2 with
    | nil => cases h
    | cons b s =>
      have := ((good_lexToken (b :: s) (by simp)).bounds tf pos []).2
      rw [h] at this
      exact this
  cases hJ with
  | eof h0 => cases h
  | newline h0 hE =>
    cases h
    exact ⟨1, rfl, .same h0 hE, nofun⟩
  | @byte b s t hb1 hb2 h0 hE =>
    have hEs : E false (b :: s) (b :: t) := by
      have := (J.byte hb1 hb2 E0.nil hE).between
      cases this with
      | same _ h => exact h
      | newline h _ _ _ => cases h; exact absurd rfl hb1
    by_cases hq : b = 39 ∨ b = 34
    · have ht : ∃ v, tok = .string v := by
        rcases hq with rfl | rfl
        · have := congrArg (·.1) h
          injection this with this
          exact ⟨_, this.symm⟩
        · have := congrArg (·.1) h
          injection this with this
          exact ⟨_, this.symm⟩
      obtain ⟨v, rfl⟩ := ht
      have hs := List.take_append_drop n (b :: s)
      have hlen : ((b :: s).take n).length = n := by rw [List.length_take]; omega
      generalize (b :: s).take n = text at *
      generalize (b :: s).drop n = r at *
      have htx : 10 ∉ text ∧ text.getLast? ≠ some 13 := by
        generalize hg : Token.string v = tok at hl
        cases hl with
        | string hq' hb =>
          rename_i q body v'
          have := string_no hb
          have hq2 : q ≠ 10 ∧ q ≠ 13 := by rcases hq' with rfl | rfl <;> decide
          refine ⟨by simp [this, Ne.symm hq2.1], ?_⟩
          rw [List.getLast?_append]
          simpa using hq2.2
        | _ => cases hg
      rw [← hs] at hEs
      obtain ⟨r', e, h'⟩ := hEs.front htx.1 htx.2
      refine ⟨text.length, ?_, ?_, ?_⟩
      · rw [e]; exact lexToken_of hl pos' r' [] trivial
      · rw [e, List.take_left, List.drop_left]
        exact .same (h0.app (E0.refl _)) h'
      · intro _
        rw [e, List.take_left]
        exact ⟨h0, h0.app (E0.refl _)⟩
    by_cases hh : b = 35
    · subst hh
      have hx : lexToken tf pos (35 :: s) [] = (some (lineComment tf pos 1 true (35 :: s) []).1, (lineComment tf pos 1 true (35 :: s) []).2) := rfl
      rw [hx] at h
      obtain ⟨c, n1, n2, e1, e2, e3⟩ := line_go (pos' := pos') (hash := true) (a := [35]) (congrArg (·.2.2) h) h0 hE
      simp only [List.length_singleton, List.singleton_append] at e1 e2 e3
      rw [e1] at h
      cases h
      refine ⟨n2, ?_, e3, nofun⟩
      have hx : lexToken tf pos' (35 :: t) [] = (some (lineComment tf pos' 1 true (35 :: t) []).1, (lineComment tf pos' 1 true (35 :: t) []).2) := rfl
      rw [hx, e2]
    by_cases hc : b = 47 ∧ s.head? = some 47
    · obtain ⟨rfl, hc⟩ := hc
      obtain ⟨s', rfl⟩ : ∃ s', s = 47 :: s' := by
        cases s with
        | nil => cases hc
        | cons c s => cases hc; exact ⟨s, rfl⟩
      obtain ⟨t', rfl, hE'⟩ := front_plain (w := [47]) hE (by decide) (by decide)
      have hx : ∀ pos s', lexToken tf pos (47 :: 47 :: s') [] = (some (lineComment tf pos 2 false (47 :: 47 :: s') []).1,
        (lineComment tf pos 2 false (47 :: 47 :: s') []).2) := fun _ _ => rfl
      rw [hx] at h
      obtain ⟨c, n1, n2, e1, e2, e3⟩ := line_go (pos' := pos') (hash := false) (a := [47, 47]) (congrArg (·.2.2) h) h0 hE'
      simp only [List.length_cons, List.length_nil, Nat.zero_add, Nat.reduceAdd, List.cons_append, List.nil_append] at e1 e2 e3
      rw [e1] at h
      cases h
      refine ⟨n2, ?_, e3, nofun⟩
      show lexToken tf pos' (47 :: 47 :: t') [] = _
      rw [hx, e2]
    by_cases hc2 : b = 47 ∧ s.head? = some 42
    · obtain ⟨rfl, hc2⟩ := hc2
      obtain ⟨s', rfl⟩ : ∃ s', s = 42 :: s' := by
        cases s with
        | nil => cases hc2
        | cons c s => cases hc2; exact ⟨s, rfl⟩
      have hx : lexToken tf pos (47 :: 42 :: s') [] = (some (blockComment pos s' []).1, (blockComment pos s' []).2) := rfl
      have ht : ∃ u, tok = .blockComment u := by
        rw [hx] at h
        have := congrArg (·.1) h
        injection this with this
        exact ⟨_, this.symm⟩
      obtain ⟨u, rfl⟩ := ht
      clear hx
      have hs := List.take_append_drop n (47 :: 42 :: s')
      have hlen : ((47 :: 42 :: s').take n).length = n := by rw [List.length_take]; omega
      rw [← hs] at h hEs
      generalize (47 :: 42 :: s').take n = text at *
      generalize (47 :: 42 :: s').drop n = r at *
      have hends := block_ends hl (by rw [h, hlen]; rfl)
      obtain ⟨text', r', e, i1, i2, i3⟩ := block_go hl hends h0 hEs
      refine ⟨text'.length, ?_, ?_, nofun⟩
      · rw [e]; exact lexToken_of i1 pos' r' [] i2
      · rw [e, List.take_left, List.drop_left]; exact i3
    obtain ⟨a, e, e', h1, h2, h3, h4⟩ := hE.line
    have hsim : simple b := ⟨fun h => hq (.inl h), fun h => hq (.inr h), hh⟩
    have hno : NoComment (b :: a) := by
      rintro ⟨g1, g2⟩
      have g1 : b = 47 := by simpa using g1
      have : ∀ c, a.head? = some c → s.head? = some c := by
        intro c hc
        rw [h1]
        cases a with
        | nil => cases hc
        | cons _ _ => exact hc
      rcases g2 with g2 | g2
      · exact hc ⟨g1, this _ g2⟩
      · exact hc2 ⟨g1, this _ g2⟩
    have k1 := lexToken_eol h3 tf pos hsim hno
    have k2 := lexToken_eol h4 tf pos' hsim hno
    rw [List.cons_append, ← h1, h] at k1
    have hna : n ≤ (b :: a).length := by
      have := ((good_lexToken (b :: a) (by simp)).bounds tf pos []).2
      rw [← k1] at this
      exact this
    have k3 := lexToken_go (pos' := pos') (e := []) k1.symm hna (.inl rfl) (.inl rfl)
    rw [List.append_nil] at k3
    rw [List.cons_append, ← h2, k3] at k2
    have s1 : b :: s = b :: a ++ e := by rw [h1]; rfl
    have s2 : b :: t = b :: a ++ e' := by rw [h2]; rfl
    have key : (b :: s).take n = (b :: t).take n ∧ E false ((b :: s).drop n) ((b :: t).drop n) := by
      rw [s1, s2, List.take_append_of_le_length hna, List.take_append_of_le_length hna,
        List.drop_append_of_le_length hna, List.drop_append_of_le_length hna]
      refine ⟨rfl, ?_⟩
      have hE2 := hEs
      rw [s1, s2, ← List.take_append_drop n (b :: a), List.append_assoc, List.append_assoc] at hE2
      exact hE2.drop
    refine ⟨n, k2, ?_, fun _ => ?_⟩
    · rw [key.1]; exact .same (h0.app (E0.refl _)) key.2
    · rw [key.1]; exact ⟨h0, h0.app (E0.refl _)⟩

end Verif.Endings
