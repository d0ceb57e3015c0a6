import Verif.Proofs.Endings2
/-! Block comments with different line endings. -/
namespace Verif.Endings
open Verif.Spec Verif.Lex

theorem ws_kinds : ∀ w ∈ whiteSpace, w = [10] ∨ w = [13] ∨ (w ≠ [] ∧ 10 ∉ w ∧ 13 ∉ w) := by
  simp only [whiteSpace]
  decide +kernel

theorem front_plain {w r t : Bytes} {p} (h : E p (w ++ r) t) (h1 : 10 ∉ w) (h2 : 13 ∉ w) : ∃ r', t = w ++ r' ∧ E false r r' :=
  E.front h h1 (fun h => h2 (List.mem_of_getLast? h))

/-- No white space at the beginning, in either form. -/
theorem no_ws {p r r'} (h : E p r r') (hr : ∀ w ∈ whiteSpace, ¬ w <+: r) : ∀ w ∈ whiteSpace, ¬ w <+: r' := by
  intro w hw hp
  obtain ⟨z, hz⟩ := hp
  have h10 : ([10] : Bytes) ∈ whiteSpace := by decide +kernel
  have h13 : ([13] : Bytes) ∈ whiteSpace := by decide +kernel
  rcases ws_kinds w hw with rfl | rfl | ⟨_, h1, h2⟩
  · subst hz
    cases h with
    | same _ h => exact hr _ h10 ⟨_, rfl⟩
    | left h => exact hr _ h13 ⟨_, rfl⟩
  · subst hz
    cases h with
    | same _ h => exact hr _ h13 ⟨_, rfl⟩
    | right h => exact hr _ h10 ⟨_, rfl⟩
  · subst hz
    obtain ⟨z', e, _⟩ := front_plain h.symm h1 h2
    exact hr w hw ⟨z', e.symm⟩

theorem indent_go : ∀ (n : Nat) {ws : List Bytes} {r b : Bytes} {p}, ws.length < n → (∀ w ∈ ws, w ∈ whiteSpace) →
    (∀ w ∈ whiteSpace, ¬ w <+: r) → E p (ws.flatten ++ r) b → ∃ s' r', b = s' ++ r' ∧ Indent s' r' ∧ E false r r'
  | 0, _, _, _, _, h => absurd h (Nat.not_lt_zero _)
  | n + 1, ws, r, b, p, hn => by
    intro hws hr h
    cases ws with
    | nil => exact ⟨[], b, rfl, ⟨⟨[], rfl, nofun⟩, no_ws h hr⟩, h.weak⟩
    | cons w ws =>
      have hws' : ∀ w ∈ ws, w ∈ whiteSpace := fun w hw => hws w (.tail _ hw)
      simp only [List.length_cons] at hn
      have cons : ∀ {w : Bytes} {b}, w ∈ whiteSpace → (∃ s' r', b = s' ++ r' ∧ Indent s' r' ∧ E false r r') →
          ∃ s' r', w ++ b = s' ++ r' ∧ Indent s' r' ∧ E false r r' := by
        rintro w b hw ⟨s', r', rfl, ⟨⟨vs, rfl, hv⟩, h2⟩, h3⟩
        refine ⟨w ++ vs.flatten, r', by rw [List.append_assoc], ⟨⟨w :: vs, rfl, ?_⟩, h2⟩, h3⟩
        intro v hm
        cases hm with
        | head => exact hw
        | tail _ hm => exact hv v hm
      have h10 : ([10] : Bytes) ∈ whiteSpace := by decide +kernel
      have h13 : ([13] : Bytes) ∈ whiteSpace := by decide +kernel
      rw [List.flatten_cons, List.append_assoc] at h
      rcases ws_kinds w (hws w (.head _)) with rfl | rfl | ⟨_, h1, h2⟩
      · rw [List.cons_append, List.nil_append] at h
        generalize hs : ws.flatten ++ r = s at h
        cases h with
        | same _ h => subst hs; exact cons h10 (indent_go n (by omega) hws' hr h)
        | right h => subst hs; exact cons h13 (cons h10 (indent_go n (by omega) hws' hr h))
      · rw [List.cons_append, List.nil_append] at h
        generalize hs : ws.flatten ++ r = s at h
        cases h with
        | same _ h => subst hs; exact cons h13 (indent_go n (by omega) hws' hr h)
        | left h =>
          cases ws with
          | nil => exact absurd ⟨_, hs.symm⟩ (hr _ h10)
          | cons w ws =>
            rw [List.flatten_cons, List.append_assoc] at hs
            simp only [List.length_cons] at hn
            rcases ws_kinds w (hws' w (.head _)) with rfl | rfl | ⟨h0, h1, h2⟩
            · cases hs
              exact cons h10 (indent_go n (by omega) (fun w hw => hws' w (.tail _ hw)) hr h)
            · cases hs
            · cases w with
              | nil => exact absurd rfl h0
              | cons c w => cases hs; exact absurd (.head _) h1
      · obtain ⟨r', rfl, h'⟩ := front_plain h h1 h2
        exact cons (hws w (.head _)) (indent_go n (by omega) hws' hr h')

theorem Indent.go {s r b : Bytes} {p} (hi : Indent s r) (h : E p (s ++ r) b) : ∃ s' r', b = s' ++ r' ∧ Indent s' r' ∧ E false r r' := by
  obtain ⟨⟨ws, rfl, h1⟩, h2⟩ := hi
  exact indent_go _ (Nat.lt_succ_self _) h1 h2 h

theorem BlockText.go {s t : Bytes} (hb : BlockText s t) : ∀ {p s'}, E p s s' → ∃ t', BlockText s' t' ∧ E p t t' := by
  -- a line
  have line : ∀ {p : Bool} {rest u : Bytes} {b : Bytes}, E p (10 :: rest) b →
      (∀ b', E false rest b' → ∃ u', BlockText (10 :: b') (10 :: u') ∧ E false u u') →
      ∃ t', BlockText b t' ∧ E p (10 :: u) t' := by
    intro p rest u b h hk
    cases h with
    | same _ h =>
      obtain ⟨u', h1, h2⟩ := hk _ h
      exact ⟨_, h1, .same _ h2⟩
    | right h =>
      obtain ⟨u', h1, h2⟩ := hk _ h
      exact ⟨_, .char (by decide) h1, .right h2⟩
  induction hb with
  | nil => intro p s' h; cases h; exact ⟨[], .nil, .nil⟩
  | @char b r t hb hbt ih =>
    intro p s' h
    cases h with
    | same _ h =>
      obtain ⟨t', h1, h2⟩ := ih h
      exact ⟨b :: t', .char hb h1, .same b h2⟩
    | right h => exact absurd rfl hb
    | @left s2 t2 h =>
      obtain ⟨t', h1, h2⟩ := ih (p := true) (.same 10 h)
      have ht : ∃ v, t = 10 :: v := by
        cases hbt with
        | char h _ => exact absurd rfl h
        | line _ _ _ => exact ⟨_, rfl⟩
        | starLine _ _ => exact ⟨_, rfl⟩
      obtain ⟨v, rfl⟩ := ht
      cases h2 with
      | same _ h2 => exact ⟨_, h1, .left h2.weak⟩
  | @line s r t hi hh hbt ih =>
    intro p s' h
    refine line h fun b' hb' => ?_
    obtain ⟨s2, r2, rfl, h1, h2⟩ := Indent.go hi hb'
    obtain ⟨u', h3, h4⟩ := ih h2
    refine ⟨u', .line h1 ?_ h3, h4⟩
    intro h42
    cases r2 with
    | nil => cases h42
    | cons c r2 =>
      cases h42
      generalize hg : (42 : UInt8) :: r2 = q at h2
      cases h2 with
      | nil => cases hg
      | same _ h => cases hg; exact hh rfl
      | right h => cases hg
      | left h => cases hg
  | @starLine s r t hi hbt ih =>
    intro p s' h
    refine line h fun b' hb' => ?_
    obtain ⟨s2, r2, rfl, h1, h2⟩ := Indent.go hi hb'
    cases h2 with
    | same _ h2 =>
      obtain ⟨u', h3, h4⟩ := ih h2
      exact ⟨u', .starLine h1 h3, h4.weak⟩

/-- Two neighbouring bytes that are no part of a line ending. -/
theorem infix_go {c d : UInt8} (hc : c ≠ 10 ∧ c ≠ 13) (hd : d ≠ 10 ∧ d ≠ 13) {p s s'} (h : E p s s') (hi : [c, d] <:+: s) : [c, d] <:+: s' := by
  obtain ⟨l, r, rfl⟩ := hi
  rw [List.append_assoc] at h
  obtain ⟨l', r1, rfl, _, h2⟩ := E.split hc.1 hc.2 _ (Nat.lt_succ_self _) h
  obtain ⟨r2, rfl, _⟩ := front_plain (w := [d]) h2 (by simpa using Ne.symm hd.1) (by simpa using Ne.symm hd.2)
  exact ⟨l', r2, by simp⟩

theorem E.app_byte {c : UInt8} : ∀ {p s s'}, E p s s' → E p (s ++ [c]) (s' ++ [c])
  | _, _, _, .nil => .same c .nil
  | _, _, _, .same b h => .same b (E.app_byte h)
  | _, _, _, .right h => .right (E.app_byte h)
  | _, _, _, .left h => .left (E.app_byte h)

/-- A block comment, with the blanks after it. -/
theorem block_go {tf : Bool} {text u r t2 x y : Bytes} (hl : Lexeme tf text (.blockComment u)) (hE : Ends text (.blockComment u) r)
    (h0 : E0 x y) (h : E false (text ++ r) t2) : ∃ text' r', t2 = text' ++ r' ∧ Lexeme tf text' (.blockComment u) ∧
      Ends text' (.blockComment u) r' ∧ K (x ++ text) (y ++ text') r r' := by
  generalize ht : Token.blockComment u = t at hl
  cases hl with
  | blockComment h1 h2 h3 h4 h5 =>
    cases ht
    rename_i s w t
    obtain ⟨z0, rfl, g1⟩ := front_plain (w := [47, 42]) (r := s ++ 42 :: 47 :: w ++ r) (by simpa using h) (by decide) (by decide)
    rw [List.append_assoc] at g1
    obtain ⟨s', z1, rfl, hs, g2⟩ := E.split (by decide) (by decide) _ (Nat.lt_succ_self _) g1
    obtain ⟨z2, rfl, g3⟩ := front_plain (w := [47]) (r := w ++ r) g2 (by decide) (by decide)
    obtain ⟨t', i1, i2⟩ := BlockText.go h3 hs
    have hcut : w = (w ++ r).takeWhile isSkip ∧ r = (w ++ r).dropWhile isSkip := by
      have := tw_append (p := isSkip) (s := w) (r := r) (fun c hc => by
        rcases h5 c hc with rfl | rfl | rfl | rfl | rfl <;> rfl) (by
        cases r with
        | nil => rfl
        | cons c r =>
          have := hE c rfl
          rw [← skip_blank] at this
          simpa [startsWith] using this)
      exact ⟨this.1.symm, this.2.symm⟩
    have hJ := J.of_skip g3 (x := x ++ (47 :: 42 :: s ++ [42, 47])) (y := y ++ (47 :: 42 :: s' ++ [42, 47]))
      (h0.app ((E0.refl [47, 42]).app (hs.any.app (E0.refl [42, 47]))))
    rw [← hcut.1, ← hcut.2] at hJ
    refine ⟨47 :: 42 :: s' ++ 42 :: 47 :: z2.takeWhile isSkip, z2.dropWhile isSkip, ?_, ?_, ?_, ?_⟩
    · simp [List.takeWhile_append_dropWhile]
    · refine .blockComment (t := t') ?_ ?_ i1 ?_ ?_
      · exact fun h => h1 (infix_go (by decide) (by decide) hs.symm h)
      · exact fun h => h2 (infix_go (by decide) (by decide) hs.app_byte.symm h)
      · have := crlf_of t'
        rw [← i2.normalize, normalize_of h4] at this
        exact this
      · intro c hc
        have := List.all_eq_true.1 (List.all_takeWhile (p := isSkip) (l := z2)) c hc
        have := skip_blank.1 this
        exact this c (.head _)
    · intro c hc hbl
      rw [← skip_blank] at hbl
      have := List.head?_dropWhile_not isSkip z2
      rw [hc] at this
      simp [hbl] at this
    · have := hJ.between
      simpa using this
  | _ => cases ht

end Verif.Endings
