import Verif.Proofs.LexemeC
/-! The converse for strings, comments and punctuation; a text stands for at most one token. -/
namespace Verif.Lex
open Verif.Spec

theorem charEscape_of_mem {c b : UInt8} (h : (c, b) ∈ simpleEscapes) : charEscape c = some b := by
  simp only [simpleEscapes, List.mem_cons, Prod.mk.injEq, List.not_mem_nil, or_false] at h
  rcases h with ⟨rfl, rfl⟩|⟨rfl, rfl⟩|⟨rfl, rfl⟩|⟨rfl, rfl⟩|⟨rfl, rfl⟩|⟨rfl, rfl⟩|⟨rfl, rfl⟩|⟨rfl, rfl⟩|⟨rfl, rfl⟩|⟨rfl, rfl⟩|⟨rfl, rfl⟩ <;> rfl

theorem oct_of_numeral {ds n} (h : Numeral 8 ds n) : ∀ b ∈ ds, isOctDigit b = true := fun b hb =>
  (isOct_iff (isDigit_of_numeral h (by omega) b hb)).2 ((numeral_val h).2.1 b hb).2

/-- `ds` is what is taken greedily. -/
theorem greedy_append {p : UInt8 → Bool} {k : Nat} {ds s : Bytes} (h : ∀ b ∈ ds, p b = true)
    (hk : ds.length = k ∨ ds.length ≤ k ∧ startsWith p s = false) :
    ((ds ++ s).take k).takeWhile p = ds := by
  rcases hk with rfl | ⟨hle, hs⟩
  · rw [take_prefix _ rfl]
    have := (tw_append (r := []) h rfl).1
    simpa using this
  · rw [List.take_append, List.take_of_length_le hle]
    refine (tw_append h ?_).1
    cases s with
    | nil => simp [startsWith]
    | cons b s =>
      cases hh : k - ds.length with
      | zero => rfl
      | succ m => exact hs

theorem noDigit_starts {r : Nat} {p : UInt8 → Bool} (hp : ∀ b, p b = true → ∃ d, digitOf b = some d ∧ d < r)
    {body : Bytes} {q : UInt8} {t : Bytes} (hq : p q = false) (h : NoDigit r body) :
    startsWith p (body ++ q :: t) = false := by
  cases body with
  | nil => exact hq
  | cons b bs =>
    show p b = false
    cases hb : p b with
    | false => rfl
    | true =>
      obtain ⟨d, h1, h2⟩ := hp b hb
      exact absurd h2 (h d h1)

theorem char_isScalar (c : Char) : isScalar c.toNat = true ∧ utf8Encode c.toNat = String.utf8EncodeChar c := by
  have h : isScalar c.toNat = true := by
    have := c.valid
    simp only [isScalar, Bool.or_eq_true, Bool.and_eq_true, decide_eq_true_eq]
    simp only [UInt32.isValidChar, Nat.isValidChar] at this
    have e : c.toNat = c.val.toNat := rfl
    omega
  refine ⟨h, ?_⟩
  obtain ⟨c', h1, h2⟩ := scalar_char h
  have : c' = c := by
    have : c'.val.toNat = c.val.toNat := h1
    exact Char.ext (UInt32.toNat_inj.1 this)
  rw [← h2, this]

theorem isPlain_of {b : UInt8} (h1 : b ≠ 0) (h2 : b ≠ 10) (h3 : b ≠ 92) (h4 : ¬ isQuote b) : isPlain b = true := by
  simp only [isPlain, Bool.not_eq_true', Bool.or_eq_false_iff, beq_eq_false_iff_ne]
  simp only [isQuote, not_or] at h4
  exact ⟨⟨⟨⟨h1, h2⟩, h3⟩, h4.2⟩, h4.1⟩

theorem quote_not_plain {q : UInt8} (h : isQuote q) : isPlain q = false := by
  rcases h with rfl | rfl <;> rfl

/-- The ordinary bytes at the start of a body can be split off. -/
theorem body_run {q : UInt8} {body v : Bytes} (h : StrBody q body v) :
    ∃ r w, body = body.takeWhile isPlain ++ r ∧ v = body.takeWhile isPlain ++ w ∧ StrBody q r w ∧
      startsWith isPlain r = false := by
  have stop : ∀ {c t v}, isPlain c = false → StrBody q (c :: t) v →
      ∃ r w, (c :: t) = (c :: t).takeWhile isPlain ++ r ∧ v = (c :: t).takeWhile isPlain ++ w ∧ StrBody q r w ∧
        startsWith isPlain r = false := by
    intro c t v hc h
    refine ⟨c :: t, v, ?_, ?_, h, hc⟩ <;> simp [hc]
  induction h with
  | nil => exact ⟨[], [], rfl, rfl, .nil, rfl⟩
  | raw h1 h2 h3 h4 h ih =>
    obtain ⟨r, w, e1, e2, e3, e4⟩ := ih
    have hp := isPlain_of h1 h2 h3 h4
    refine ⟨r, w, ?_, ?_, e3, e4⟩
    · rw [List.takeWhile_cons, if_pos hp, List.cons_append, ← e1]
    · rw [List.takeWhile_cons, if_pos hp, List.cons_append, ← e2]
  | quote h1 h2 h => exact stop (quote_not_plain h1) (.quote h1 h2 h)
  | simple h1 h => exact stop rfl (.simple h1 h)
  | hex h1 h2 h3 h => exact stop rfl (.hex h1 h2 h3 h)
  | oct h1 h2 h3 h => exact stop rfl (.oct h1 h2 h3 h)
  | unicode4 h1 h2 h => exact stop rfl (.unicode4 h1 h2 h)
  | unicode8 h1 h2 h => exact stop rfl (.unicode8 h1 h2 h)

theorem hex_digits (b : UInt8) (h : isHexDigit b = true) : ∃ d, digitOf b = some d ∧ d < 16 :=
  ⟨_, digitOf_hex h, digitVal_hex h⟩

theorem oct_digits (b : UInt8) (h : isOctDigit b = true) : ∃ d, digitOf b = some d ∧ d < 8 :=
  ⟨_, digitOf_hex (isHex_of_digit (isDigit_of_oct h)), (isOct_iff (isDigit_of_oct h)).1 h⟩

/-- The piece at the start of a body that does not start with an ordinary byte. -/
theorem strComp_of {q : UInt8} (hq : isQuote q) {body v : Bytes} (h : StrBody q body v) (hne : body ≠ [])
    (hp : startsWith isPlain body = false) (t : Bytes) :
    ∃ p r w x c, body = p ++ r ∧ p ≠ [] ∧ v = x ++ w ∧ StrBody q r w ∧ compVal c = some x ∧ c ≠ .terminator q ∧
      strComp (body ++ q :: t) = (c, p.length) := by
  have hqx : isHexDigit q = false := by rcases hq with rfl | rfl <;> rfl
  have hqo : isOctDigit q = false := by rcases hq with rfl | rfl <;> rfl
  cases h with
  | nil => exact absurd rfl hne
  | @raw b r v h1 h2 h3 h4 h =>
    have : isPlain b = false := hp
    rw [isPlain_of h1 h2 h3 h4] at this; cases this
  | @quote b r v h1 h2 h =>
    refine ⟨[b], r, v, [b], .terminator b, rfl, by simp, rfl, h, rfl, by simpa using h2, ?_⟩
    have : (b == 39 || b == 34) = true := by rcases h1 with rfl | rfl <;> rfl
    simp [strComp, this]
  | @simple c b r v h1 h =>
    refine ⟨[92, c], r, v, [b], .byte b, rfl, by simp, rfl, h, rfl, by simp, ?_⟩
    have hce := charEscape_of_mem h1
    simp only [simpleEscapes, List.mem_cons, Prod.mk.injEq, List.not_mem_nil, or_false] at h1
    have hx : (c == 120 || c == 88) = false ∧ isOctDigit c = false ∧ (c == 117) = false ∧ (c == 85) = false := by
      rcases h1 with ⟨rfl, rfl⟩|⟨rfl, rfl⟩|⟨rfl, rfl⟩|⟨rfl, rfl⟩|⟨rfl, rfl⟩|⟨rfl, rfl⟩|⟨rfl, rfl⟩|⟨rfl, rfl⟩|⟨rfl, rfl⟩|⟨rfl, rfl⟩|⟨rfl, rfl⟩ <;> decide
    simp [strComp, hx.1, hx.2.1, hx.2.2.1, hx.2.2.2, hce, -Bool.or_eq_true]
  | @hex x ds n r v h1 h2 h3 h =>
    have hds := isHex_of_numeral h2
    have hne := (numeral_val h2).1
    have hn := (numeral_val h2).2.2
    refine ⟨92 :: x :: ds, r, v, [UInt8.ofNat n], .byte (UInt8.ofNat n), rfl, by simp, rfl, h, rfl, by simp, ?_⟩
    have hx : (x == 120 || x == 88) = true := by rcases h1 with rfl | rfl <;> rfl
    have hst : startsWith isHexDigit (ds ++ (r ++ q :: t)) = true := by
      cases ds with
      | nil => exact absurd rfl hne
      | cons d ds => exact hds d (by simp)
    have hg : ((ds ++ (r ++ q :: t)).take 2).takeWhile isHexDigit = ds := by
      refine greedy_append hds ?_
      rcases h3 with h3 | ⟨h3, h4⟩
      · exact .inl h3
      · exact .inr ⟨by omega, noDigit_starts hex_digits hqx h4⟩
    have e : (92 :: x :: ds ++ r) ++ q :: t = 92 :: x :: (ds ++ (r ++ q :: t)) := by simp
    rw [e]
    unfold strComp
    simp only [show ((92 : UInt8) == 39 || (92 : UInt8) == 34) = false from rfl, Bool.false_eq_true, if_false,
      beq_self_eq_true, if_true, hx, hst, Bool.and_self, hg, ← hn]
    simp; omega
  | @oct ds n r v h1 h2 h3 h =>
    have hds := oct_of_numeral h1
    have hne := (numeral_val h1).1
    have hn := (numeral_val h1).2.2
    refine ⟨92 :: ds, r, v, [UInt8.ofNat n], .byte (UInt8.ofNat n), rfl, by simp, rfl, h, rfl, by simp, ?_⟩
    have hg : ((ds ++ (r ++ q :: t)).take 3).takeWhile isOctDigit = ds := by
      refine greedy_append hds ?_
      rcases h2 with h2 | ⟨h2, h4⟩
      · exact .inl h2
      · exact .inr ⟨by omega, noDigit_starts oct_digits hqo h4⟩
    have e : (92 :: ds ++ r) ++ q :: t = 92 :: (ds ++ (r ++ q :: t)) := by simp
    rw [e]
    cases ds with
    | nil => exact absurd rfl hne
    | cons d ds =>
      have hd := hds d (by simp)
      have hx : (d == 120 || d == 88) = false := by
        cases hh : (d == 120 || d == 88) with
        | false => rfl
        | true =>
          simp only [Bool.or_eq_true, beq_iff_eq] at hh
          rcases hh with rfl | rfl <;> cases hd
      unfold strComp
      rw [List.cons_append] at hg ⊢
      simp only [show ((92 : UInt8) == 39 || (92 : UInt8) == 34) = false from rfl, Bool.false_eq_true, if_false,
        beq_self_eq_true, if_true, hx, Bool.false_and, hd, hg, ← hn, h3]
      simp; omega
  | @unicode4 ds c r v h1 h2 h =>
    have hds := isHex_of_numeral h1
    have hn := (numeral_val h1).2.2
    obtain ⟨hs, he⟩ := char_isScalar c
    refine ⟨92 :: 117 :: ds, r, v, String.utf8EncodeChar c, .char c.toNat, rfl, by simp, rfl, h, by rw [← he]; rfl,
      by simp, ?_⟩
    have e : (92 :: 117 :: ds ++ r) ++ q :: t = 92 :: 117 :: (ds ++ (r ++ q :: t)) := by simp
    have ht : (ds ++ (r ++ q :: t)).take 4 = ds := take_prefix _ h2.symm
    have ha : ds.all isHexDigit = true := List.all_eq_true.2 hds
    rw [e]
    unfold strComp
    simp only [show ((92 : UInt8) == 39 || (92 : UInt8) == 34) = false from rfl, Bool.false_eq_true, if_false,
      beq_self_eq_true, if_true, show ((117 : UInt8) == 120 || (117 : UInt8) == 88) = false from rfl, Bool.false_and,
      show isOctDigit 117 = false from rfl, ht, h2, decide_true, ha, Bool.and_self, unicodeEscape, ← hn, hs]
    simp [h2]
  | @unicode8 ds c r v h1 h2 h =>
    have hds := isHex_of_numeral h1
    have hn := (numeral_val h1).2.2
    obtain ⟨hs, he⟩ := char_isScalar c
    refine ⟨92 :: 85 :: ds, r, v, String.utf8EncodeChar c, .char c.toNat, rfl, by simp, rfl, h, by rw [← he]; rfl,
      by simp, ?_⟩
    have e : (92 :: 85 :: ds ++ r) ++ q :: t = 92 :: 85 :: (ds ++ (r ++ q :: t)) := by simp
    have ht : (ds ++ (r ++ q :: t)).take 8 = ds := take_prefix _ h2.symm
    have ha : ds.all isHexDigit = true := List.all_eq_true.2 hds
    rw [e]
    unfold strComp
    simp only [show ((92 : UInt8) == 39 || (92 : UInt8) == 34) = false from rfl, Bool.false_eq_true, if_false,
      beq_self_eq_true, if_true, show ((85 : UInt8) == 120 || (85 : UInt8) == 88) = false from rfl, Bool.false_and,
      show isOctDigit 85 = false from rfl, show ((85 : UInt8) == 117) = false from rfl, ht, h2, decide_true, ha,
      Bool.and_self, unicodeEscape, ← hn, hs]
    simp [h2]

theorem strLoop_of {q : UInt8} (hq : isQuote q) (t : Bytes) : ∀ (fuel pos n : Nat) (body v acc : Bytes) (errs),
    (body ++ q :: t).length < fuel → StrBody q body v →
    strLoop q fuel pos (body ++ q :: t) n acc errs = (acc ++ v, n + body.length + 1, errs) := by
  intro fuel
  induction fuel with
  | zero => intro pos n body v acc errs h; omega
  | succ fuel ih =>
    intro pos n body v acc errs hf h
    cases body with
    | nil =>
      cases h
      have : (q == 39 || q == 34) = true := by rcases hq with rfl | rfl <;> rfl
      simp [strLoop, strComp, this]
    | cons b body =>
      have step : ∀ p r w x c, b :: body = p ++ r → p ≠ [] → v = x ++ w → StrBody q r w → compVal c = some x →
          c ≠ .terminator q → strComp (b :: body ++ q :: t) = (c, p.length) →
          strLoop q (fuel + 1) pos (b :: body ++ q :: t) n acc errs = (acc ++ v, n + (b :: body).length + 1, errs) := by
        intro p r w x c e1 hne e2 e3 e4 e5 e6
        have hd : (b :: (body ++ q :: t)).drop p.length = r ++ q :: t := by
          rw [← List.cons_append, e1]; simp
        have hlen : (b :: body).length = p.length + r.length := by rw [e1]; simp
        have hpl : p.length ≠ 0 := fun h0 => hne (List.length_eq_zero_iff.1 h0)
        have hlen' : (r ++ q :: t).length < fuel := by simp at hlen hf ⊢; omega
        have := ih (pos + p.length) (n + p.length) r w (acc ++ x) errs hlen' e3
        rw [List.append_assoc, ← e2] at this
        rw [hlen, ← Nat.add_assoc]
        rw [List.cons_append] at e6 ⊢
        unfold strLoop
        rw [← hd] at this
        simp only [e6]
        cases c with
        | unescaped s => cases e4; exact this
        | terminator s =>
          cases e4
          have hs : s ≠ q := by simpa using e5
          simp only [hs, if_false]
          exact this
        | byte s => cases e4; exact this
        | char s => cases e4; exact this
        | error => cases e4
      cases hp : isPlain b with
      | true =>
        obtain ⟨r, w, e1, e2, e3, e4⟩ := body_run h
        refine step _ r w _ (.unescaped ((b :: body).takeWhile isPlain)) e1 ?_ e2 e3 rfl (by simp) ?_
        · simp [hp]
        · have hrun : (b :: body ++ q :: t).takeWhile isPlain = (b :: body).takeWhile isPlain := by
            rw [e1, List.append_assoc]
            have h1 : startsWith isPlain (r ++ q :: t) = false := by
              cases r with
              | nil => exact quote_not_plain hq
              | cons c r => exact e4
            have h2 : ∀ c ∈ (b :: body).takeWhile isPlain, isPlain c = true := fun c hc => takeWhile_all c hc
            rw [(tw_append h2 h1).1, (tw_append h2 e4).1]
          have hb : (b == 39 || b == 34) = false ∧ (b == 92) = false := by
            simp only [isPlain, Bool.not_eq_true', Bool.or_eq_false_iff] at hp
            exact ⟨by simp [hp.2, hp.1.2], hp.1.1.2⟩
          rw [List.cons_append] at hrun ⊢
          unfold strComp
          simp only [hb.1, hb.2, Bool.false_eq_true, if_false, hp, if_true, hrun]
      | false =>
        obtain ⟨p, r, w, x, c, e1, e2, e3, e4, e5, e6, e7⟩ := strComp_of hq h (by simp) hp t
        exact step p r w x c e1 e2 e3 e4 e5 e6 e7

/-! ## Comments -/

theorem normalize_of {s t : Bytes} (h : Crlf s t) : normalizeNewlines s = t := by
  induction h with
  | nil => rfl
  | crlf h ih => simp [normalizeNewlines, ih]
  | @same b r t hno h ih =>
    unfold normalizeNewlines
    split
    · rename_i heq
      simp only [List.cons.injEq] at heq
      obtain ⟨rfl, rfl⟩ := heq
      exact absurd ⟨rfl, rfl⟩ hno
    · rename_i heq
      simp only [List.cons.injEq] at heq
      obtain ⟨rfl, rfl⟩ := heq
      rw [ih]
    · cases ‹_ :: _ = []›

theorem line_of {tf : Bool} {pos pre : Nat} {hash : Bool} {p s t r : Bytes} (hl : p.length = pre) (h : IsLine s)
    (hc : Crlf s t) (hh : hash = true → tf = true) (hend : s.getLast? = some 10 ∨ r = []) (errs) :
    lineComment tf pos pre hash (p ++ (s ++ r)) errs = (.lineComment t, (p ++ s).length, errs) := by
  obtain ⟨l, h10, hs⟩ := h
  have hd : (p ++ (s ++ r)).drop pre = s ++ r := by rw [← hl]; simp
  have hp : ∀ b ∈ l, (b != 10) = true := fun b hb => by
    simp only [bne_iff_ne]; rintro rfl; exact h10 hb
  have he : (if !tf && hash then errs ++ [ParseErrorKind.hashCommentOutsideTextFormat
      ⟨pos, pos + (p ++ s).length⟩] else errs) = errs := by
    cases hash with
    | false => simp
    | true => simp [hh rfl]
  unfold lineComment
  rw [hd]
  rcases hs with rfl | rfl
  · have hr : r = [] := hend.resolve_left fun h => h10 (List.mem_of_getLast? h)
    subst hr
    obtain ⟨h1, h2⟩ := tw_append (p := (· != 10)) (r := []) hp rfl
    rw [List.append_nil] at h1 h2 ⊢
    simp only [h1, h2, Nat.add_zero, List.take_length, normalize_of hc]
    rw [← hl, ← List.length_append, he]
  · obtain ⟨h1, h2⟩ := tw_append (p := (· != 10)) (r := 10 :: r) hp rfl
    have hlen : (l ++ [10]).length = l.length + 1 := by simp
    have e : l ++ [10] ++ r = l ++ 10 :: r := by simp
    rw [e]
    simp only [h1, h2]
    rw [← e, ← hlen, List.take_left' rfl, normalize_of hc, Nat.add_assoc, ← hlen, ← hl, ← List.length_append, he]

theorem white_head {w : Bytes} (h : w ∈ whiteSpace) : ∃ b t, w = b :: t ∧
    w.length = if b = 0xC2 then 2 else if b = 0xE1 ∨ b = 0xE2 ∨ b = 0xE3 then 3 else 1 := by
  rcases mem_whiteSpace.1 h with rfl|rfl|rfl|rfl|rfl|rfl|rfl|rfl|rfl|⟨c, rfl, hc⟩|rfl|rfl <;>
    exact ⟨_, _, rfl, rfl⟩

theorem white_prefix {w w' l : Bytes} (h : w ∈ whiteSpace) (h' : w' ∈ whiteSpace) (hp : w <+: l) (hp' : w' <+: l) :
    w = w' := by
  obtain ⟨b, t, e, hl⟩ := white_head h
  obtain ⟨b', t', e', hl'⟩ := white_head h'
  obtain ⟨x, rfl⟩ := hp
  obtain ⟨y, hy⟩ := hp'
  have hb : b' = b := by
    rw [e, e'] at hy
    simp only [List.cons_append, List.cons.injEq] at hy
    exact hy.1
  rw [hb, ← hl] at hl'
  exact ((List.append_inj hy hl').1).symm

theorem indent_unique : ∀ {s r s' r' : Bytes}, s ++ r = s' ++ r' → Indent s r → Indent s' r' → s = s' ∧ r = r' := by
  intro s r s' r' e ⟨⟨ws, h1, h2⟩, h3⟩ ⟨⟨ws', h1', h2'⟩, h3'⟩
  subst h1 h1'
  have : ws.flatten = ws'.flatten := by
    induction ws generalizing ws' with
    | nil =>
      cases ws' with
      | nil => rfl
      | cons w' ws' =>
        exact absurd ⟨ws'.flatten ++ r', by simpa using e.symm⟩ (h3 w' (h2' w' (by simp)))
    | cons w ws ih =>
      cases ws' with
      | nil => exact absurd ⟨ws.flatten ++ r, by simpa using e⟩ (h3' w (h2 w (by simp)))
      | cons w' ws' =>
        have hw : w = w' := white_prefix (l := (w :: ws).flatten ++ r) (h2 w (by simp)) (h2' w' (by simp))
          ⟨ws.flatten ++ r, by simp⟩ (by rw [e]; exact ⟨ws'.flatten ++ r', by simp⟩)
        subst hw
        have e' : ws.flatten ++ r = ws'.flatten ++ r' := by simpa using e
        have := ih (fun x hx => h2 x (by simp [hx])) ws' (fun x hx => h2' x (by simp [hx])) e'
        rw [List.flatten_cons, List.flatten_cons, this]
  exact ⟨this, by rw [this] at e; exact List.append_cancel_left e⟩

theorem trimStart_of {s r : Bytes} (h : Indent s r) : trimStart (s ++ r) = r := by
  obtain ⟨s', e, hi⟩ := trimStart_indent (s ++ r)
  exact ((indent_unique e h hi).2).symm

theorem indent_mono {s r x : Bytes} (h : Indent s r) (hx : x.head? = some 42) : Indent s (r ++ x) := by
  refine ⟨h.1, fun w hw hp => ?_⟩
  by_cases hl : w.length ≤ r.length
  · exact h.2 w hw (List.prefix_of_prefix_length_le hp (List.prefix_append _ _) hl)
  · -- the white space would contain the star
    obtain ⟨y, hy⟩ := hp
    have hmem : (42 : UInt8) ∈ w := by
      cases x with
      | nil => cases hx
      | cons c x =>
        cases hx
        have : w <+: r ++ 42 :: x := ⟨y, hy⟩
        have h2 : r ++ [42] <+: r ++ 42 :: x := ⟨x, by simp⟩
        have h3 := List.prefix_of_prefix_length_le h2 this (by simp; omega)
        exact h3.subset (by simp)
    have hi : Indent w (0 :: []) := ⟨⟨[w], by simp, by simpa using hw⟩, fun v hv hp => by
      obtain ⟨b, t, e, _⟩ := white_head hv
      obtain ⟨z, hz⟩ := hp
      rw [e] at hz
      simp only [List.cons_append, List.cons.injEq] at hz
      rcases mem_whiteSpace.1 hv with h|h|h|h|h|h|h|h|h|⟨c, h, hc⟩|h|h <;> rw [h] at e <;> simp only [List.cons.injEq] at e <;>
        exact absurd (e.1.trans hz.1) (by decide)⟩
    exact (indent_bytes hi _ hmem).1 rfl

theorem inside_tail {b : UInt8} {s : Bytes} (h : Inside (b :: s)) : Inside s :=
  ⟨fun hi => h.1 (List.infix_cons_iff.2 (.inr hi)), fun hi => h.2 (List.infix_cons_iff.2 (.inr hi))⟩

theorem inside_drop {p s : Bytes} (h : Inside (p ++ s)) : Inside s := by
  induction p with
  | nil => exact h
  | cons b p ih => exact ih (inside_tail h)

theorem commentLoop_of (w z : Bytes) (hskip : z.takeWhile isSkip = w) : ∀ (fuel pos n total : Nat) (body t acc : Bytes) (errs),
    (body ++ 42 :: 47 :: z).length < fuel → Inside body → BlockText body t →
    commentLoop fuel pos (body ++ 42 :: 47 :: z) n total 1 none acc errs =
      (acc ++ t, n + body.length + 2 + w.length, errs) := by
  intro fuel
  induction fuel with
  | zero => intro pos n total body t acc errs h; omega
  | succ fuel ih =>
    intro pos n total body t acc errs hf hin h
    cases body with
    | nil =>
      cases h
      simp only [List.nil_append, commentLoop, if_true, hskip]
      simp; omega
    | cons b body =>
      by_cases hb : b = 10
      · subst hb
        cases h with
        | char h1 _ => exact absurd rfl h1
        | @line s r t hi hns h =>
          have htr : trimStart (s ++ r ++ 42 :: 47 :: z) = r ++ 42 :: 47 :: z := by
            rw [List.append_assoc]
            exact trimStart_of (indent_mono hi rfl)
          have hsk : skipStar (r ++ 42 :: 47 :: z) = r ++ 42 :: 47 :: z := by
            cases r with
            | nil => rfl
            | cons c r =>
              rcases skipStar_cases (c :: r ++ 42 :: 47 :: z) with ⟨_, _, h⟩ | ⟨_, h, _, _⟩ | ⟨_, h⟩
              · exact h
              · simp only [List.cons_append, List.cons.injEq] at h
                exact absurd (by rw [h.1]; rfl) hns
              · exact h
          simp only [List.append_eq] at hf hin ⊢
          have hl : (10 :: (s ++ r ++ 42 :: 47 :: z)).length - (r ++ 42 :: 47 :: z).length = 1 + s.length := by
            simp; omega
          rw [List.cons_append]
          unfold commentLoop
          simp only [htr, hsk, hl]
          rw [ih _ _ _ r t _ _ (by simp at hf ⊢; omega) (inside_drop (p := 10 :: s) hin) h]
          simp; omega
        | @starLine s r t hi h =>
          have htr : trimStart (s ++ 42 :: r ++ 42 :: 47 :: z) = 42 :: (r ++ 42 :: 47 :: z) := by
            rw [List.append_assoc]
            exact trimStart_of (indent_mono hi rfl)
          have hsk : skipStar (42 :: (r ++ 42 :: 47 :: z)) = r ++ 42 :: 47 :: z := by
            rcases skipStar_cases (42 :: (r ++ 42 :: 47 :: z)) with ⟨y, h, _⟩ | ⟨y, h, _, h'⟩ | ⟨h, _⟩
            · have h := List.tail_eq_of_cons_eq h
              cases r with
              | nil => cases h
              | cons c r =>
                simp only [List.cons_append, List.cons.injEq] at h
                obtain ⟨rfl, _⟩ := h
                exact absurd ⟨10 :: s, r, by simp⟩ hin.1
            · have h := List.tail_eq_of_cons_eq h
              rw [h', h]
            · exact absurd rfl h
          simp only [List.append_eq] at hf hin ⊢
          have hl : (10 :: (s ++ 42 :: r ++ 42 :: 47 :: z)).length - (r ++ 42 :: 47 :: z).length = 2 + s.length := by
            simp; omega
          rw [List.cons_append]
          unfold commentLoop
          simp only [htr, hsk, hl]
          have hin' : Inside ((10 :: s ++ [42]) ++ r) := by simpa using hin
          rw [ih _ _ _ r t _ _ (by simp at hf ⊢; omega) (inside_drop hin') h]
          simp; omega
      · -- a character: its first byte and the continuation bytes
        have hrun : ∃ r u, body = body.takeWhile isCont ++ r ∧ t = b :: body.takeWhile isCont ++ u ∧ BlockText r u ∧
            startsWith isCont (r ++ 42 :: 47 :: z) = false := by
          have : ∀ {x y}, BlockText x y → ∃ r u, x = x.takeWhile isCont ++ r ∧ y = x.takeWhile isCont ++ u ∧
              BlockText r u ∧ startsWith isCont (r ++ 42 :: 47 :: z) = false := by
            intro x y hxy
            induction hxy with
            | nil => exact ⟨[], [], rfl, rfl, .nil, rfl⟩
            | @char c r t h1 h2 ih =>
              cases hc : isCont c with
              | true =>
                obtain ⟨r', u, e1, e2, e3, e4⟩ := ih
                refine ⟨r', u, ?_, ?_, e3, e4⟩
                · rw [List.takeWhile_cons, if_pos hc, List.cons_append, ← e1]
                · rw [List.takeWhile_cons, if_pos hc, List.cons_append, ← e2]
              | false =>
                refine ⟨c :: r, c :: t, ?_, ?_, .char h1 h2, hc⟩ <;> simp [hc]
            | @line s r t h1 h2 h3 ih =>
              refine ⟨10 :: s ++ r, 10 :: t, ?_, ?_, .line h1 h2 h3, rfl⟩ <;> simp [show isCont 10 = false from rfl]
            | @starLine s r t h1 h3 ih =>
              refine ⟨10 :: s ++ 42 :: r, 10 :: t, ?_, ?_, .starLine h1 h3, rfl⟩ <;> simp [show isCont 10 = false from rfl]
          cases h with
          | char _ h =>
            obtain ⟨r, u, e1, e2, e3, e4⟩ := this h
            exact ⟨r, u, e1, by rw [List.cons_append, ← e2], e3, e4⟩
          | line => exact absurd rfl hb
          | starLine => exact absurd rfl hb
        obtain ⟨r, u, e1, e2, e3, e4⟩ := hrun
        have hcs : ∀ c ∈ body.takeWhile isCont, isCont c = true := fun c hc => takeWhile_all c hc
        generalize body.takeWhile isCont = cs at *
        subst e1 e2
        obtain ⟨h1, h2⟩ := tw_append hcs e4
        have hel : errLen (b :: (cs ++ (r ++ 42 :: 47 :: z))) = (b :: cs).length := by
          simp only [errLen, h1]; simp; omega
        have htake : (b :: (cs ++ (r ++ 42 :: 47 :: z))).take (b :: cs).length = b :: cs := by simp
        have hdrop : (b :: (cs ++ (r ++ 42 :: 47 :: z))).drop (b :: cs).length = r ++ 42 :: 47 :: z := by simp
        have e : (b :: (cs ++ r)) ++ 42 :: 47 :: z = b :: (cs ++ (r ++ 42 :: 47 :: z)) := by simp
        rw [e]
        have hih := ih (pos + (b :: cs).length) (n + (b :: cs).length) total r u (acc ++ b :: cs) errs
          (by simp at hf ⊢; omega) (inside_drop (p := b :: cs) hin) e3
        unfold commentLoop
        split
        · cases ‹_ :: _ = []›
        · rename_i r0 heq
          simp only [List.cons.injEq] at heq
          obtain ⟨rfl, heq⟩ := heq
          exfalso
          cases cs with
          | nil =>
            cases r with
            | nil => simp at heq
            | cons c r =>
              simp only [List.nil_append, List.cons_append, List.cons.injEq] at heq
              obtain ⟨rfl, _⟩ := heq
              exact hin.1 ⟨[], r, by simp⟩
          | cons c cs =>
            simp only [List.cons_append, List.cons.injEq] at heq
            exact (cont_bytes (hcs c (by simp))).2.1 heq.1
        · rename_i r0 heq
          simp only [List.cons.injEq] at heq
          obtain ⟨rfl, heq⟩ := heq
          exfalso
          cases cs with
          | nil =>
            cases r with
            | nil => exact hin.2 ⟨[], [], by simp⟩
            | cons c r =>
              simp only [List.nil_append, List.cons_append, List.cons.injEq] at heq
              obtain ⟨rfl, _⟩ := heq
              exact hin.2 ⟨[], r ++ [42], by simp⟩
          | cons c cs =>
            simp only [List.cons_append, List.cons.injEq] at heq
            exact (cont_bytes (hcs c (by simp))).1 heq.1
        · rename_i r0 heq
          simp only [List.cons.injEq] at heq
          exact absurd heq.1 hb
        · rename_i b0 r0 _ _ _ heq
          simp only [hel, htake, hdrop]
          rw [hih]
          simp; omega

/-! ## All tokens -/

theorem ends_follow {r : Bytes} (h : ∀ b, r.head? = some b → isAlnum b = false ∧ b ≠ 95 ∧ b ≠ 46) : Follow r := by
  intro b hb
  obtain ⟨h1, h2, h3⟩ := h b hb
  simp [h1, h2, h3]

theorem lexToken_digit {tf pos c r errs} (h : isDigit c = true) :
    lexToken tf pos (c :: r) errs = (some (number tf pos (c :: r) errs).1, (number tf pos (c :: r) errs).2) := by
  unfold lexToken
  simp only [not_ident_of_digit h, h, Bool.false_eq_true, if_false, if_true]

theorem isDigit_head {s n} (h : IntLiteral s n) : ∃ c r, s = c :: r ∧ isDigit c = true := by
  cases h with
  | zero => exact ⟨_, _, rfl, rfl⟩
  | decimal h _ =>
    cases s with
    | nil => exact absurd rfl (numeral_val h).1
    | cons c s => exact ⟨c, s, rfl, isDigit_of_numeral h (Nat.le_refl _) c (by simp)⟩
  | octal h => exact ⟨_, _, rfl, rfl⟩
  | hex h => exact ⟨_, _, rfl, rfl⟩

theorem ends_nil (text : Bytes) (t : Token) : Ends text t [] := by
  cases t <;> first | trivial | exact .inr rfl | nofun

theorem last_line {x : UInt8} {p s r : Bytes} (h : (x :: (p ++ s)).getLast? = some 10 ∨ r = [])
    (hp : 10 ∉ x :: p) : s.getLast? = some 10 ∨ r = [] := by
  rcases h with h | h
  · cases s with
    | nil =>
      rw [List.append_nil] at h
      exact absurd (List.mem_of_getLast? h) hp
    | cons c s =>
      left
      rw [← List.cons_append, List.getLast?_append] at h
      have : (c :: s).getLast?.isSome := by simp
      cases hg : (c :: s).getLast? with
      | none => rw [hg] at this; cases this
      | some y => rw [hg] at h; exact h
  · exact .inr h

theorem lexToken_of {tf text t} (h : Lexeme tf text t) (pos r errs) (hr : Ends text t r) :
    lexToken tf pos (text ++ r) errs = (some t, text.length, errs) := by
  cases h with
  | ident h =>
    obtain ⟨b, s, rfl, hb, hs⟩ := h
    have hst : isIdentStart b = true := by
      rcases hb with hb | rfl
      · simp [isIdentStart, hb]
      · rfl
    have hall : ∀ c ∈ b :: s, isIdentCont c = true := by
      intro c hc
      rcases List.mem_cons.1 hc with rfl | hc
      · rcases hb with hb | rfl
        · simp [isIdentCont, isAlnum, hb]
        · rfl
      · rcases hs c hc with h | rfl
        · simp [isIdentCont, h]
        · rfl
    have hst' : startsWith isIdentCont r = false := by
      cases r with
      | nil => rfl
      | cons c r =>
        obtain ⟨h1, h2⟩ := hr c rfl
        simp [startsWith, isIdentCont, h1, h2]
    have htw := (tw_append hall hst').1
    rw [List.cons_append] at htw ⊢
    unfold lexToken
    simp only [hst, if_true, htw]
  | int h hn =>
    have hfl : Follow r := ends_follow hr
    have hnum := number_int (tf := tf) (pos := pos) (errs := errs) h hn hfl
    obtain ⟨c, s, rfl, hc⟩ := isDigit_head h
    rw [List.cons_append] at hnum ⊢
    rw [lexToken_digit hc, hnum]
  | malformedOctal h hds =>
    have hfl : Follow r := ends_follow hr
    have hnum := number_malformed (tf := tf) (pos := pos) (errs := errs) h hds hfl
    rw [List.cons_append] at hnum ⊢
    rw [lexToken_digit rfl, hnum]
  | float h =>
    have hfl : Follow r := ends_follow hr
    have := lexToken_float (tf := tf) (pos := pos) (x := []) (errs := errs) h (.inl rfl) hfl
    simpa using this
  | @floatSuffix s f htf h hf =>
    have hfl : Follow r := ends_follow hr
    have hx : Sfx tf [f] := .inr ⟨htf, by rcases hf with rfl | rfl <;> simp⟩
    have := lexToken_float (tf := tf) (pos := pos) (errs := errs) h hx hfl
    rw [List.append_assoc]; exact this
  | @intSuffix ds f htf h1 h2 h3 hf =>
    have := number_suffix (tf := tf) (pos := pos) (errs := errs) (r := r) htf h1 h2 h3 hf
    cases ds with
    | nil => exact absurd rfl h3
    | cons c ds =>
      have hc := isDigit_of_digits h1 c (by simp)
      rw [List.append_assoc, List.cons_append]
      rw [List.cons_append] at this
      rw [lexToken_digit hc, List.singleton_append, this]
      simp
  | @string q body v hq h =>
    have hl := strLoop_of hq r ((body ++ q :: r).length + 1) (pos + 1) 0 body v [] errs (by omega) h
    have e : (q :: body ++ [q]) ++ r = q :: (body ++ q :: r) := by simp
    have hq1 : isIdentStart q = false ∧ isDigit q = false ∧ (q == 46) = false ∧ (q == 39 || q == 34) = true := by
      rcases hq with rfl | rfl <;> decide
    rw [e]
    unfold lexToken
    simp only [hq1, Bool.false_eq_true, if_false, Bool.false_and, if_true, string, hl]
    simp; omega
  | dot =>
    have hd : startsWith isDigit r = false := by
      cases r with
      | nil => rfl
      | cons c r => exact hr c rfl
    have e : ((b!"." : Bytes) ++ r) = 46 :: r := rfl
    rw [e]
    unfold lexToken
    simp only [hd, Bool.and_false]
    rfl
  | slash =>
    have e : ((b!"/" : Bytes) ++ r) = 47 :: r := rfl
    have h1 : r.head? ≠ some 47 := fun h => (hr _ h).1 rfl
    have h2 : r.head? ≠ some 42 := fun h => (hr _ h).2 rfl
    rw [e]
    unfold lexToken
    simp only [h1, h2, decide_false, Bool.and_false]
    rfl
  | lineComment h1 h2 =>
    have := line_of (tf := tf) (pos := pos) (hash := false) (pre := 2) (p := [47, 47]) rfl h1 h2 (by simp)
      (last_line (x := 47) (p := [47]) hr (by decide)) errs
    simp only [List.cons_append, List.nil_append] at this ⊢
    unfold lexToken
    simp only [this]
    rfl
  | hashComment htf h1 h2 =>
    have := line_of (tf := tf) (pos := pos) (hash := true) (pre := 1) (p := [35]) rfl h1 h2 (fun _ => htf)
      (last_line (p := []) hr (by decide)) errs
    simp only [List.cons_append, List.nil_append] at this ⊢
    unfold lexToken
    simp only [this]
    rfl
  | @blockComment s w t u h1 h2 h3 h4 hw =>
    have hskip : (w ++ r).takeWhile isSkip = w := by
      refine (tw_append (p := isSkip) (s := w) (r := r) (fun b hb => by
        rcases hw b hb with rfl|rfl|rfl|rfl|rfl <;> rfl) ?_).1
      cases r with
      | nil => rfl
      | cons c r =>
        have := hr c rfl
        cases hc : isSkip c with
        | false => exact hc
        | true =>
          refine absurd ?_ this
          intro b hb
          cases List.mem_singleton.1 hb
          simpa [isSkip, or_assoc] using hc
    have := commentLoop_of w (w ++ r) hskip ((s ++ 42 :: 47 :: (w ++ r)).length + 1) (pos + 2) 0
      (s ++ 42 :: 47 :: (w ++ r)).length s t [] errs (by omega) ⟨h1, h2⟩ h3
    have e : (47 :: 42 :: s ++ 42 :: 47 :: w) ++ r = 47 :: 42 :: (s ++ 42 :: 47 :: (w ++ r)) := by simp
    rw [e]
    unfold lexToken
    simp only [List.head?_cons, List.drop_succ_cons, List.drop_zero, blockComment, this, List.nil_append,
      normalize_of h4]
    simp [isIdentStart, isAlpha, isUpper, isLower, isDigit]
    omega
  | newline => rfl
  | _ => rfl

theorem lexeme_unique {tf text t t'} (h : Lexeme tf text t) (h' : Lexeme tf text t') : t = t' := by
  have e := lexToken_of h 0 [] [] (ends_nil _ _)
  rw [lexToken_of h' 0 [] [] (ends_nil _ _)] at e
  simpa using e.symm

end Verif.Lex
