import Verif.Proofs.Lexeme2
/-! The text of a comment token stands for the token. -/
namespace Verif.Lex
open Verif.Spec

theorem crlf_of (s : Bytes) : Crlf s (normalizeNewlines s) := by
  fun_induction normalizeNewlines s with
  | case1 r ih => exact .crlf ih
  | case2 b r hno ih =>
    refine .same ?_ ih
    rintro ⟨rfl, h⟩
    cases r with
    | nil => cases h
    | cons c r' => cases h; exact hno r' rfl rfl
  | case3 => exact .nil

theorem line_lexeme {tf : Bool} {pos pre : Nat} {hash : Bool} {s : Bytes} {t n}
    (hpre : (pre = 1 ∧ hash = true ∧ ∃ r, s = 35 :: r) ∨ (pre = 2 ∧ ∃ r, s = 47 :: 47 :: r))
    (h : lineComment tf pos pre hash s [] = (t, n, [])) : Lexeme tf (s.take n) t := by
  unfold lineComment at h
  simp only at h
  have hsplit := List.takeWhile_append_dropWhile (p := (· != (10 : UInt8))) (l := s.drop pre)
  have hno : (10 : UInt8) ∉ (s.drop pre).takeWhile (· != 10) := fun hm => by
    have := takeWhile_all _ hm
    simp at this
  have hline : ∀ k, k = (match (s.drop pre).dropWhile (· != 10) with | _ :: _ => 1 | [] => 0) →
      IsLine ((s.drop pre).take (((s.drop pre).takeWhile (· != 10)).length + k)) := by
    intro k hk
    have hhead := List.head?_dropWhile_not (p := (· != (10 : UInt8))) (l := s.drop pre)
    generalize (s.drop pre).takeWhile (· != 10) = a at *
    generalize (s.drop pre).dropWhile (· != 10) = b at *
    rw [← hsplit]
    refine ⟨a, hno, ?_⟩
    cases b with
    | nil => subst hk; exact .inl (by simp)
    | cons c b =>
      subst hk
      simp only [List.head?_cons, bne_eq_false_iff_eq] at hhead
      have : c = 10 := by simpa using hhead
      subst this
      right
      rw [show a ++ 10 :: b = (a ++ [10]) ++ b by simp, take_prefix _ (by simp)]
  simp only [Prod.mk.injEq] at h
  obtain ⟨rfl, h2, h3⟩ := h
  subst h2
  have hl := hline _ rfl
  rw [Nat.add_assoc pre]
  generalize ((s.drop pre).takeWhile (· != 10)).length + _ = k at hl ⊢
  rcases hpre with ⟨rfl, rfl, r, rfl⟩ | ⟨rfl, r, rfl⟩
  · have htf : tf = true := by cases tf <;> simp_all
    rw [Nat.add_comm 1, List.take_succ_cons]
    exact .hashComment htf hl (crlf_of _)
  · rw [Nat.add_comm 2, List.take_succ_cons, List.take_succ_cons]
    exact .lineComment hl (crlf_of _)

/-! ## Block comments -/

theorem mem_whiteSpace {w : Bytes} : w ∈ whiteSpace ↔
    w = [9] ∨ w = [10] ∨ w = [11] ∨ w = [12] ∨ w = [13] ∨ w = [32] ∨ w = [0xC2, 0x85] ∨ w = [0xC2, 0xA0] ∨
    w = [0xE1, 0x9A, 0x80] ∨
    (∃ c : UInt8, w = [0xE2, 0x80, c] ∧ ((0x80 ≤ c ∧ c ≤ 0x8A) ∨ c = 0xA8 ∨ c = 0xA9 ∨ c = 0xAF)) ∨
    w = [0xE2, 0x81, 0x9F] ∨ w = [0xE3, 0x80, 0x80] := by
  have e : whiteSpace = [[9], [10], [11], [12], [13], [32], [0xC2, 0x85], [0xC2, 0xA0], [0xE1, 0x9A, 0x80],
    [0xE2, 0x80, 0x80], [0xE2, 0x80, 0x81], [0xE2, 0x80, 0x82], [0xE2, 0x80, 0x83], [0xE2, 0x80, 0x84],
    [0xE2, 0x80, 0x85], [0xE2, 0x80, 0x86], [0xE2, 0x80, 0x87], [0xE2, 0x80, 0x88], [0xE2, 0x80, 0x89],
    [0xE2, 0x80, 0x8A], [0xE2, 0x80, 0xA8], [0xE2, 0x80, 0xA9], [0xE2, 0x80, 0xAF], [0xE2, 0x81, 0x9F],
    [0xE3, 0x80, 0x80]] := by decide +kernel
  rw [e]
  constructor
  · intro h
    simp only [List.mem_cons, List.not_mem_nil, or_false] at h
    have c : ∀ x : UInt8, w = [0xE2, 0x80, x] → ((0x80 ≤ x ∧ x ≤ 0x8A) ∨ x = 0xA8 ∨ x = 0xA9 ∨ x = 0xAF) →
      (∃ c : UInt8, w = [0xE2, 0x80, c] ∧ ((0x80 ≤ c ∧ c ≤ 0x8A) ∨ c = 0xA8 ∨ c = 0xA9 ∨ c = 0xAF)) :=
      fun x h1 h2 => ⟨x, h1, h2⟩
    rcases h with h|h|h|h|h|h|h|h|h|h|h|h|h|h|h|h|h|h|h|h|h|h|h|h|h
    iterate 9 (simp only [h]; simp)
    iterate 14 (have := c _ h (by decide); simp [this])
    all_goals simp [h]
  · intro h
    simp only [List.mem_cons, List.not_mem_nil, or_false]
    rcases h with h|h|h|h|h|h|h|h|h|⟨c, h, hc⟩|h|h
    iterate 9 (simp [h])
    · have : c.toNat ∈ [0x80, 0x81, 0x82, 0x83, 0x84, 0x85, 0x86, 0x87, 0x88, 0x89, 0x8A, 0xA8, 0xA9, 0xAF] := by
        rcases hc with hc | rfl | rfl | rfl
        · simp only [UInt8.le_iff_toNat_le, UInt8.reduceToNat] at hc
          simp only [List.mem_cons, List.not_mem_nil, or_false]
          omega
        · decide
        · decide
        · decide
      simp only [List.mem_cons, List.not_mem_nil, or_false] at this
      have k : ∀ n : UInt8, c.toNat = n.toNat → w = [0xE2, 0x80, n] := fun n hn => by
        rw [h, UInt8.toNat_inj.1 hn]
      rcases this with t|t|t|t|t|t|t|t|t|t|t|t|t|t
      · have := k 0x80 t; simp [this]
      · have := k 0x81 t; simp [this]
      · have := k 0x82 t; simp [this]
      · have := k 0x83 t; simp [this]
      · have := k 0x84 t; simp [this]
      · have := k 0x85 t; simp [this]
      · have := k 0x86 t; simp [this]
      · have := k 0x87 t; simp [this]
      · have := k 0x88 t; simp [this]
      · have := k 0x89 t; simp [this]
      · have := k 0x8A t; simp [this]
      · have := k 0xA8 t; simp [this]
      · have := k 0xA9 t; simp [this]
      · have := k 0xAF t; simp [this]
    · simp [h]
    · simp [h]

theorem indent_cons {w s r : Bytes} (hw : w ∈ whiteSpace) (h : Indent s r) : Indent (w ++ s) r := by
  obtain ⟨⟨ws, rfl, h1⟩, h2⟩ := h
  refine ⟨⟨w :: ws, rfl, fun x hx => ?_⟩, h2⟩
  rcases List.mem_cons.1 hx with rfl | hx
  · exact hw
  · exact h1 x hx

theorem indent_nil {r : Bytes} (h : ∀ w ∈ whiteSpace, ¬ w <+: r) : Indent [] r := ⟨⟨[], rfl, nofun⟩, h⟩

theorem ascii_white {b : UInt8} (h : (decide (9 ≤ b) && decide (b ≤ 13) || b == 32) = true) : [b] ∈ whiteSpace := by
  simp only [Bool.or_eq_true, Bool.and_eq_true, decide_eq_true_eq, beq_iff_eq] at h
  rw [mem_whiteSpace]
  rcases h with h | rfl
  · simp only [UInt8.le_iff_toNat_le, UInt8.reduceToNat] at h
    have : b.toNat = 9 ∨ b.toNat = 10 ∨ b.toNat = 11 ∨ b.toNat = 12 ∨ b.toNat = 13 := by omega
    have k : ∀ n : UInt8, b.toNat = n.toNat → b = n := fun n hn => UInt8.toNat_inj.1 hn
    rcases this with t|t|t|t|t
    · have := k 9 t; simp [this]
    · have := k 10 t; simp [this]
    · have := k 11 t; simp [this]
    · have := k 12 t; simp [this]
    · have := k 13 t; simp [this]
  · simp

theorem trimStart_indent (r : Bytes) : ∃ s, r = s ++ trimStart r ∧ Indent s (trimStart r) := by
  have cons : ∀ (w r t : Bytes), w ∈ whiteSpace → (∃ s, r = s ++ t ∧ Indent s t) →
      ∃ s, w ++ r = s ++ t ∧ Indent s t := by
    rintro w r t hw ⟨s, e, hi⟩
    exact ⟨w ++ s, by rw [List.append_assoc, ← e], indent_cons hw hi⟩
  fun_induction trimStart r with
  | case1 =>
    refine ⟨[], rfl, indent_nil fun w hw hp => ?_⟩
    have := List.prefix_nil.1 hp
    subst this
    rw [mem_whiteSpace] at hw
    simp at hw
  | case2 b r h ih => exact cons [b] _ _ (ascii_white h) ih
  | case3 c r' h _ ih =>
    refine cons [194, c] _ _ (mem_whiteSpace.2 ?_) ih
    simp only [Bool.or_eq_true, beq_iff_eq] at h
    rcases h with rfl | rfl <;> simp
  | case4 c r' h _ =>
    refine ⟨[], rfl, indent_nil fun w hw hp => ?_⟩
    obtain ⟨t, ht⟩ := hp
    simp only [Bool.or_eq_true, beq_iff_eq, not_or] at h
    rcases mem_whiteSpace.1 hw with rfl|rfl|rfl|rfl|rfl|rfl|rfl|rfl|rfl|⟨c, rfl, hc⟩|rfl|rfl <;> simp at ht
    · exact h.1 ht.1.symm
    · exact h.2 ht.1.symm
  | case5 r' _ ih => exact cons [225, 154, 128] _ _ (mem_whiteSpace.2 (by simp)) ih
  | case6 c r' h _ ih =>
    refine cons [226, 128, c] _ _ (mem_whiteSpace.2 ?_) ih
    simp only [Bool.or_eq_true, Bool.and_eq_true, decide_eq_true_eq, beq_iff_eq] at h
    refine .inr (.inr (.inr (.inr (.inr (.inr (.inr (.inr (.inr (.inl ⟨c, rfl, ?_⟩)))))))))
    rcases h with ((h | h) | h) | h
    · exact .inl h
    · exact .inr (.inl h)
    · exact .inr (.inr (.inl h))
    · exact .inr (.inr (.inr h))
  | case7 c r' h _ =>
    refine ⟨[], rfl, indent_nil fun w hw hp => ?_⟩
    obtain ⟨t, ht⟩ := hp
    simp only [Bool.or_eq_true, Bool.and_eq_true, decide_eq_true_eq, beq_iff_eq] at h
    rcases mem_whiteSpace.1 hw with rfl|rfl|rfl|rfl|rfl|rfl|rfl|rfl|rfl|⟨c, rfl, hc⟩|rfl|rfl <;> simp at ht
    obtain ⟨rfl, _⟩ := ht
    apply h
    rcases hc with h | h | h | h
    · exact .inl (.inl (.inl h))
    · exact .inl (.inl (.inr h))
    · exact .inl (.inr h)
    · exact .inr h
  | case8 r' _ ih => exact cons [226, 129, 159] _ _ (mem_whiteSpace.2 (by simp)) ih
  | case9 r' _ ih => exact cons [227, 128, 128] _ _ (mem_whiteSpace.2 (by simp)) ih
  | case10 b r h h1 h2 h3 h4 h5 =>
    refine ⟨[], rfl, indent_nil fun w hw hp => ?_⟩
    obtain ⟨t, ht⟩ := hp
    rcases mem_whiteSpace.1 hw with rfl|rfl|rfl|rfl|rfl|rfl|rfl|rfl|rfl|⟨c, rfl, hc⟩|rfl|rfl <;>
      simp only [List.cons_append, List.nil_append, List.cons.injEq] at ht <;> obtain ⟨rfl, rfl⟩ := ht
    · exact h (by decide)
    · exact h (by decide)
    · exact h (by decide)
    · exact h (by decide)
    · exact h (by decide)
    · exact h (by decide)
    · exact h1 _ _ rfl rfl
    · exact h1 _ _ rfl rfl
    · exact h2 _ rfl rfl
    · exact h3 _ _ rfl rfl
    · exact h4 _ rfl rfl
    · exact h5 _ rfl rfl

/-- White space contains neither `*` nor `/`. -/
theorem indent_bytes {s r : Bytes} (h : Indent s r) : ∀ b ∈ s, b ≠ 42 ∧ b ≠ 47 := by
  obtain ⟨⟨ws, rfl, h1⟩, _⟩ := h
  intro b hb
  obtain ⟨w, hw, hbw⟩ := List.mem_flatten.1 hb
  rcases mem_whiteSpace.1 (h1 w hw) with rfl|rfl|rfl|rfl|rfl|rfl|rfl|rfl|rfl|⟨c, rfl, hc⟩|rfl|rfl <;>
    simp only [List.mem_cons, List.not_mem_nil, or_false] at hbw
  case inr.inr.inr.inr.inr.inr.inr.inr.inr.inl =>
    rcases hbw with rfl | rfl | rfl
    · decide
    · decide
    · rcases hc with h | rfl | rfl | rfl
      · simp only [UInt8.le_iff_toNat_le, UInt8.reduceToNat] at h
        constructor <;> (rintro rfl; revert h; decide)
      · decide
      · decide
      · decide
  all_goals first
    | (subst hbw; decide)
    | (rcases hbw with rfl | rfl <;> decide)
    | (rcases hbw with rfl | rfl | rfl <;> decide)

/-- Two given characters do not occur next to each other. -/
theorem no_infix_cons {x y b : UInt8} {s : Bytes} (h : ¬ [x, y] <:+: s) (hb : ¬ (b = x ∧ s.head? = some y)) :
    ¬ [x, y] <:+: b :: s := by
  intro hi
  rcases List.infix_cons_iff.1 hi with hp | hi
  · obtain ⟨t, ht⟩ := hp
    simp only [List.cons_append, List.nil_append, List.cons.injEq] at ht
    obtain ⟨rfl, rfl⟩ := ht
    exact hb ⟨rfl, rfl⟩
  · exact h hi

theorem no_infix_append {x y : UInt8} {p s : Bytes} (hp : ∀ b ∈ p, b ≠ x) (h : ¬ [x, y] <:+: s) :
    ¬ [x, y] <:+: p ++ s := by
  induction p with
  | nil => exact h
  | cons b p ih =>
    exact no_infix_cons (ih fun c hc => hp c (by simp [hc])) fun hh => hp b (by simp) hh.1

/-- The two conditions on the inside of a block comment. -/
def Inside (s : Bytes) : Prop := ¬ [42, 47] <:+: s ∧ ¬ [47, 42] <:+: s ++ [42]

theorem inside_nil : Inside [] := by
  constructor <;> decide

theorem inside_cons {b : UInt8} {s : Bytes} (h : Inside s) (h1 : ¬ (b = 42 ∧ s.head? = some 47))
    (h2 : ¬ (b = 47 ∧ (s ++ [42]).head? = some 42)) : Inside (b :: s) :=
  ⟨no_infix_cons h.1 h1, no_infix_cons h.2 h2⟩

theorem inside_append {p s : Bytes} (hp : ∀ b ∈ p, b ≠ 42 ∧ b ≠ 47) (h : Inside s) : Inside (p ++ s) :=
  ⟨no_infix_append (fun b hb => (hp b hb).1) h.1, by
    rw [List.append_assoc]; exact no_infix_append (fun b hb => (hp b hb).2) h.2⟩

theorem block_chars {p r t : Bytes} (hp : ∀ b ∈ p, b ≠ 10) (h : BlockText r t) : BlockText (p ++ r) (p ++ t) := by
  induction p with
  | nil => exact h
  | cons b p ih => exact .char (hp b (by simp)) (ih fun c hc => hp c (by simp [hc]))

theorem cont_bytes {b : UInt8} (h : isCont b = true) : b ≠ 42 ∧ b ≠ 47 ∧ b ≠ 10 := by
  refine ⟨?_, ?_, ?_⟩ <;> (rintro rfl; revert h; decide)

theorem skipStar_cases (t : Bytes) : (∃ r, t = 42 :: 47 :: r ∧ skipStar t = t) ∨
    (∃ r, t = 42 :: r ∧ (∀ r', r ≠ 47 :: r') ∧ skipStar t = r) ∨ (t.head? ≠ some 42 ∧ skipStar t = t) := by
  unfold skipStar
  split
  · exact .inl ⟨_, rfl, rfl⟩
  · rename_i r h
    exact .inr (.inl ⟨r, rfl, fun r' hr => h r' (by rw [hr]), rfl⟩)
  · rename_i h1 h2
    refine .inr (.inr ⟨fun hh => ?_, rfl⟩)
    cases t with
    | nil => cases hh
    | cons b bs => cases hh; exact h2 bs rfl

theorem commentLoop_block : ∀ (fuel pos : Nat) (s : Bytes) (n total : Nat) (acc u : Bytes) (m : Nat), s.length < fuel →
    commentLoop fuel pos s n total 1 none acc [] = (u, m, []) →
    ∃ body w r t, s = body ++ 42 :: 47 :: (w ++ r) ∧ Inside body ∧ Blank w ∧ BlockText body t ∧ u = acc ++ t ∧
      m = n + body.length + 2 + w.length := by
  intro fuel
  induction fuel with
  | zero => intro pos s n total acc u m h; omega
  | succ fuel ih =>
    intro pos s n total acc u m hf h
    unfold commentLoop at h
    split at h
    · simp at h
    · rename_i r
      simp only [if_true, Prod.mk.injEq] at h
      obtain ⟨rfl, rfl, _⟩ := h
      refine ⟨[], r.takeWhile isSkip, r.dropWhile isSkip, [], ?_, inside_nil, ?_, .nil, by simp, ?_⟩
      · rw [List.takeWhile_append_dropWhile]; rfl
      · intro b hb
        have := takeWhile_all b hb
        simp only [isSkip, Bool.or_eq_true, beq_iff_eq] at this
        rcases this with (((h | h) | h) | h) | h <;> simp [h]
      · simp; omega
    · exact absurd (congrArg (·.2.2) h) (commentLoop_errs_ne _ _ _ _ _ _ _ _ _ (by simp))
    · rename_i r
      obtain ⟨ind, e, hi⟩ := trimStart_indent r
      have hlen := comment_newline_le r
      simp only at h
      obtain ⟨body, w, r', t, e1, e2, e3, e4, e5, e6⟩ := ih _ _ _ _ _ _ _ (by simp at hf; omega) h
      have hib := indent_bytes hi
      have hlen2 : (skipStar (trimStart r)).length = body.length + 2 + w.length + r'.length := by
        rw [e1]; simp; omega
      -- the newline and the indentation, then the rest
      have key : ∀ p : Bytes, (∀ b ∈ p, b ≠ 42 ∧ b ≠ 47) → Inside body → Inside (10 :: (p ++ body)) := by
        intro p hp hb
        exact inside_append (p := 10 :: p) (fun b hb => by
          rcases List.mem_cons.1 hb with rfl | hb
          · decide
          · exact hp b hb) hb
      generalize trimStart r = tr at *
      subst e
      have nostar : tr = body ++ 42 :: 47 :: (w ++ r') → tr.head? ≠ some 42 ∨ body = [] →
          m = n + ((10 :: (ind ++ tr)).length - tr.length) + body.length + 2 + w.length →
          ∃ body w r t, 10 :: (ind ++ tr) = body ++ 42 :: 47 :: (w ++ r) ∧ Inside body ∧ Blank w ∧ BlockText body t ∧
            u = acc ++ t ∧ m = n + body.length + 2 + w.length := by
        rintro rfl hh hm
        refine ⟨10 :: (ind ++ body), w, r', 10 :: t, by simp, key _ hib e2, e3, ?_, ?_, ?_⟩
        · refine BlockText.line (s := ind) ⟨hi.1, fun v hv hp => hi.2 v hv ?_⟩ ?_ e4
          · exact hp.trans (List.prefix_append _ _)
          · rcases hh with hh | rfl
            · cases body with
              | nil => simp
              | cons b bs => simpa using hh
            · simp
        · rw [e5]; simp
        · rw [hm]; simp; omega
      rcases skipStar_cases tr with ⟨rr, htr, hsk⟩ | ⟨rr, htr, hno, hsk⟩ | ⟨hno, hsk⟩
      · rw [hsk] at e1 e6
        refine nostar e1 (.inr ?_) e6
        rw [htr] at e1
        cases body with
        | nil => rfl
        | cons b bs =>
          cases bs with
          | nil =>
            simp only [List.cons_append, List.nil_append, List.cons.injEq] at e1
            exact absurd e1.2.1 (by decide)
          | cons c cs =>
            simp only [List.cons_append, List.cons.injEq] at e1
            obtain ⟨rfl, rfl, _⟩ := e1
            exact absurd ⟨[], cs, by simp⟩ e2.1
      · rw [hsk] at e1 e6
        subst e1
        subst htr
        refine ⟨10 :: (ind ++ 42 :: body), w, r', 10 :: t, by simp, ?_, e3, ?_, ?_, ?_⟩
        · refine inside_append (p := 10 :: ind) (fun b hb => by
            rcases List.mem_cons.1 hb with rfl | hb
            · decide
            · exact hib b hb) (inside_cons e2 ?_ (by rintro ⟨h, _⟩; cases h))
          rintro ⟨_, hh⟩
          cases body with
          | nil => cases hh
          | cons b bs => cases hh; exact hno _ rfl
        · refine BlockText.starLine (s := ind) ⟨hi.1, fun v hv hp => hi.2 v hv ?_⟩ e4
          exact hp.trans ⟨42 :: 47 :: (w ++ r'), by simp⟩
        · rw [e5]; simp
        · rw [e6]; simp; omega
      · rw [hsk] at e1 e6
        exact nostar e1 (.inl hno) e6
    · rename_i b r hne1 hne2 hne3
      have hel := errLen_bounds (b :: r) (by simp)
      simp only at h
      obtain ⟨body, w, r', t, e1, e2, e3, e4, e5, e6⟩ := ih _ _ _ _ _ _ _ (by rw [List.length_drop]; omega) h
      have hp : (b :: r).take (errLen (b :: r)) = b :: r.takeWhile isCont := by
        simp only [errLen]; rw [Nat.add_comm 1, List.take_succ_cons, take_takeWhile]
      have hl : errLen (b :: r) = (b :: r.takeWhile isCont).length := by simp [errLen]; omega
      have hd : (b :: r).drop (errLen (b :: r)) = r.dropWhile isCont := by
        have h1 : (b :: r).take (errLen (b :: r)) ++ (b :: r).drop (errLen (b :: r)) = b :: r := List.take_append_drop _ _
        have h2 := List.takeWhile_append_dropWhile (p := isCont) (l := r)
        rw [hp] at h1
        have h3 : r.takeWhile isCont ++ (b :: r).drop (errLen (b :: r)) = r := by simpa using h1
        exact List.append_cancel_left (h3.trans h2.symm)
      rw [hd] at e1
      rw [hp] at e5
      have hr := List.takeWhile_append_dropWhile (p := isCont) (l := r)
      have hcont : ∀ c ∈ r.takeWhile isCont, isCont c = true := fun c hc => takeWhile_all c hc
      generalize r.takeWhile isCont = cs at *
      rw [e1] at hr
      subst hr
      have hb10 : b ≠ 10 := fun hh => by exact hne3 hh
      refine ⟨(b :: cs) ++ body, w, r', (b :: cs) ++ t, by simp, ?_, e3, ?_, ?_, ?_⟩
      · refine inside_cons (inside_append (fun c hc => ⟨(cont_bytes (hcont c hc)).1, (cont_bytes (hcont c hc)).2.1⟩) e2) ?_ ?_
        · rintro ⟨rfl, hh⟩
          cases cs with
          | nil =>
            cases body with
            | nil => cases hh
            | cons c body => cases hh; exact hne1 _ rfl rfl
          | cons c cs =>
            cases hh; exact (cont_bytes (hcont _ (by simp))).2.1 rfl
        · rintro ⟨rfl, hh⟩
          cases cs with
          | nil =>
            cases body with
            | nil => exact hne2 _ rfl rfl
            | cons c body => cases hh; exact hne2 _ rfl rfl
          | cons c cs =>
            cases hh; exact (cont_bytes (hcont _ (by simp))).1 rfl
      · refine block_chars (fun c hc => ?_) e4
        rcases List.mem_cons.1 hc with rfl | hc
        · exact hb10
        · exact (cont_bytes (hcont c hc)).2.2
      · rw [e5]; simp
      · rw [e6, hl]; simp; omega

theorem block_lexeme {tf : Bool} {pos : Nat} {r : Bytes} {t n} (h : blockComment pos r [] = (t, n, [])) :
    Lexeme tf ((47 :: 42 :: r).take n) t := by
  unfold blockComment at h
  cases hl : commentLoop (r.length + 1) (pos + 2) r 0 r.length 1 none [] [] with
  | mk v p =>
    obtain ⟨m, e⟩ := p
    rw [hl] at h
    simp only [Prod.mk.injEq] at h
    obtain ⟨rfl, rfl, rfl⟩ := h
    obtain ⟨body, w, r', u, e1, e2, e3, e4, e5, e6⟩ := commentLoop_block _ _ _ _ _ _ _ _ (by omega) hl
    subst e1
    rw [List.nil_append] at e5
    subst e5
    have : (47 :: 42 :: (body ++ 42 :: 47 :: (w ++ r'))).take (2 + m) = 47 :: 42 :: body ++ 42 :: 47 :: w := by
      rw [show 47 :: 42 :: (body ++ 42 :: 47 :: (w ++ r')) = (47 :: 42 :: body ++ 42 :: 47 :: w) ++ r' by simp]
      apply take_prefix
      rw [e6]; simp; omega
    rw [this]
    exact .blockComment e2.1 e2.2 e4 (crlf_of _) e3

end Verif.Lex
