import Verif.Proofs.Comm
/-! Facts about the split of comments between tokens. -/
namespace Verif.Spec
open Verif.Parse (items_line items_lines items_line_other items_line_ne)

/-- Comments and newlines only. -/
def Trivia (l : List Token) : Prop := ∀ t ∈ l, t.isTrivia = true

theorem Trivia.tail {t : Token} {l : List Token} (h : Trivia (t :: l)) : Trivia l := fun x hx => h x (List.mem_cons_of_mem _ hx)

/-- A line comment together with the line comments on the lines that follow. -/
theorem line_run (c : Bytes) : ∀ r : List Token, ∃ (cs : List Bytes) (r' : List Token), r = cs.map .lineComment ++ r' ∧
    items (.lineComment c :: r) = .comment (c ++ cs.flatten) :: items r' := by
  intro r
  induction r generalizing c with
  | nil => exact ⟨[], [], rfl, by simp [items]⟩
  | cons x r ih =>
    cases x with
    | lineComment d =>
      obtain ⟨cs, r', h1, h2⟩ := ih (c ++ d)
      exact ⟨d :: cs, r', by simp [h1], by rw [items_lines, h2]; simp⟩
    | _ => exact ⟨[], _, rfl, by rw [items_line_other _ _ (by simp)]; simp⟩

/-- The items of a gap, one after the other. -/
theorem items_dec {gap : List Token} (h : Trivia gap) :
    (gap = [] ∧ items gap = []) ∨ (∃ r, gap = .newline :: r ∧ items gap = .blank :: items r) ∨
    ∃ run t r, gap = run ++ r ∧ run ≠ [] ∧ OneComment run t ∧ items gap = .comment t :: items r := by
  cases gap with
  | nil => exact .inl ⟨rfl, by simp [items]⟩
  | cons x r =>
    have hx := h x (List.mem_cons_self ..)
    cases x with
    | newline => exact .inr (.inl ⟨r, rfl, by rw [items]⟩)
    | lineComment c =>
      obtain ⟨cs, r', h1, h2⟩ := line_run c r
      exact .inr (.inr ⟨(c :: cs).map .lineComment, (c :: cs).flatten, r', by simp [h1], by simp, .lines (by simp), by simp [h2]⟩)
    | blockComment c =>
      cases r with
      | nil => exact .inr (.inr ⟨[.blockComment c], c, [], rfl, by simp, .block, by simp [items]⟩)
      | cons y r =>
        cases y with
        | newline => exact .inr (.inr ⟨[.blockComment c, .newline], c, r, rfl, by simp, .blockLine, by rw [items]⟩)
        | _ => exact .inr (.inr ⟨[.blockComment c], c, _, rfl, by simp, .block, by first | (simp [items]; done) | (rw [items]; intro _ h; cases h)⟩)
    | _ => cases hx

theorem trivia_append {a b : List Token} (h : Trivia (a ++ b)) : Trivia b := fun t ht => h t (List.mem_append_right _ ht)

theorem items_first {gap : List Token} {t l} (h : Trivia gap) (hi : items gap = .comment t :: l) :
    ∃ run r, gap = run ++ r ∧ OneComment run t ∧ items r = l := by
  rcases items_dec h with ⟨_, h2⟩ | ⟨r, _, h2⟩ | ⟨run, t', r, h1, _, h3, h4⟩
  · rw [h2] at hi; cases hi
  · rw [h2] at hi; cases hi
  · rw [h4] at hi
    cases hi
    exact ⟨run, r, h1, h3, rfl⟩

theorem items_last {t} : ∀ (l : List Item) {gap : List Token}, Trivia gap → items gap = l ++ [.comment t] →
    ∃ pre run, gap = pre ++ run ∧ OneComment run t ∧ (l = [] → pre = []) := by
  intro l
  induction l with
  | nil =>
    intro gap h hi
    obtain ⟨run, r, h1, h2, h3⟩ := items_first h hi
    rcases items_dec (trivia_append (h1 ▸ h)) with ⟨h4, _⟩ | ⟨r', _, h4⟩ | ⟨_, t', r', _, _, _, h4⟩
    · exact ⟨[], run, by rw [h1, h4]; simp, h2, fun _ => rfl⟩
    · rw [h4] at h3; cases h3
    · rw [h4] at h3; cases h3
  | cons x l ih =>
    intro gap h hi
    rcases items_dec h with ⟨_, h2⟩ | ⟨r, rfl, h2⟩ | ⟨run, t', r, rfl, _, h3, h4⟩
    · rw [h2] at hi; cases hi
    · rw [h2] at hi
      obtain ⟨pre, run, h3, h4, _⟩ := ih h.tail (List.cons.inj hi).2
      exact ⟨.newline :: pre, run, by rw [h3]; rfl, h4, nofun⟩
    · rw [h4] at hi
      obtain ⟨pre, run', h5, h6, _⟩ := ih (trivia_append h) (List.cons.inj hi).2
      exact ⟨run ++ pre, run', by rw [h5]; simp, h6, nofun⟩

theorem OneComment.texts {run t} (h : OneComment run t) : ∃ g, g ≠ [] ∧ t = g.flatten ∧ commentTexts run = g := by
  cases h with
  | @lines cs hne =>
    refine ⟨cs, hne, rfl, ?_⟩
    clear hne
    induction cs with
    | nil => rfl
    | cons c cs ih => simp only [commentTexts, List.map_cons, List.filterMap_cons, List.cons.injEq, true_and]; exact ih
  | block => exact ⟨[t], by simp, by simp, rfl⟩
  | blockLine => exact ⟨[t], by simp, by simp, rfl⟩

theorem commentTexts_append (a b : List Token) : commentTexts (a ++ b) = commentTexts a ++ commentTexts b :=
  List.filterMap_append

theorem JoinedFrom.nil : JoinedFrom [] [] := ⟨[], by simp, rfl, rfl⟩

theorem JoinedFrom.append {a b c d} (h : JoinedFrom a b) (k : JoinedFrom c d) : JoinedFrom (a ++ c) (b ++ d) := by
  obtain ⟨g, h0, rfl, rfl⟩ := h
  obtain ⟨g', k0, rfl, rfl⟩ := k
  exact ⟨g ++ g', by simpa [or_imp, forall_and] using ⟨h0, k0⟩, by simp, by simp⟩

theorem JoinedFrom.single (t : Bytes) : JoinedFrom [t] [t] := ⟨[[t]], by simp, by simp, by simp⟩

theorem items_joined : ∀ (n : Nat) {gap : List Token}, gap.length ≤ n → Trivia gap →
    JoinedFrom (texts (items gap)) (commentTexts gap) := by
  intro n
  induction n with
  | zero =>
    intro gap hn _
    cases gap with
    | nil => exact .nil
    | cons => simp at hn
  | succ n ih =>
    intro gap hn h
    rcases items_dec h with ⟨rfl, h2⟩ | ⟨r, rfl, h2⟩ | ⟨run, t', r, rfl, h0, h3, h4⟩
    · exact .nil
    · rw [h2]
      exact ih (by simpa using hn) h.tail
    · rw [h4]
      obtain ⟨g, hg, ht, hc⟩ := h3.texts
      have := ih (gap := r) (by
        have : run.length ≠ 0 := by simpa using h0
        simp only [List.length_append] at hn
        omega) (trivia_append h)
      obtain ⟨gs, k0, k1, k2⟩ := this
      refine ⟨g :: gs, by simpa using ⟨hg, k0⟩, ?_, ?_⟩
      · rw [List.map_cons, ← k1, ← ht]; rfl
      · rw [commentTexts_append, hc, k2]; rfl

theorem before_all (closed : Bool) (l : List Item) : (before closed l).all = texts l ∧ (before closed l).trailing = none := by
  unfold before
  split
  · rename_i t h
    obtain ⟨l', rfl⟩ := List.getLast?_eq_some_iff.1 h
    split
    · exact ⟨by simp [Split.all], rfl⟩
    · exact ⟨by simp [Split.all, texts, List.filterMap_append], rfl⟩
  · exact ⟨by simp [Split.all], rfl⟩

theorem between_all (closed : Bool) (l : List Item) : (between closed l).all = texts l := by
  unfold between
  split
  · rename_i t x l
    obtain ⟨h1, h2⟩ := before_all closed (x :: l)
    rw [show texts (.comment t :: x :: l) = t :: texts (x :: l) from rfl, ← h1]
    simp [Split.all, h2]
  · rename_i t
    cases closed <;> simp [Split.all, texts]
  · exact (before_all closed _).1

/-- All comments of a gap belong to some token, in order and none of them twice; unless a block comment follows a token
and something else follows on the same line. -/
theorem split_all {start closed : Bool} {gap : List Token} (h : Trivia gap) :
    JoinedFrom (split start closed gap).all (commentTexts gap) ∨
    (start = false ∧ split start closed gap = {} ∧ ∃ c r, gap = .blockComment c :: r ∧ r.head? ≠ some .newline) := by
  unfold split
  split
  · rw [(before_all _ _).1]
    exact .inl (items_joined _ (Nat.le_refl _) h)
  · rename_i hs
    have hs : start = false := by simpa using hs
    split
    · rename_i c r
      obtain ⟨h1, h2⟩ := before_all closed (items r)
      refine .inl ?_
      have := (JoinedFrom.single c).append (items_joined _ (Nat.le_refl _) h.tail)
      rw [← h1] at this
      simpa [Split.all, h2, commentTexts] using this
    · rename_i c r
      refine .inl ?_
      rw [between_all]
      exact (JoinedFrom.single c).append (items_joined _ (Nat.le_refl _) h.tail.tail)
    · rename_i c r hne
      refine .inr ⟨hs, rfl, c, r, rfl, ?_⟩
      cases r with
      | nil => simp
      | cons x r => intro he; cases he; exact hne r rfl
    · rename_i r
      refine .inl ?_
      rw [between_all]
      exact items_joined _ (Nat.le_refl _) h.tail
    · rename_i h1 h2 h3 h4
      cases gap with
      | nil => exact .inl .nil
      | cons t r =>
        have := h t (List.mem_cons_self ..)
        cases t <;> first | cases this | skip
        · exact absurd rfl (h1 _ _)
        · exact absurd rfl (h3 _ _)
        · exact absurd rfl (h4 _)

theorem before_leading {closed : Bool} {l : List Item} {t} (h : (before closed l).leading = some t) :
    closed = false ∧ ∃ l', l = l' ++ [.comment t] := by
  unfold before at h
  split at h
  · rename_i t' hl
    split at h
    · cases h
    · rename_i hc
      cases h
      exact ⟨by simpa using hc, List.getLast?_eq_some_iff.1 hl⟩
  · cases h

theorem between_leading {closed : Bool} {l : List Item} {t} (h : (between closed l).leading = some t) :
    closed = false ∧ ∃ l', l = l' ++ [.comment t] := by
  unfold between at h
  split at h
  · rename_i t' x l
    obtain ⟨h1, l', h2⟩ := before_leading h
    exact ⟨h1, .comment t' :: l', by rw [h2]; rfl⟩
  · split at h
    · cases h
    · rename_i hc
      cases h
      exact ⟨by simpa using hc, [], rfl⟩
  · exact before_leading h

/-- A leading comment stands directly before its token, which does not close a block. -/
theorem split_leading {start closed : Bool} {gap : List Token} {t} (hg : Trivia gap)
    (h : (split start closed gap).leading = some t) :
    closed = false ∧ ∃ pre run, gap = pre ++ run ∧ OneComment run t := by
  have fin : ∀ {pre r : List Token} {l' : List Item}, Trivia r → items r = l' ++ [.comment t] →
      ∃ pre' run, pre ++ r = pre' ++ run ∧ OneComment run t := by
    intro pre r l' hr hi
    obtain ⟨p, run, h1, h2, _⟩ := items_last l' hr hi
    exact ⟨pre ++ p, run, by rw [h1]; simp, h2⟩
  unfold split at h
  split at h
  · obtain ⟨h1, l', h2⟩ := before_leading h
    exact ⟨h1, fin (pre := []) hg h2⟩
  · split at h
    · rename_i c r
      obtain ⟨h1, l', h2⟩ := before_leading h
      exact ⟨h1, fin (pre := [.lineComment c]) hg.tail h2⟩
    · rename_i c r
      obtain ⟨h1, l', h2⟩ := between_leading h
      cases l' with
      | nil =>
        simp only [List.nil_append, List.cons.injEq, Item.comment.injEq] at h2
        obtain ⟨rfl, h3⟩ := h2
        rcases items_dec hg.tail.tail with ⟨rfl, _⟩ | ⟨r', _, h4⟩ | ⟨_, _, _, _, _, _, h4⟩
        · exact ⟨h1, [], _, rfl, .blockLine⟩
        · rw [h3] at h4; cases h4
        · rw [h3] at h4; cases h4
      | cons x l' =>
        exact ⟨h1, fin (pre := [.blockComment c, .newline]) hg.tail.tail (List.cons.inj h2).2⟩
    · cases h
    · rename_i r
      obtain ⟨h1, l', h2⟩ := between_leading h
      exact ⟨h1, fin (pre := [.newline]) hg.tail h2⟩
    · cases h

theorem between_trailing {closed : Bool} {l : List Item} {t} (h : (between closed l).trailing = some t) :
    ∃ l', l = .comment t :: l' ∧ (closed = true ∨ l' ≠ []) := by
  unfold between at h
  split at h
  · cases h; exact ⟨_, rfl, .inr (by simp)⟩
  · split at h
    · rename_i hc; cases h; exact ⟨[], rfl, .inl hc⟩
    · cases h
  · rw [(before_all _ _).2] at h; cases h

/-- A trailing comment is a line comment on the line of its token, or a comment at the end of this line or on the next
line which does not touch the following token. -/
theorem split_trailing {start closed : Bool} {gap : List Token} {t} (hg : Trivia gap)
    (h : (split start closed gap).trailing = some t) :
    start = false ∧ ((∃ r, gap = .lineComment t :: r) ∨
      (∃ r, gap = .blockComment t :: .newline :: r ∧ (closed = true ∨ r ≠ [])) ∨
      ∃ run r, gap = .newline :: (run ++ r) ∧ OneComment run t ∧ (closed = true ∨ r ≠ [])) := by
  have ne : ∀ {r : List Token}, items r ≠ [] → r ≠ [] := by
    rintro r h rfl; exact h (by simp [items])
  unfold split at h
  split at h
  · rw [(before_all _ _).2] at h; cases h
  · rename_i hs
    refine ⟨by simpa using hs, ?_⟩
    split at h
    · cases h; exact .inl ⟨_, rfl⟩
    · obtain ⟨l', h1, h2⟩ := between_trailing h
      simp only [List.cons.injEq, Item.comment.injEq] at h1
      obtain ⟨rfl, rfl⟩ := h1
      exact .inr (.inl ⟨_, rfl, h2.imp id ne⟩)
    · cases h
    · obtain ⟨l', h1, h2⟩ := between_trailing h
      obtain ⟨run, r, rfl, h3, rfl⟩ := items_first hg.tail h1
      exact .inr (.inr ⟨run, r, rfl, h3, h2.imp id ne⟩)
    · cases h

/-! ## All the tokens -/

theorem trivia_gapOf : ∀ l : List STok, Trivia (gapOf l)
  | [] => nofun
  | t :: r => by
    unfold gapOf
    split
    · rename_i h
      intro x hx
      rcases List.mem_cons.1 hx with rfl | hx
      · exact h
      · exact trivia_gapOf r x hx
    · nofun

theorem gap_append : ∀ l : List STok, ∃ g, l = g ++ afterGap l ∧ g.map (·.1) = gapOf l
  | [] => ⟨[], rfl, rfl⟩
  | t :: r => by
    unfold gapOf afterGap
    split
    · obtain ⟨g, h1, h2⟩ := gap_append r
      exact ⟨t :: g, by rw [List.cons_append, ← h1], by simp [h2]⟩
    · exact ⟨[], rfl, rfl⟩

/-- A token of the annotated source, and the comments around it. -/
theorem annotate_mem (l : List STok) : ∀ (pre0 : List STok) (gap : List STok) (start : Bool) (a : ATok),
    a ∈ annotate start (gap.map (·.1)) l → Trivia (gap.map (·.1)) → (start = true ↔ pre0 = []) →
    (∀ x, pre0.getLast? = some x → x.1.isTrivia = false) →
    ∃ pre g post, pre0 ++ gap ++ l = pre ++ g ++ (a.tok, a.span) :: post ∧ Trivia (g.map (·.1)) ∧ a.tok.isTrivia = false ∧
      (∀ x, pre.getLast? = some x → x.1.isTrivia = false) ∧
      a.detached = (split pre.isEmpty (closes ((a.tok, a.span) :: post)) (g.map (·.1))).detached ∧
      a.leading = (split pre.isEmpty (closes ((a.tok, a.span) :: post)) (g.map (·.1))).leading ∧
      a.trailing = (splitAhead false post).trailing := by
  induction l with
  | nil => intro pre0 gap start a h; cases h
  | cons t r ih =>
    intro pre0 gap start a h hg hs hp
    unfold annotate at h
    split at h
    · rename_i ht
      have := ih pre0 (gap ++ [t]) start a (by simpa using h) (by
        intro x hx
        simp only [List.map_append, List.mem_append, List.map_cons, List.map_nil, List.mem_singleton] at hx
        rcases hx with hx | rfl
        · exact hg x hx
        · exact ht) hs hp
      simpa using this
    · rename_i ht
      rcases List.mem_cons.1 h with rfl | h
      · have hse : start = pre0.isEmpty := by
          cases start with
          | true => rw [hs.1 rfl]; rfl
          | false =>
            cases pre0 with
            | nil => exact absurd (hs.2 rfl) (by simp)
            | cons => rfl
        exact ⟨pre0, gap, r, rfl, hg, by simpa using ht, hp, by rw [← hse], by rw [← hse], rfl⟩
      · have := ih (pre0 ++ gap ++ [t]) [] false a h nofun (by simp) (by
          intro x hx
          rw [List.getLast?_append] at hx
          cases hx
          simpa using ht)
        simpa using this

/-- No comment belongs to two tokens. -/
theorem annotate_joined (l : List STok) : ∀ (gap : List Token) (start : Bool), Trivia gap →
    ∃ inp, JoinedFrom ((split start (closes (afterGap l)) (gap ++ gapOf l)).trailing.toList ++
        (annotate start gap l).flatMap fun a => a.detached ++ a.leading.toList ++ a.trailing.toList) inp ∧
      inp.Sublist (commentTexts (gap ++ l.map (·.1))) := by
  have key : ∀ {start closed gap} {X Y : List Bytes}, Trivia gap → JoinedFrom X Y →
      ∃ inp, JoinedFrom ((split start closed gap).all ++ X) inp ∧ inp.Sublist (commentTexts gap ++ Y) := by
    intro start closed gap X Y hg hX
    rcases split_all (start := start) (closed := closed) hg with h | ⟨_, h, _⟩
    · exact ⟨_, h.append hX, List.Sublist.refl _⟩
    · rw [h]; exact ⟨Y, by simpa [Split.all] using hX, List.sublist_append_right _ _⟩
  induction l with
  | nil =>
    intro gap start hg
    simp only [gapOf, afterGap, annotate, List.append_nil, List.flatMap_nil, List.map_nil]
    rcases split_all (start := start) (closed := closes []) hg with h | ⟨_, h, _⟩
    · obtain ⟨gs, h0, h1, h2⟩ := h
      cases ht : (split start (closes []) gap).trailing with
      | none => exact ⟨[], .nil, List.nil_sublist _⟩
      | some t =>
        simp only [Split.all, ht, Option.toList_some, List.cons_append, List.nil_append] at h1
        cases gs with
        | nil => cases h1
        | cons g gs =>
          simp only [List.map_cons, List.cons.injEq] at h1
          refine ⟨g, ⟨[g], by simpa using h0 g (List.mem_cons_self ..), by simp [h1.1], by simp⟩, ?_⟩
          rw [h2]; simp
    · rw [h]; exact ⟨[], .nil, List.nil_sublist _⟩
  | cons t r ih =>
    intro gap start hg
    unfold annotate gapOf afterGap
    split
    · rename_i ht
      have := ih (gap ++ [t.1]) start (by
        intro x hx
        simp only [List.mem_append, List.mem_singleton] at hx
        rcases hx with hx | rfl
        · exact hg x hx
        · exact ht)
      simpa using this
    · rename_i ht
      obtain ⟨inp, h1, h2⟩ := ih [] false nofun
      simp only [List.append_nil, List.nil_append, List.flatMap_cons] at h1 h2 ⊢
      obtain ⟨inp', h3, h4⟩ := key (start := start) (closed := closes (t :: r)) hg h1
      refine ⟨inp', ?_, h4.trans ?_⟩
      · simpa [Split.all, splitAhead, List.append_assoc] using h3
      · have : commentTexts [t.1] = [] := by
          cases hk : t.1 <;> simp [hk, Token.isTrivia] at ht <;> rfl
        rw [List.map_cons, commentTexts_append, show t.1 :: r.map (·.1) = [t.1] ++ r.map (·.1) from rfl, commentTexts_append, this]
        exact (List.Sublist.refl _).append h2

end Verif.Spec
