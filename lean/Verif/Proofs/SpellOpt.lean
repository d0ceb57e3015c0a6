import Verif.Proofs.Spell2
/-!
The words of options.
-/
namespace Verif.Spell
open Verif.Ast Verif.Spec Verif.Places
open Verif.Grammar (kw scalars Parts)

section
variable {src : Bytes}

/-- The words of tokens within the source. -/
theorem sub_words {t u : List ATok} (hu : u <:+: annotated src) (h : t <:+: u) : t <:+: annotated src := h.trans hu

theorem p_lparen {s} (h : Lexeme true s .leftParen) : s = b!"(" := by cases h; rfl
theorem p_rparen {s} (h : Lexeme true s .rightParen) : s = b!")" := by cases h; rfl
theorem p_lbrace {s} (h : Lexeme true s .leftBrace) : s = b!"{" := by cases h; rfl
theorem p_rbrace {s} (h : Lexeme true s .rightBrace) : s = b!"}" := by cases h; rfl

theorem int_texts (H : Toks src) {t i} (ht : t <:+: annotated src) (h : IntG t i) :
    t ≠ [] ∧ i.span = extent t ∧ WrittenNumber (t.map (txt src)) i.toInt := by
  have h1 : t ≠ [] ∧ i.span = extent t := by cases h <;> exact ⟨by simp, rfl⟩
  refine ⟨h1.1, h1.2, ?_⟩
  rw [← words_extent H ht h1.1, ← h1.2]
  exact int_words H ht h

theorem part_texts (H : Toks src) {t p} (ht : t <:+: annotated src) (h : NamePartG t p) :
    t ≠ [] ∧ partSpan p = extent t ∧ PartWords (partOf p) (t.map (txt src)) := by
  cases h with
  | ident h =>
    have hw := (ident_words H ht h).2
    obtain ⟨a, rfl, e1, e2⟩ := h
    exact ⟨by simp, e2, by simpa [PartWords, partOf] using hw⟩
  | @ext l ts r t hl h hr =>
    refine ⟨by simp, rfl, ?_⟩
    have hw := (typeName_words H (t := ts) (sub_words ht (by infx)) h).2
    simp only [PartWords, partOf, if_true]
    refine ⟨ts.map (txt src), ?_, hw.symm⟩
    simp only [List.map_append, List.map_cons, List.map_nil,
      txt_punct H (ht.subset (by simp : l ∈ l :: ts ++ [r])) hl fun _ => p_lparen,
      txt_punct H (ht.subset (by simp : r ∈ l :: ts ++ [r])) hr fun _ => p_rparen]

theorem names_texts (H : Toks src) {t ps} (ht : t <:+: annotated src) (h : SepBy .dot NamePartG t ps) :
    t ≠ [] ∧ (∃ p a, ps.head? = some p ∧ t.head? = some a ∧ (partSpan p).start = a.span.start) ∧
      NameWords (ps.map partOf) (t.map (txt src)) := by
  have key : ∀ {t p} (ht : t <:+: annotated src) (h : NamePartG t p),
      ∃ a, t.head? = some a ∧ (partSpan p).start = a.span.start := by
    intro t p ht h
    obtain ⟨h1, h2, -⟩ := part_texts H ht h
    obtain ⟨a, z, e1, e2, -, -⟩ := Nesting.ends_of h1
    exact ⟨a, e1, by rw [h2, Nesting.extent_two e1 e2]⟩
  induction h with
  | @one t p h =>
    obtain ⟨h1, h2, h3⟩ := part_texts H ht h
    obtain ⟨a, e1, e2⟩ := key ht h
    exact ⟨h1, ⟨p, a, rfl, e1, e2⟩, h3⟩
  | @cons t p c ts ps h hc hs ih =>
    have ht1 : t <:+: annotated src := sub_words ht ⟨[], c :: ts, by simp⟩
    obtain ⟨h1, h2, h3⟩ := part_texts H ht1 h
    obtain ⟨a, e1, e2⟩ := key ht1 h
    have ih := ih (sub_words ht ⟨t ++ [c], [], by simp⟩)
    refine ⟨by simp, ⟨p, a, rfl, by rw [List.head?_append, e1]; rfl, e2⟩, ?_⟩
    obtain ⟨q, -, hq, -, -⟩ := ih.2.1
    obtain ⟨ps', rfl⟩ : ∃ ps', ps = q :: ps' := by
      cases ps with
      | nil => cases hq
      | cons x l => cases hq; exact ⟨_, rfl⟩
    refine ⟨t.map (txt src), ts.map (txt src), ?_, h3, ih.2.2⟩
    rw [List.map_append, List.map_cons, txt_punct H (ht.subset (by simp : c ∈ t ++ c :: ts)) hc fun _ => p_dot]

variable [FloatFmt]

theorem value_texts (H : Toks src) {t v} (ht : t <:+: annotated src) (h : ValueG t v) (name : List OptionNamePart) :
    t ≠ [] ∧ valueSpan v = extent t ∧ OptionValueWords (optionOf ⟨name, v⟩) (t.map (txt src)) := by
  cases h with
  | ident h =>
    have hw := (ident_words H ht h).2
    obtain ⟨a, rfl, e1, e2⟩ := h
    exact ⟨by simp, rfl, .inl ⟨_, rfl, .inl hw⟩⟩
  | @negIdent m ts i hm h =>
    have hw := (ident_words H (t := ts) (sub_words ht (by infx)) h).2
    refine ⟨by simp, rfl, .inl ⟨_, rfl, .inr ?_⟩⟩
    rw [List.map_cons, hw, txt_punct H (ht.subset (by simp : m ∈ m :: ts)) hm fun _ => p_minus]
  | @int ts i h =>
    obtain ⟨h1, h2, h3⟩ := int_texts H ht h
    refine ⟨h1, h2, ?_⟩
    unfold Int'.toInt at h3
    by_cases hn : i.negative = true
    · rw [if_pos hn] at h3
      exact .inr (.inr (.inl ⟨_, by simp [optionOf, hn], h3⟩))
    · rw [if_neg hn] at h3
      exact .inr (.inl ⟨i.value, by simp [optionOf, hn], h3⟩)
  | @float a t h =>
    have ha := ht.subset (List.mem_singleton_self _)
    exact ⟨by simp, rfl, .inr (.inr (.inr (.inl ⟨false, txt src a, t, rfl, h ▸ H.lex a ha, rfl⟩)))⟩
  | @negFloat m a t hm h =>
    have ha := ht.subset (by simp : a ∈ [m, a])
    refine ⟨by simp, rfl, .inr (.inr (.inr (.inl ⟨true, txt src a, t, rfl, h ▸ H.lex a ha, ?_⟩)))⟩
    simp [txt_punct H (ht.subset (by simp : m ∈ [m, a])) hm fun _ => p_minus]
  | @string t s h =>
    obtain ⟨h1, h2⟩ := str_texts H ht h
    exact ⟨h1, h.choose_spec.2.2.2, .inr (.inr (.inr (.inr (.inl ⟨_, rfl, h2⟩))))⟩
  | @aggregate l ts r hl hb hr =>
    refine ⟨by simp, rfl, .inr (.inr (.inr (.inr (.inr ⟨_, ts.map (txt src), rfl, ?_⟩))))⟩
    simp only [List.map_append, List.map_cons, List.map_nil,
      txt_punct H (ht.subset (by simp : l ∈ l :: ts ++ [r])) hl fun _ => p_lbrace,
      txt_punct H (ht.subset (by simp : r ∈ l :: ts ++ [r])) hr fun _ => p_rbrace]

/-- The words of an option. -/
def BodyIs (o : OptionBody) (ws : List Bytes) : Prop :=
  ∃ ns vs, ws = ns ++ b!"=" :: vs ∧ NameWords (optionOf o).name ns ∧ OptionValueWords (optionOf o) vs

theorem optionOf_name (o : OptionBody) : (optionOf o).name = o.name.map partOf := by
  unfold optionOf
  split <;> first | rfl | (split <;> rfl)

theorem optBody_words (H : Toks src) {t o} (ht : t <:+: annotated src) (h : OptionBodyG t o) :
    BodyIs o (t.map (txt src)) ∧ BodyIs o (wordsIn src (optionSpan o)) := by
  cases h with
  | @mk ns name e vs value h1 h2 h3 =>
    obtain ⟨n1, ⟨p, a, n2, n3, n4⟩, n5⟩ := names_texts H (t := ns) (sub_words ht (by infx)) h1
    obtain ⟨v1, v2, v3⟩ := value_texts H (t := vs) (sub_words ht ⟨ns ++ [e], [], by simp⟩) h3 name
    have hw : BodyIs ⟨name, value⟩ ((ns ++ e :: vs).map (txt src)) := by
      refine ⟨_, _, ?_, (optionOf_name ⟨name, value⟩) ▸ n5, v3⟩
      rw [List.map_append, List.map_cons, txt_punct H (ht.subset (by simp : e ∈ ns ++ e :: vs)) h2 fun _ => p_equals]
    refine ⟨hw, ?_⟩
    obtain ⟨b, z, g1, g2, -, -⟩ := Nesting.ends_of v1
    have he : optionSpan ⟨name, value⟩ = extent (ns ++ e :: vs) := by
      rw [Nesting.extent_two (a := a) (z := z) (by rw [List.head?_append, n3]; rfl)
        (by rw [show ns ++ e :: vs = (ns ++ [e]) ++ vs by simp, List.getLast?_append, g2]; rfl)]
      simp [optionSpan, spanTo, n2, n4, v2, Nesting.extent_two g1 g2]
    rw [he, words_extent H ht (by simp)]
    exact hw

/-- The words of the value of an option. -/
theorem value_words' (H : Toks src) {o} (h : From (annotated src) OptionBodyG o) :
    (∀ i sp, o.value = .ident false i sp → wordsIn src (valueSpan o.value) = [i.value]) ∧
    (∀ i, o.value = .int i → WrittenNumber (wordsIn src (valueSpan o.value)) i.toInt) ∧
    ∀ s, o.value = .string s → WrittenString (wordsIn src (valueSpan o.value)) s.value := by
  obtain ⟨t, ht, h⟩ := h
  cases h with
  | @mk ns name e vs value h1 h2 h3 =>
    have hvs : vs <:+: annotated src := sub_words ht ⟨ns ++ [e], [], by simp⟩
    refine ⟨?_, ?_, ?_⟩
    · intro i sp hv
      obtain ⟨v1, v2, -⟩ := value_texts H hvs h3 name
      simp only at hv
      subst hv
      cases h3 with
      | ident h => rw [v2, words_extent H hvs v1, (ident_words H hvs h).2]
    · intro i hv
      simp only at hv
      subst hv
      cases h3 with
      | int h => exact int_words H hvs h
    · intro s hv
      simp only at hv
      subst hv
      cases h3 with
      | string h => exact str_words H hvs h

/-- What is said at an option in brackets. -/
theorem listed_words (H : Toks src) {o} (h : From (annotated src) OptionBodyG o) :
    optionSays (optionOf o) [] (wordsIn src (optionSpan o)) := by
  obtain ⟨t, ht, h⟩ := h
  obtain ⟨ns, vs, h1, h2, h3⟩ := (optBody_words H ht h).2
  exact ⟨ns, vs, h2, h3, .inl h1⟩

/-- What is said at an option statement. -/
theorem option_words (H : Toks src) {o} (h : From (annotated src) OptionG o) :
    optionSays (optionOf o.body) [] (wordsIn src o.span) := by
  obtain ⟨t, ht, h⟩ := h
  cases h with
  | @mk k ts z body hk h hz =>
    obtain ⟨ns, vs, h1, h2, h3⟩ := (optBody_words H (t := ts) (sub_words ht (by infx)) h).1
    refine ⟨ns, vs, h2, h3, .inr ?_⟩
    show wordsIn src (extent _) = _
    rw [words_extent H ht (by simp)]
    simp only [List.map_append, List.map_cons, List.map_nil, h1,
      txt_kw H (ht.subset (by simp : k ∈ k :: ts ++ [z])) hk,
      txt_punct H (ht.subset (by simp : z ∈ k :: ts ++ [z])) hz fun _ => p_semi, List.cons_append]

end
end Verif.Spell
