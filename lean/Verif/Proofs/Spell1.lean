import Verif.Spec.Spelled
import Verif.Proofs.Sib2
import Verif.Props.Lexing
import Verif.Proofs.Project
/-!
The words of the spans of a syntax tree.
-/
namespace Verif.Spell
open Verif.Ast Verif.Spec Verif.Places
open Verif.Grammar (kw scalars)

/-- What is known about the tokens of an accepted source. -/
structure Toks (src : Bytes) : Prop where
  str : Nesting.Str (annotated src)
  pos : ∀ a ∈ annotated src, a.span.start < a.span.stop
  lex : ∀ a ∈ annotated src, Lexeme true (textOf src a.span) a.tok

/-- Derived from consecutive tokens among `ts`. -/
def From {α : Type} (ts : List ATok) (g : List ATok → α → Prop) (x : α) : Prop := ∃ t, t <:+: ts ∧ g t x

theorem From.mono {α : Type} {ts us : List ATok} {g : List ATok → α → Prop} {x : α} (h : From ts g x) (hs : ts <:+: us) :
    From us g x := h.elim fun t ht => ⟨t, ht.1.trans hs, ht.2⟩

section
variable {src : Bytes}

/-- The text of a token. -/
def txt (src : Bytes) (a : ATok) : Bytes := textOf src a.span

theorem words_eq (sp : Span) : wordsIn src sp =
    ((annotated src).filter fun a => sp.start ≤ a.span.start ∧ a.span.stop ≤ sp.stop).map (txt src) := by
  unfold wordsIn
  rw [← Verif.Pos.annotate_sig (allToks src) true [], List.filter_map, List.map_map]
  rfl

/-- The words of consecutive tokens. -/
theorem words_extent (H : Toks src) {t : List ATok} (h : t <:+: annotated src) (hne : t ≠ []) :
    wordsIn src (extent t) = t.map (txt src) := by
  rw [words_eq]
  congr 1
  obtain ⟨u, v, e⟩ := h
  have hs := H.str
  have hp := H.pos
  rw [← e] at hs hp ⊢
  obtain ⟨a, z, e1, e2, ha, hz⟩ := Nesting.ends_of hne
  rw [Nesting.extent_two e1 e2]
  have hs1 := List.pairwise_append.1 hs
  have hs2 := List.pairwise_append.1 hs1.1
  have hord : ∀ x ∈ t, a.span.start ≤ x.span.start ∧ x.span.stop ≤ z.span.stop := by
    intro x hx
    constructor
    · obtain ⟨r, rfl⟩ := List.head?_eq_some_iff.1 e1
      rcases List.mem_cons.1 hx with rfl | hx
      · exact Nat.le_refl _
      · have := (List.pairwise_cons.1 hs2.2.1).1 x hx
        have := hp a (by simp)
        omega
    · obtain ⟨r, rfl⟩ := List.getLast?_eq_some_iff.1 e2
      rcases List.mem_append.1 hx with hx | hx
      · have := (List.pairwise_append.1 hs2.2.1).2.2 x hx z (by simp)
        have := hp z (by simp)
        omega
      · rw [List.mem_singleton] at hx; subst hx; exact Nat.le_refl _
  rw [List.filter_append, List.filter_append, List.filter_eq_nil_iff.2, List.filter_eq_self.2, List.filter_eq_nil_iff.2]
  · simp
  · intro x hx
    have h1 := hs1.2.2 z (List.mem_append_right _ hz) x hx
    have h2 := hp x (by simp [hx])
    simp only [decide_eq_true_eq]
    omega
  · intro x hx
    simpa using hord x hx
  · intro x hx
    have h1 := hs2.2.2 x hx a ha
    have h2 := hp x (by simp [hx])
    simp only [decide_eq_true_eq]
    omega

theorem words_one (H : Toks src) {a : ATok} (h : a ∈ annotated src) : wordsIn src a.span = [txt src a] := by
  have : [a] <:+: annotated src := by
    obtain ⟨u, v, e⟩ := List.append_of_mem h
    exact ⟨u, v, by simp [e]⟩
  exact words_extent H this (by simp)

theorem mem_of_infix {a : ATok} {t ts : List ATok} (h : t <:+: ts) (ha : a ∈ t) : a ∈ ts := h.subset ha

/-! ### Tokens -/

theorem txt_ident (H : Toks src) {a : ATok} (h : a ∈ annotated src) {v} (e : a.tok = .ident v) : txt src a = v := by
  have := H.lex a h
  rw [e] at this
  generalize he : textOf src a.span = w at this
  cases this
  exact he

theorem txt_kw (H : Toks src) {a : ATok} (h : a ∈ annotated src) {v} (e : a.tok = kw v) : txt src a = v := txt_ident H h e

theorem txt_punct (H : Toks src) {a : ATok} (h : a ∈ annotated src) {t : Token} {w : Bytes} (e : a.tok = t)
    (hw : ∀ s, Lexeme true s t → s = w) : txt src a = w := hw _ (e ▸ H.lex a h)

theorem p_dot {s} (h : Lexeme true s .dot) : s = b!"." := by cases h; rfl
theorem p_minus {s} (h : Lexeme true s .minus) : s = b!"-" := by cases h; rfl
theorem p_equals {s} (h : Lexeme true s .equals) : s = b!"=" := by cases h; rfl
theorem p_semi {s} (h : Lexeme true s .semicolon) : s = b!";" := by cases h; rfl
theorem p_langle {s} (h : Lexeme true s .leftAngle) : s = b!"<" := by cases h; rfl

/-! ### Leaves -/

theorem ident_words (H : Toks src) {t i} (ht : t <:+: annotated src) (h : IdentG t i) :
    wordsIn src i.span = [i.value] ∧ t.map (txt src) = [i.value] := by
  obtain ⟨a, rfl, e1, e2⟩ := h
  have ha : a ∈ annotated src := ht.subset (by simp)
  rw [e2, words_one H ha]
  simp [txt_ident H ha e1]

theorem int_words (H : Toks src) {t i} (ht : t <:+: annotated src) (h : IntG t i) :
    WrittenNumber (wordsIn src i.span) i.toInt := by
  cases h with
  | @pos a v e =>
    have ha : a ∈ annotated src := ht.subset (by simp)
    refine ⟨txt src a, v, e ▸ H.lex a ha, .inl ⟨?_, by simp [Int'.toInt]⟩⟩
    exact words_extent H ht (by simp)
  | @neg m a v e1 e2 =>
    have hm : m ∈ annotated src := ht.subset (by simp)
    have ha : a ∈ annotated src := ht.subset (by simp)
    refine ⟨txt src a, v, e2 ▸ H.lex a ha, .inr ⟨?_, by simp [Int'.toInt]⟩⟩
    have := words_extent H ht (by simp)
    simpa [txt_punct H hm e1 fun _ => p_minus] using this

theorem str_texts (H : Toks src) {t s} (ht : t <:+: annotated src) (h : StrG t s) :
    t ≠ [] ∧ WrittenString (t.map (txt src)) s.value := by
  obtain ⟨ps, h1, h2, h3, h4⟩ := h
  have hne : t ≠ [] := by
    rintro rfl
    simp at h2
    exact h1 h2
  refine ⟨hne, t.zip ps |>.map fun x => (txt src x.1, x.2), ?_, ?_, ?_, ?_⟩
  · simp only [ne_eq, List.map_eq_nil_iff, List.zip_eq_nil_iff, not_or]
    exact ⟨hne, h1⟩
  · intro x hx
    obtain ⟨y, hy, rfl⟩ := List.mem_map.1 hx
    obtain ⟨i, hi, e⟩ := List.mem_iff_getElem.1 hy
    have h5 := H.lex y.1 (ht.subset (List.of_mem_zip hy).1)
    have h6 : y.1.tok = .string y.2 := by
      rw [← e, List.getElem_zip]
      have := congrArg (·[i]?) h2
      simp only [List.getElem?_map] at this
      rw [List.length_zip] at hi
      rw [List.getElem?_eq_getElem (by omega), List.getElem?_eq_getElem (by omega)] at this
      simpa using this
    rwa [h6] at h5
  · rw [List.map_map, show ((fun x : Bytes × Bytes => x.1) ∘ fun x : ATok × Bytes => (txt src x.1, x.2)) = txt src ∘ Prod.fst from rfl,
      ← List.map_map, List.map_fst_zip (by have := congrArg List.length h2; simp at this; omega)]
  · rw [h3, List.map_map, show ((fun x : Bytes × Bytes => x.2) ∘ fun x : ATok × Bytes => (txt src x.1, x.2)) = Prod.snd from rfl,
      List.map_snd_zip (by have := congrArg List.length h2; simp at this; omega)]

theorem str_words (H : Toks src) {t s} (ht : t <:+: annotated src) (h : StrG t s) :
    WrittenString (wordsIn src s.span) s.value := by
  obtain ⟨hne, hw⟩ := str_texts H ht h
  rw [h.choose_spec.2.2.2, words_extent H ht hne]
  exact hw

/-! ### Type names -/

theorem fullIdent_ends {t f} (h : FullIdentG t f) :
    t ≠ [] ∧ spanOfAll (f.parts.map (·.span)) = extent t ∧ f.parts ≠ [] := by
  have key : ∀ {t : List ATok} {l : List Ident}, SepBy .dot IdentG t l → ∃ a z, t.head? = some a ∧ t.getLast? = some z ∧
      (l.map (·.span)).head? = some a.span ∧ (l.map (·.span)).getLast? = some z.span ∧ l ≠ [] := by
    intro t l h
    induction h with
    | one h =>
      obtain ⟨a, rfl, e1, e2⟩ := h
      exact ⟨a, a, rfl, rfl, by simp [e2], by simp [e2], by simp⟩
    | @cons t x c ts as h _ _ ih =>
      obtain ⟨a, rfl, e1, e2⟩ := h
      obtain ⟨b, z, h1, h2, h3, h4, h5⟩ := ih
      have hts : ts ≠ [] := by rintro rfl; cases h1
      refine ⟨a, z, rfl, ?_, by simp [e2], ?_, by simp⟩
      · rw [show [a] ++ c :: ts = [a, c] ++ ts from rfl, List.getLast?_append, h2]; rfl
      · rw [List.map_cons, show x.span :: as.map (·.span) = [x.span] ++ as.map (·.span) from rfl, List.getLast?_append, h4]; rfl
  obtain ⟨a, z, h1, h2, h3, h4, h5⟩ := key h
  refine ⟨(by rintro rfl; cases h1), ?_, h5⟩
  rw [Nesting.extent_two h1 h2, spanOfAll, h3, h4]
  rfl

theorem joinWith_cons' {b : UInt8} {x : Bytes} {l : List Bytes} (h : l ≠ []) : joinWith b (x :: l) = x ++ b :: joinWith b l := by
  cases l with
  | nil => exact absurd rfl h
  | cons y l => rfl

theorem fullIdent_texts (H : Toks src) {t f} (ht : t <:+: annotated src) (h : FullIdentG t f) :
    (t.map (txt src)).flatten = identText f := by
  unfold identText
  have : ∀ {t : List ATok} {l : List Ident}, SepBy .dot IdentG t l → t <:+: annotated src →
      (t.map (txt src)).flatten = joinWith 46 (l.map (·.value)) ∧ l ≠ [] := by
    intro t l h
    induction h with
    | one h =>
      intro ht
      rw [(ident_words H ht h).2]
      simp [joinWith]
    | @cons t x c ts as h hc _ ih =>
      intro ht
      have h1 := (ident_words H (List.IsInfix.trans (List.prefix_append _ _).isInfix ht) h).2
      have h2 := ih (List.IsInfix.trans ((List.suffix_cons _ _).trans (List.suffix_append _ _)).isInfix ht)
      have h3 := txt_punct H (ht.subset (by simp : c ∈ t ++ c :: ts)) hc fun _ => p_dot
      refine ⟨?_, by simp⟩
      rw [List.map_append, List.map_cons, h1, h3, List.map_cons, joinWith_cons' (by simpa using h2.2), ← h2.1]
      simp
  exact (this h ht).1

theorem typeName_words (H : Toks src) {t x} (ht : t <:+: annotated src) (h : TypeNameG t x) :
    wordsIn src (typeSpan x) = t.map (txt src) ∧ (t.map (txt src)).flatten = typeText x := by
  cases h with
  | relative h =>
    obtain ⟨h1, h2, -⟩ := fullIdent_ends h
    constructor
    · rw [typeSpan]
      simp only [Option.toList_none, List.nil_append]
      rw [h2, words_extent H ht h1]
    · rw [fullIdent_texts H ht h]; rfl
  | @absolute d ts f hd h =>
    obtain ⟨h1, h2, h3⟩ := fullIdent_ends h
    have hts : ts <:+: annotated src := List.IsInfix.trans (List.suffix_cons _ _).isInfix ht
    constructor
    · rw [← words_extent H ht (by simp)]
      congr 1
      obtain ⟨a, z, e1, e2, -, -⟩ := Nesting.ends_of h1
      have hp : f.parts.map (·.span) ≠ [] := by simpa using h3
      obtain ⟨l, s, e⟩ : ∃ l s, f.parts.map (·.span) = l ++ [s] :=
        ⟨_, _, (List.dropLast_concat_getLast hp).symm⟩
      have hz : (d :: ts).getLast? = some z := by
        rw [show d :: ts = [d] ++ ts from rfl, List.getLast?_append, e2]; rfl
      rw [Nesting.extent_two (ts := d :: ts) rfl hz]
      rw [Nesting.extent_two e1 e2, spanOfAll, e] at h2
      simp only [typeSpan, Option.toList_some, spanOfAll, e, spanTo] at h2 ⊢
      have h2 := congrArg Span.stop h2
      simp at h2 ⊢
      rw [← h2]
      simp [List.getLast?_cons]
    · rw [List.map_cons, List.flatten_cons, fullIdent_texts H hts h,
        txt_punct H (ht.subset (.head _)) hd fun _ => p_dot]
      rfl

end
end Verif.Spell
