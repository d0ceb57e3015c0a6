import Verif.Proofs.Snd2
/-! Soundness of the grammar methods: options, ranges, reserved names. -/
namespace Verif.Ast

theorem SpIn.lt {a b : Nat} {s : Span} (h : SpIn a b s) : a < b := by
  have := h.1; have := h.2.1; have := h.2.2; omega
theorem SpIn.le {a b : Nat} {s : Span} (h : SpIn a b s) : a ≤ b := Nat.le_of_lt (SpIn.lt h)
theorem SpIn.wr {a b b' : Nat} {s : Span} (h : SpIn a b s) (hb : b ≤ b') : SpIn a b' s :=
  SpIn.mono h (Nat.le_refl _) hb
theorem SpIn.wl {a a' b : Nat} {s : Span} (h : SpIn a b s) (hb : a' ≤ a) : SpIn a' b s :=
  SpIn.mono h hb (Nat.le_refl _)

/-- Joining spans that are apart. -/
theorem SpIn.join' {a b c d : Nat} {s t : Span} (h : SpIn a b s) (h' : SpIn c d t) (hbc : b ≤ c) :
    SpIn a d (joinSpan s t) := (SpIn.wr h hbc).join h'

end Verif.Ast

namespace Verif.Parse
open Lex Verif.Ast Verif.Grammar

variable {L n fuel : Nat}

/-! ## Aggregates -/

theorem aggText_snoc [FloatFmt] (ts : List Token) (t : Token) :
    aggText (ts ++ [t]) = (if aggText ts = [] then aggText ts else aggText ts ++ [32]) ++ t.display := by
  unfold aggText; rw [List.foldl_append]; rfl

/-- Reading `ts` inside `n` open braces leads inside `k` open braces. -/
def Level (n : Nat) (ts : List Token) (k : Nat) : Prop := ∀ r, balanced n (ts ++ r) = balanced k r

theorem Level.snoc {n k : Nat} {ts : List Token} {t : Token} (h : Level n ts k) (hz : ¬ (t = .rightBrace ∧ k = 0)) :
    Level n (ts ++ [t]) (if t = .leftBrace then k + 1 else if t = .rightBrace then k - 1 else k) := by
  intro r
  rw [List.append_assoc, h]
  cases t <;> simp [balanced]
  · cases k with
    | zero => simp at hz
    | succ k => simp [balanced]

/-- The text-format loop ends in front of the closing brace, or at the end of input. -/
theorem textFormat_snd [FloatFmt] {β : Type} {E : AS → Prop} {st st1 : AS} {u : List STok} {Φ : Prop} {Q : β → AS → Prop} {f : Bytes → Prog β}
    (A : At L n E st u Φ st1) (hf : n < fuel) (hpk : st1.peeked = false)
    (k : ∀ used text st2, At L n E st (u ++ used)
      (Φ ∧ text = aggText (bare used) ∧ (st2.toks = [] ∨ balanced 0 (bare used) = true)) st2 → wp L (f text) Q E st2) :
    wp L (parseTextFormat fuel >>= f) Q E st1 := by
  unfold parseTextFormat
  rw [wp_bind', wp_bind']
  refine ⟨hpk, ?_⟩
  show wp L (loopM textFormatStep fuel ([], 0) >>= _) _ _ _
  rw [wp_bind']
  refine wp_loopM (fun s st2 => ∃ w, At L n E st (u ++ w)
      (Φ ∧ s.1 = aggText (bare w) ∧ Level 0 (bare w) s.2) st2) ?_ fuel ([], 0) st1
    ⟨[], ⟨by simpa using A.eats, fun hb => ⟨A.good hb, rfl, fun r => rfl⟩, A.len, A.pre, A.fail⟩⟩
    (by have := A.len; omega)
  rintro ⟨text, level⟩ st2 ⟨w, A⟩
  unfold textFormatStep
  refine A.peekO (fun ht A => ?_) (fun t sp r ht A => ?_)
  · exact k w text _ ⟨A.eats, fun hb => ⟨(A.good hb).1, (A.good hb).2.1, .inl rfl⟩, A.len, A.pre, A.fail⟩
  · simp only
    split
    · rename_i hz
      obtain ⟨rfl, rfl⟩ := hz
      refine k w text _ ⟨A.eats, fun hb => ⟨(A.good hb).1, (A.good hb).2.1, .inr ?_⟩, A.len, A.pre, A.fail⟩
      have := (A.good hb).2.2 []
      simpa [balanced] using this
    · rename_i hz
      refine A.bump fun A => ?_
      refine ⟨⟨w ++ [(t, sp)], ⟨by simpa using A.eats, fun hb => ⟨(A.good hb).1, ?_, ?_⟩, A.len, A.pre, A.fail⟩⟩, ?_⟩
      · rw [bare_append]
        simp only [bare_cons, bare_nil]
        rw [aggText_snoc, ← (A.good hb).2.1]
      · rw [bare_append]
        exact (A.good hb).2.2.snoc hz
      · rw [ht]; simp

/-! ## Options -/

theorem parseOptionNamePart_snd (hf : n < fuel) :
    Snd L n (parseOptionNamePart fuel) NamePartG OptionNamePart.In := by
  intro st Q E hn hp hQ hE
  unfold parseOptionNamePart
  refine (At.start hn hp hE).peek rfl fun t sp r ht A hun => ?_
  simp only
  split
  · rename_i heq; subst heq
    refine A.bump fun A => ?_
    refine A.call (parseTypeName_snd hf _) fun used v st2 e A i => ?_
    refine A.expect fun sp2 st3 _ A => ?_
    refine hQ _ _ _ A.eats (fun hb => ?_) (fun a b h => ?_)
    · simpa using NamePartG.ext (sp := joinSpan sp sp2) (A.good hb).2
    · obtain ⟨c, h1, h2⟩ := UC_append.1 h
      obtain ⟨d, h3, h4⟩ := UC_cons.1 h1
      have h5 := UC_one.1 h2
      have h6 := SpIn.le h5
      have h7 := SpIn.le h3
      have h8 := h4.le
      exact ⟨(i _ _ h4).mono h7 h6, SpIn.join' h3 h5 h8⟩
  · cases t <;> try exact hun
    refine A.call parseIdent_snd fun used v st2 e A i => ?_
    exact hQ _ _ _ A.eats (fun hb => .ident (A.good hb).2) (fun a b h => i _ _ h)

theorem optionNameStep_snd (hf : n < fuel) (s : List OptionNamePart) : Snd L n (optionNameStep fuel s)
      (stepG (sepElem .dot NamePartG) (fun ts s v => ts = [.equals] ∧ v = s) s)
      (stepI (fun a b s => s ≠ [] ∧ ChainIn OptionNamePart.In a s b)
        (fun a b s => s ≠ [] ∧ ChainIn OptionNamePart.In a s b) s) := by
  intro st Q E hn hp hQ hE
  unfold optionNameStep
  refine (At.start hn hp hE).peekSkip rfl fun t sp r ht A hun => ?_
  simp only
  split
  · rename_i heq; subst heq
    refine A.bump fun A => ?_
    refine A.call (parseOptionNamePart_snd hf) fun used v st2 e A i => ?_
    refine hQ _ _ _ A.eats (fun hb => ⟨bare used, v, by simp, (A.good hb).2, rfl⟩) ?_
    intro a b h
    obtain ⟨c, h1, h2⟩ := UC_cons.1 h
    refine ⟨UC.lt h, fun a0 h4 => ⟨by simp, ?_⟩⟩
    exact chainIn_snoc (P := OptionNamePart.In) OptionNamePart.In.mono h4.2
      ((i _ _ h2).mono (SpIn.le h1) (Nat.le_refl _))
  · split
    · rename_i heq; subst heq
      refine A.bump fun A => ?_
      exact hQ _ _ _ A.eats (fun hb => ⟨rfl, rfl⟩)
        (fun a b h a0 hc => ⟨hc.1, hc.2.mono OptionNamePart.In.mono (Nat.le_refl _) h.le⟩)
    · exact hun

theorem parseOptionValue_snd [FloatFmt] (hf : n < fuel) :
    Snd L n (parseOptionValue fuel) ValueG OptionValue.In := by
  intro st Q E hn hp hQ hE
  unfold parseOptionValue
  refine (At.start hn hp hE).peekSkip rfl fun t sp r ht A hun => ?_
  cases t <;> try exact hun
  · -- identifier
    refine A.call parseIdent_snd fun used v st2 e A i => ?_
    refine hQ _ _ _ A.eats (fun hb => .ident (A.good hb).2) (fun a b h => ?_)
    have hv := i a b h
    refine ⟨hv, ?_⟩
    have h1 := e.toks
    cases used with
    | nil => exact absurd (SpIn.lt (i a a (Nat.le_refl _))) (Nat.lt_irrefl _)
    | cons x xs =>
      simp only [List.map_cons, List.cons_append, List.cons.injEq, Option.some.injEq] at h1
      obtain ⟨c, h2, h3⟩ := UC_cons.1 h
      rw [← h1.1] at h2
      exact SpIn.wr h2 h3.le
  · -- integer
    refine A.bump fun A => ?_
    exact hQ _ _ _ A.eats (fun hb => .int .pos) (fun a b h => UC_one.1 h)
  · -- float
    refine A.bump fun A => ?_
    exact hQ _ _ _ A.eats (fun hb => .float) (fun a b h => UC_one.1 h)
  · -- string
    refine A.call (parseString_snd hf) fun used v st2 e A i => ?_
    exact hQ _ _ _ A.eats (fun hb => .string (A.good hb).2) (fun a b h => i _ _ h)
  · -- minus
    refine A.bump fun A => ?_
    refine A.peekSkip rfl fun t2 sp2 r2 ht2 A hun => ?_
    cases t2 <;> try exact hun
    · refine A.call parseIdent_snd fun used v st2 e A i => ?_
      refine hQ _ _ _ A.eats (fun hb => .negIdent (A.good hb).2) (fun a b h => ?_)
      obtain ⟨c, h2, h3⟩ := UC_cons.1 h
      refine ⟨(i _ _ h3).mono (SpIn.le h2) (Nat.le_refl _), ?_⟩
      have h1 := e.toks
      cases used with
      | nil => exact absurd (SpIn.lt (i a a (Nat.le_refl _))) (Nat.lt_irrefl _)
      | cons x xs =>
        simp only [List.map_cons, List.cons_append, List.cons.injEq, Option.some.injEq] at h1
        obtain ⟨d, h4, h5⟩ := UC_cons.1 h3
        rw [← h1.1] at h4
        exact SpIn.wr (h2.join h4) h5.le
    · refine A.bump fun A => ?_
      refine hQ _ _ _ A.eats (fun hb => .int .neg) (fun a b h => ?_)
      obtain ⟨c, h2, h3⟩ := UC_cons.1 h
      exact h2.join (UC_one.1 h3)
    · refine A.bump fun A => ?_
      refine hQ _ _ _ A.eats (fun hb => .negFloat) (fun a b h => ?_)
      obtain ⟨c, h2, h3⟩ := UC_cons.1 h
      exact h2.join (UC_one.1 h3)
  · -- aggregate
    refine A.bump fun A => ?_
    refine textFormat_snd A hf rfl fun used text st2 A => ?_
    rw [wp_bind']
    refine wp_expectEq A.pre (fun sp2 st3 ht e _ => ?_) (fun st' h _ _ => A.fail _ h)
    have A' := A.step1 e
    refine hQ _ _ _ A'.eats (fun hb => ?_) (fun a b h => ?_)
    · obtain ⟨_, rfl, h2 | h2⟩ := A.good (e.notBad hb)
      · rw [h2] at ht; cases ht
      · simpa using ValueG.aggregate (sp := joinSpan sp sp2) h2
    · obtain ⟨c, h1, h2⟩ := UC_append.1 h
      obtain ⟨d, h3, h4⟩ := UC_cons.1 h1
      exact SpIn.join' h3 (UC_one.1 h2) h4.le

theorem parseOptionBody_snd [FloatFmt] (hf : n < fuel) :
    Snd L n (parseOptionBody fuel) OptionBodyG OptionBody.In := by
  intro st Q E hn hp hQ hE
  unfold parseOptionBody
  refine (At.start hn hp hE).call (parseOptionNamePart_snd hf) fun used v st2 e A i => ?_
  refine A.loop hf (optionNameStep_snd hf) (fun a b h => ⟨by simp, b, i a b h, Nat.le_refl b⟩)
    fun used2 w st2 A i2 => ?_
  refine A.call (parseOptionValue_snd hf) fun used3 v3 st3 e A i3 => ?_
  refine hQ _ _ _ A.eats (fun hb => ?_) (fun a b h => ?_)
  · obtain ⟨⟨⟨_, h0⟩, t1, t2, s, h1, h2, rfl, rfl⟩, h3⟩ := A.good hb
    have := OptionBodyG.mk (sepBy_many h2 (SepBy.one h0)) h3
    simpa [h1] using this
  · obtain ⟨c, h1, h2⟩ := UC_append.1 h
    exact ⟨(i2 a c h1).1, c, (i2 a c h1).2, i3 _ _ h2⟩

theorem parseOption_sndK [FloatFmt] (hf : n < fuel) :
    SndK L n (kw b!"option") (parseOption fuel) OptionG Opt.In := by
  intro st Q E hn hp hQ hE
  unfold parseOption
  refine At.startK hn hp hE fun c sp st2 A => ?_
  refine A.call (parseOptionBody_snd hf) fun used v st3 e A i => ?_
  refine A.expect fun sp2 st4 _ A => ?_
  refine A.trailing fun c2 st5 A => ?_
  refine hQ _ _ _ A.eats (fun hb => ?_) (fun a b h => ?_)
  · simpa using OptionG.mk (c := c2) (sp := joinSpan sp sp2) (A.good hb).2
  · obtain ⟨c, h1, h2⟩ := UC_append.1 h
    obtain ⟨d, h3, h4⟩ := UC_cons.1 h1
    have h5 := UC_one.1 h2
    exact ⟨(i _ _ h4).mono (SpIn.le h3) (SpIn.le h5), SpIn.join' h3 h5 h4.le⟩

theorem parseOption_snd [FloatFmt] (hf : n < fuel) : Snd L n (parseOption fuel) OptionG Opt.In :=
  (parseOption_sndK hf).snd

/-- All elements between `a` and `b`. -/
theorem all_snoc {α : Type} {P : Nat → Nat → α → Prop}
    (hP : ∀ {a a' b b' x}, P a b x → a' ≤ a → b ≤ b' → P a' b' x) {a b c : Nat} {l : List α} {x : α}
    (h : ∀ y ∈ l, P a b y) (hx : P b c x) (hab : a ≤ b) (hbc : b ≤ c) : ∀ y ∈ l ++ [x], P a c y := by
  intro y hy
  rw [List.mem_append, List.mem_singleton] at hy
  rcases hy with hy | rfl
  · exact hP (h y hy) (Nat.le_refl _) hbc
  · exact hP hx hab (Nat.le_refl _)

theorem optionsListStep_snd [FloatFmt] (hf : n < fuel) (sp0 : Span) (s : List OptionBody) :
    Snd L n (optionsListStep fuel s)
      (stepG (sepElem .comma OptionBodyG) (fun ts s v => ts = [.rightBracket] ∧ v.1 = s) s)
      (stepI (fun a b s => SpIn a b sp0 ∧ ∀ x ∈ s, x.In a b)
        (fun a b v => (∀ x ∈ v.1, x.In a b) ∧ SpIn a b (joinSpan sp0 v.2)) s) := by
  intro st Q E hn hp hQ hE
  unfold optionsListStep
  refine (At.start hn hp hE).peekSkip rfl fun t sp r ht A hun => ?_
  simp only
  split
  · rename_i heq; subst heq
    refine A.bump fun A => ?_
    refine A.call (parseOptionBody_snd hf) fun used v st2 e A i => ?_
    refine hQ _ _ _ A.eats (fun hb => ⟨bare used, v, by simp, (A.good hb).2, rfl⟩) ?_
    intro a b h
    obtain ⟨c, h1, h2⟩ := UC_cons.1 h
    refine ⟨UC.lt h, fun a0 h4 => ⟨SpIn.wr h4.1 h.le, ?_⟩⟩
    exact all_snoc (P := OptionBody.In) OptionBody.In.mono h4.2
        ((i _ _ h2).mono (SpIn.le h1) (Nat.le_refl _)) (SpIn.le h4.1) h.le
  · split
    · rename_i heq; subst heq
      refine A.bump fun A => ?_
      exact hQ _ _ _ A.eats (fun hb => ⟨rfl, rfl⟩) (fun a b h a0 hc =>
        ⟨fun x hx => (hc.2 x hx).mono (Nat.le_refl _) h.le, hc.1.join (UC_one.1 h)⟩)
    · exact hun

theorem parseOptionsList_snd [FloatFmt] (hf : n < fuel) :
    Snd L n (parseOptionsList fuel) (fun ts v => OptListG ts (some v)) OptionList.In := by
  intro st Q E hn hp hQ hE
  unfold parseOptionsList
  refine (At.start hn hp hE).expect fun sp st1 _ A => ?_
  refine A.call (parseOptionBody_snd hf) fun used v st2 e A i => ?_
  refine A.loop hf (optionsListStep_snd hf sp) (fun a b h => ?_) fun used2 w st2 A i2 => ?_
  · obtain ⟨d, h3, h4⟩ := UC_cons.1 h
    refine ⟨SpIn.wr h3 h4.le, ?_⟩
    intro x hx
    rw [List.mem_singleton] at hx
    subst hx
    exact (i _ _ h4).mono (SpIn.le h3) (Nat.le_refl _)
  · refine hQ _ _ _ A.eats (fun hb => ?_) i2
    obtain ⟨⟨_, h0⟩, t1, t2, s, h1, h2, rfl, rfl⟩ := A.good hb
    have := OptListG.some (sp := joinSpan sp w.2) (sepBy_many h2 (SepBy.one h0))
    simpa [h1] using this

theorem parseOptOptions_snd [FloatFmt] (hf : n < fuel) (term : Token) :
    Snd L n (parseOptOptions fuel term) OptListG optListIn := by
  intro st Q E hn hp hQ hE
  unfold parseOptOptions
  refine (At.start hn hp hE).peekSkip rfl fun t sp r ht A hun => ?_
  simp only
  split
  · refine A.call (parseOptionsList_snd hf) fun used v st2 e A i => ?_
    refine hQ _ _ _ A.eats (fun hb => (A.good hb).2) (fun a b h l hl => ?_)
    cases hl
    exact i a b h
  · split
    · exact hQ _ _ _ A.eats (fun hb => .none) (fun a b h l hl => nomatch hl)
    · exact hun

/-! ## Ranges -/

/-- A range that is a single number is followed by a comma or a semicolon. -/
def RangeEnd (v : ReservedRange) (st : AS) : Prop :=
  v.stop = .none → ∀ sp r, st.toks ≠ some (.leftBracket, sp) :: r

theorem parseReservedRange_full {st : AS} {Q : ReservedRange → AS → Prop} {E : AS → Prop}
    (hn : st.toks.length ≤ n) (hp : Pre L st)
    (hQ : ∀ used v st', Eats st used st' → (st'.bad = false → RangeG (bare used) v) →
      (∀ a b, UC a used b → v.In a b) → RangeEnd v st' → Q v st')
    (hE : ∀ st', Fails st st' → E st') : wp L parseReservedRange Q E st := by
  unfold parseReservedRange
  refine (At.start hn hp hE).call parseInt_snd fun used v st2 e A i => ?_
  refine A.peekSkip rfl fun t sp r ht A hun => ?_
  simp only
  split
  · rename_i heq; subst heq
    refine A.bump fun A => ?_
    refine A.peekSkip rfl fun t2 sp2 r2 ht2 A hun => ?_
    simp only
    have hint : wp L (parseInt >>= fun i => pure (⟨v, .int i⟩ : ReservedRange)) Q E ⟨some (t2, sp2) :: r2, true, st2.bad⟩ := by
      refine A.call parseInt_snd fun used2 w st3 e A i2 => ?_
      refine hQ _ _ _ A.eats (fun hb => ?_) (fun a b h => ?_) nofun
      · simpa using RangeG.to (A.good hb).1.2 (A.good hb).2
      · obtain ⟨c, h1, h2⟩ := UC_append.1 h
        obtain ⟨d, h3, h4⟩ := UC_append.1 h1
        refine ⟨d, i _ _ h3, ?_⟩
        exact (i2 _ _ h2).mono h4.le (Nat.le_refl _)
    split
    · rename_i heq; subst heq
      refine A.bump fun A => ?_
      refine hQ _ _ _ A.eats (fun hb => ?_) (fun a b h => ?_) nofun
      · simpa using RangeG.max (sp := sp2) (A.good hb).2
      · obtain ⟨c, h1, h2⟩ := UC_append.1 h
        obtain ⟨d, h3, h4⟩ := UC_append.1 h1
        exact ⟨d, i _ _ h3, SpIn.wl (UC_one.1 h2) h4.le⟩
    · cases t2 <;> first | exact hint | exact hun
  · split
    · rename_i h
      refine hQ _ _ _ A.eats (fun hb => .single (A.good hb).2) (fun a b h => ⟨b, i a b h, Nat.le_refl b⟩) ?_
      intro _ sp' r' h'
      simp only [List.cons.injEq, Option.some.injEq, Prod.mk.injEq] at h'
      rcases h with h | h <;> rw [h'.1.1] at h <;> cases h
    · exact hun

theorem parseReservedRange_snd : Snd L n parseReservedRange RangeG ReservedRange.In :=
  fun _ _ _ hn hp hQ hE => parseReservedRange_full hn hp (fun used v st' e g i _ => hQ used v st' e g i) hE

/-- A list of ranges, and what may follow it. -/
theorem parseReservedRanges_full {β : Type} {terms : List Expected} {E : AS → Prop} {st st1 : AS} {u : List STok} {Φ : Prop}
    {Q : β → AS → Prop} {f : List ReservedRange → Prog β} (hf : n < fuel) (A : At L n E st u Φ st1)
    (k : ∀ used v st2, At L n E st (u ++ used) (Φ ∧ SepBy .comma RangeG (bare used) v) st2 →
      (∀ a b, UC a used b → a ≤ b ∧ ∀ x ∈ v, x.In a b) →
      (∀ r, v.getLast? = some r → RangeEnd r st2) → wp L (f v) Q E st2) :
    wp L (parseReservedRanges fuel terms >>= f) Q E st1 := by
  unfold parseReservedRanges
  rw [wp_bind', wp_bind']
  refine parseReservedRange_full A.len A.pre ?_ A.fail
  intro used v st2 e g i hend
  have A := A.step e g
  refine wp_loopM (fun s st3 => ∃ w, At L n E st (u ++ w) (Φ ∧ SepBy .comma RangeG (bare w) s) st3 ∧
      (∀ a b, UC a w b → a ≤ b ∧ ∀ x ∈ s, x.In a b) ∧ (∀ r, s.getLast? = some r → RangeEnd r st3)) ?_ fuel [v] st2
      ⟨used, ⟨A.eats, fun hb => ⟨(A.good hb).1, .one (A.good hb).2⟩, A.len, A.pre, A.fail⟩, fun a b h => ⟨h.le, ?_⟩, ?_⟩
      (by have := A.len; omega)
  · rintro s st3 ⟨w, A, h1, h2⟩
    unfold reservedRangesStep
    refine A.peekSkip rfl fun t sp r ht A hun => ?_
    simp only
    split
    · rename_i heq; subst heq
      refine A.bump fun A => ?_
      rw [wp_bind']
      refine parseReservedRange_full A.len A.pre ?_ A.fail
      intro used v st2 e g i hend
      have A := A.step e g
      refine ⟨⟨w ++ (.comma, sp) :: used, ⟨by simpa using A.eats, fun hb => ⟨(A.good hb).1.1, ?_⟩, A.len, A.pre, A.fail⟩,
        ?_, ?_⟩, ?_⟩
      · simpa using sepBy_snoc (A.good hb).1.2 (A.good hb).2
      · intro a b h
        obtain ⟨c, h3, h4⟩ := UC_append.1 h
        obtain ⟨d, h5, h6⟩ := UC_cons.1 h4
        refine ⟨h.le, all_snoc (P := ReservedRange.In) ReservedRange.In.mono (h1 _ _ h3).2 ?_ h3.le h4.le⟩
        exact (i _ _ h6).mono (SpIn.le h5) (Nat.le_refl _)
      · intro r' hr
        simp at hr
        exact hr ▸ hend
      · have := e.len
        rw [ht]; simp at this ⊢; omega
    · split
      · refine k w s _ A h1 ?_
        intro r' hr hs sp' q hq
        exact h2 r' hr hs sp' q (ht.trans hq)
      · exact hun
  · intro x hx; rw [List.mem_singleton] at hx; subst hx; exact i a b h
  · intro r hr; simp at hr; exact hr ▸ hend

theorem parseReservedRanges_snd (hf : n < fuel) (terms : List Expected) :
    Snd L n (parseReservedRanges fuel terms) (SepBy .comma RangeG) (fun a b s => a ≤ b ∧ ∀ x ∈ s, x.In a b) := by
  intro st Q E hn hp hQ hE
  have : wp L (parseReservedRanges fuel terms >>= fun x => pure x) Q E st := by
    refine parseReservedRanges_full hf (At.start hn hp hE) fun used v st2 A i _ => ?_
    exact hQ _ _ _ A.eats (fun hb => (A.good hb).2) i
  rw [wp_bind'] at this
  exact this

theorem parseExtensions_snd [FloatFmt] (hf : n < fuel) :
    Snd L n (parseExtensions fuel) ExtensionsG Extensions.In := by
  intro st Q E hn hp hQ hE
  unfold parseExtensions
  refine (At.start hn hp hE).leading fun c st1 A => ?_
  refine A.expect fun sp st2 _ A => ?_
  refine parseReservedRanges_full hf A fun used v st3 A i hend => ?_
  have A := A
  rw [wp_bind']
  refine parseOptOptions_snd hf .semicolon st3 _ E A.len A.pre ?_ A.fail
  intro used2 v2 st4 e2 g2 i2
  have A2 := A.step e2 g2
  refine A2.expect fun sp2 st5 _ A => ?_
  refine A.trailing fun c2 st6 A => ?_
  refine hQ _ _ _ A.eats (fun hb => ?_) (fun a b h => ?_)
  · have h1 := A.good hb
    have := ExtensionsG.mk (c := c2) (sp := joinSpan sp sp2) h1.1.2 h1.2 ?_
    · simpa using this
    · intro hs r hr hnone
      have hG := h1.2
      have ht := e2.toks
      generalize hu : bare used2 = bu at hG
      cases hG with
      | none => cases hs
      | @some ts os sp' h =>
        cases used2 with
        | nil => cases hu
        | cons x xs =>
          obtain ⟨x1, x2⟩ := x
          simp only [bare_cons, List.cons_append, List.cons.injEq] at hu
          exact hend r hr hnone x2 (xs.map some ++ st4.toks) (by rw [ht, ← hu.1]; rfl)
  · obtain ⟨c, h1, h2⟩ := UC_append.1 h
    obtain ⟨d, h3, h4⟩ := UC_append.1 h1
    obtain ⟨e, h5, h6⟩ := UC_cons.1 h3
    have h7 := UC_one.1 h2
    have := SpIn.le h5; have := h6.le; have := h4.le; have := SpIn.le h7
    exact ⟨fun x hx => ((i _ _ h6).2 x hx).mono (by omega) (by omega), (i2 _ _ h4).mono (by omega) (by omega),
      SpIn.join' h5 h7 (by omega)⟩

/-! ## Reserved names -/

theorem isValidIdent_iff {s : Bytes} : isValidIdent s = true ↔
    ∃ b r, s = b :: r ∧ isAlpha b = true ∧ ∀ c ∈ r, isAlnum c = true ∨ c = 95 := by
  cases s with
  | nil => simp [isValidIdent]
  | cons b r =>
    simp only [isValidIdent, Bool.and_eq_true, List.all_eq_true, Bool.or_eq_true, beq_iff_eq, List.cons.injEq]
    constructor
    · intro h; exact ⟨b, r, ⟨rfl, rfl⟩, h⟩
    · rintro ⟨_, _, ⟨rfl, rfl⟩, h⟩; exact h

theorem parseIdentString_snd (hf : n < fuel) : Snd L n (parseIdentString fuel) IdentStrG Ident.In := by
  intro st Q E hn hp hQ hE
  unfold parseIdentString
  refine (At.start hn hp hE).call (parseUtf8String_snd hf) fun used v st2 e A i => ?_
  obtain ⟨v, sp⟩ := v
  simp only
  split
  · rename_i hv
    exact hQ _ _ _ A.eats (fun hb => ⟨(A.good hb).2, isValidIdent_iff.1 hv⟩) i
  · refine A.addError (spans_one rfl (uc_spanOk e hp i)) fun A => ?_
    exact hQ _ _ _ (A True).eats nofun i

theorem reservedNamesStep_snd (hf : n < fuel) (sp0 : Span) (s : List Ident) :
    Snd L n (reservedNamesStep fuel s)
      (stepG (sepElem .comma IdentStrG) (fun ts s v => ts = [.semicolon] ∧ v.1 = s) s)
      (stepI (fun a b s => SpIn a b sp0 ∧ ∀ x ∈ s, x.In a b)
        (fun a b v => (∀ x ∈ v.1, x.In a b) ∧ SpIn a b (joinSpan sp0 v.2)) s) := by
  intro st Q E hn hp hQ hE
  unfold reservedNamesStep
  refine (At.start hn hp hE).peekSkip rfl fun t sp r ht A hun => ?_
  simp only
  split
  · rename_i heq; subst heq
    refine A.bump fun A => ?_
    refine A.call (parseIdentString_snd hf) fun used v st2 e A i => ?_
    refine hQ _ _ _ A.eats (fun hb => ⟨bare used, v, by simp, (A.good hb).2, rfl⟩) ?_
    intro a b h
    obtain ⟨c, h1, h2⟩ := UC_cons.1 h
    refine ⟨UC.lt h, fun a0 h4 => ⟨SpIn.wr h4.1 h.le, ?_⟩⟩
    exact all_snoc (P := Ident.In) Ident.In.mono h4.2
        ((i _ _ h2).mono (SpIn.le h1) (Nat.le_refl _)) (SpIn.le h4.1) h.le
  · split
    · rename_i heq; subst heq
      refine A.bump fun A => ?_
      exact hQ _ _ _ A.eats (fun hb => ⟨rfl, rfl⟩) (fun a b h a0 hc =>
        ⟨fun x hx => (hc.2 x hx).mono (Nat.le_refl _) h.le, hc.1.join (UC_one.1 h)⟩)
    · exact hun

theorem parseReserved_snd (hf : n < fuel) : Snd L n (parseReserved fuel) ReservedG Reserved.In := by
  intro st Q E hn hp hQ hE
  unfold parseReserved
  refine (At.start hn hp hE).leading fun c st1 A => ?_
  refine A.expect fun sp st2 _ A => ?_
  refine A.peekSkip rfl fun t sp1 r ht A hun => ?_
  have hr : wp L (parseReservedRanges fuel [.token .semicolon] >>= fun ranges => expectEq .semicolon >>= fun stop =>
      Prog.trailing c >>= fun comments => pure (⟨.ranges ranges, comments, joinSpan sp stop⟩ : Reserved)) Q E
      ⟨some (t, sp1) :: r, true, st2.bad⟩ := by
    refine A.call (parseReservedRanges_snd hf _) fun used v st3 e A i => ?_
    refine A.expect fun sp2 st4 _ A => ?_
    refine A.trailing fun c2 st5 A => ?_
    refine hQ _ _ _ A.eats (fun hb => ?_) (fun a b h => ?_)
    · simpa using ReservedG.ranges (c := c2) (sp := joinSpan sp sp2) (A.good hb).2
    · obtain ⟨c, h1, h2⟩ := UC_append.1 h
      obtain ⟨d, h3, h4⟩ := UC_cons.1 h1
      have h5 := UC_one.1 h2
      exact ⟨fun x hx => ((i _ _ h4).2 x hx).mono (SpIn.le h3) (SpIn.le h5), SpIn.join' h3 h5 h4.le⟩
  cases t <;> try first | exact hun | exact hr
  unfold parseReservedNames
  rw [wp_bind']
  refine A.call (parseIdentString_snd hf) fun used v st3 e A i => ?_
  refine A.loopT hf (reservedNamesStep_snd hf sp) (fun a b h => ?_) fun used w st2 A i => ?_
  · obtain ⟨d, h3, h4⟩ := UC_cons.1 h
    refine ⟨SpIn.wr h3 h4.le, ?_⟩
    intro x hx
    rw [List.mem_singleton] at hx
    subst hx
    exact (i _ _ h4).mono (SpIn.le h3) (Nat.le_refl _)
  · obtain ⟨names, stop⟩ := w
    refine A.trailing fun c2 st5 A => ?_
    refine hQ _ _ _ A.eats (fun hb => ?_) i
    obtain ⟨⟨_, h0⟩, t1, t2, s, h1, h2, rfl, rfl⟩ := A.good hb
    have := ReservedG.names (c := c2) (sp := joinSpan sp stop) (sepBy_many h2 (SepBy.one h0))
    simpa [h1] using this

end Verif.Parse
