import Verif.Proofs.Snd
/-! Soundness of the grammar methods: strings, names, options, ranges. -/
namespace Verif.Parse
open Lex Verif.Ast Verif.Grammar

variable {L n fuel : Nat}

theorem chainIn_snoc {α : Type} {P : Nat → Nat → α → Prop}
    (hP : ∀ {a a' b b' x}, P a b x → a' ≤ a → b ≤ b' → P a' b' x) {a b c : Nat} {l : List α} {x : α}
    (h : ChainIn P a l b) (hx : P b c x) : ChainIn P a (l ++ [x]) c := by
  apply ChainIn.append (P := P) hP h
  exact ⟨c, hx, Nat.le_refl c⟩

theorem UC.lt {a b t u} (h : UC a (t :: u) b) : a < b := by
  obtain ⟨c, h1, h2⟩ := UC_cons.1 h
  have := h1.1; have := h1.2.1; have := h1.2.2; have := h2.le; omega

/-! ## Strings -/

theorem stringStep_snd (s : Str) : Snd L n (stringStep s)
    (stepG (fun ts s s' => ∃ v, ts = [.string v] ∧ s'.value = s.value ++ v) (fun ts s v => ts = [] ∧ v = s) s)
    (stepI (fun a b s => SpIn a b s.span) (fun a b v => SpIn a b v.span) s) := by
  intro st Q E hn hp hQ hE
  unfold stringStep
  have fin : ∀ st1 : AS, At L n E st [] True st1 → Q (.done s) st1 := fun st1 A =>
    hQ [] _ _ A.eats (fun _ => ⟨rfl, rfl⟩) (fun a b h a0 h1 => h1.mono (Nat.le_refl _) h)
  refine (At.start hn hp hE).peekO (fun ht A => fin _ A) (fun t sp r ht A => ?_)
  cases t <;> try exact fin _ A
  rename_i v
  refine A.bump fun A => ?_
  refine hQ _ _ _ A.eats (fun _ => ⟨v, rfl, rfl⟩) (fun a b h => ?_)
  have h1 := UC_one.1 h
  refine ⟨UC.lt h, fun a0 h5 => h5.join h1⟩

theorem many_string {ts : List Token} {s s' : Str}
    (h : Many (fun ts s s' => ∃ v, ts = [.string v] ∧ s'.value = s.value ++ v) ts s s') :
    ∃ ps : List Bytes, ts = ps.map .string ∧ s'.value = s.value ++ ps.flatten := by
  induction h with
  | nil => exact ⟨[], rfl, by simp⟩
  | cons h1 _ ih =>
    obtain ⟨v, rfl, h2⟩ := h1
    obtain ⟨ps, rfl, h3⟩ := ih
    exact ⟨v :: ps, by simp, by rw [h3, h2]; simp⟩

theorem parseString_snd (hf : n < fuel) : Snd L n (parseString fuel) StrG Str.In := by
  intro st Q E hn hp hQ hE
  unfold parseString
  refine (At.start hn hp hE).peekSkip rfl fun t sp r ht A hun => ?_
  cases t <;> try exact hun
  rename_i v
  refine A.bump fun A => ?_
  refine A.loopT hf stringStep_snd (fun a b h => UC_one.1 h) fun used w st2 A i => ?_
  refine hQ _ _ _ A.eats (fun hb => ?_) i
  obtain ⟨_, t1, t2, s, h1, h2, rfl, rfl⟩ := A.good hb
  obtain ⟨ps, rfl, h3⟩ := many_string h2
  exact ⟨v :: ps, by simp, by simp [h1], by rw [h3]; simp⟩

theorem uc_spanOk {u : List STok} {sp : Span} {st st1 : AS} (e : Eats st u st1) (hp : Pre L st)
    (h : ∀ a b, UC a u b → SpIn a b sp) : SpanOk L sp := by
  obtain ⟨a, ha⟩ := e.uc hp
  have := h a L ha
  have h1 := this.2.1; have h2 := this.2.2
  simp only [SpanOk]; omega

theorem spans_one {e : ParseErrorKind} {sp : Span} (he : e.spans = [sp]) (h : SpanOk L sp) :
    ∀ s ∈ e.spans, SpanOk L s := by
  intro s hs; rw [he, List.mem_singleton] at hs; exact hs ▸ h

theorem parseUtf8String_snd (hf : n < fuel) : Snd L n (parseUtf8String fuel) (fun ts v => Utf8G ts v.1)
    (fun a b v => SpIn a b v.2) := by
  intro st Q E hn hp hQ hE
  unfold parseUtf8String
  refine (At.start hn hp hE).call (parseString_snd hf) fun used v st2 e A i => ?_
  split
  · rename_i hv
    exact hQ _ _ _ A.eats (fun hb => ⟨⟨v.span, (A.good hb).2⟩, hv⟩) i
  · refine A.addError (spans_one rfl (uc_spanOk e hp i)) fun A => ?_
    exact hQ _ _ _ (A True).eats nofun i

/-! ## Names -/

theorem fullIdentStep_snd (terms : List Expected) (s : List Ident) : Snd L n (fullIdentStep terms s)
      (stepG (sepElem .dot IdentG) (fun ts s v => ts = [] ∧ v = ⟨s⟩) s)
      (stepI (fun a b s => s ≠ [] ∧ ChainIn Ident.In a s b) FullIdent.In s) := by
  intro st Q E hn hp hQ hE
  unfold fullIdentStep
  refine (At.start hn hp hE).peekSkip rfl fun t sp r ht A hun => ?_
  simp only
  split
  · rename_i heq; subst heq
    refine A.bump fun A => ?_
    refine A.call parseIdent_snd fun used v st2 e A i => ?_
    refine hQ _ _ _ A.eats (fun hb => ⟨bare used, v, by simp, (A.good hb).2, rfl⟩) ?_
    intro a b h
    obtain ⟨c, h1, h2⟩ := UC_cons.1 h
    refine ⟨UC.lt h, fun a0 h4 => ⟨by simp, ?_⟩⟩
    exact chainIn_snoc (P := Ident.In) Ident.In.mono h4.2 ((i _ _ h2).mono (Nat.le_of_lt (Nat.lt_of_le_of_lt h1.1
      (Nat.lt_of_lt_of_le h1.2.1 h1.2.2))) (Nat.le_refl _))
  · split
    · exact hQ _ _ _ A.eats (fun hb => ⟨rfl, rfl⟩)
        (fun a b h a0 hc => ⟨hc.1, hc.2.mono Ident.In.mono (Nat.le_refl _) h⟩)
    · exact hun

theorem parseFullIdent_snd (hf : n < fuel) (terms : List Expected) :
    Snd L n (parseFullIdent fuel terms) FullIdentG FullIdent.In := by
  intro st Q E hn hp hQ hE
  unfold parseFullIdent
  refine (At.start hn hp hE).call parseIdent_snd fun used v st2 e A i => ?_
  refine A.loopT hf (fullIdentStep_snd terms) (fun a b h => ⟨by simp, b, i a b h, Nat.le_refl b⟩)
    fun used w st2 A i => ?_
  refine hQ _ _ _ A.eats (fun hb => ?_) i
  obtain ⟨⟨_, h0⟩, t1, t2, s, h1, h2, rfl, rfl⟩ := A.good hb
  have := sepBy_many h2 (SepBy.one h0)
  rw [bare_append, h1]
  simpa [FullIdentG] using this

theorem parseTypeName_snd (hf : n < fuel) (terms : List Expected) :
    Snd L n (parseTypeName fuel terms) TypeNameG TypeName.In := by
  intro st Q E hn hp hQ hE
  unfold parseTypeName
  rw [wp_bind']
  refine (At.start hn hp hE).peek rfl fun t sp r ht A hun => ?_
  simp only
  split
  · rename_i heq; subst heq
    refine A.bump fun A => ?_
    rw [wp_pure]
    refine A.call (parseFullIdent_snd hf terms) fun used v st2 e A i => ?_
    refine hQ _ _ _ A.eats (fun hb => .absolute (A.good hb).2) (fun a b h => ?_)
    obtain ⟨c, h1, h2⟩ := UC_cons.1 h
    exact ⟨c, h1, i _ _ h2⟩
  · split
    · rw [wp_pure]
      refine A.call (parseFullIdent_snd hf terms) fun used v st2 e A i => ?_
      exact hQ _ _ _ A.eats (fun hb => .relative (A.good hb).2) (fun a b h => i _ _ h)
    · exact hun

end Verif.Parse
