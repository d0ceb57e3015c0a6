import Verif.Proofs.Snd5
/-! Soundness of the grammar methods: services, packages, imports, statements. -/
namespace Verif.Parse
open Lex Verif.Ast Verif.Grammar

variable {L n fuel : Nat}

/-! ## Services -/

theorem parseStreaming_snd {β : Type} {E : AS → Prop} {Q : β → AS → Prop} {st st1 : AS} {u : List STok} {Φ : Prop}
    {f : Option Span → Prog β} (A : At L n E st u Φ st1)
    (k1 : ∀ sp st2, At L n E st (u ++ [(kw b!"stream", sp)]) Φ st2 → wp L (f (some sp)) Q E st2)
    (k2 : ∀ t sp r st2, st2.toks = some (t, sp) :: r → t ≠ kw b!"stream" → At L n E st u Φ st2 →
      wp L (f none) Q E st2) :
    wp L (parseStreaming >>= f) Q E st1 := by
  unfold parseStreaming
  rw [wp_bind']
  refine A.peekSkip rfl fun t sp r ht A hun => ?_
  simp only
  split
  · rename_i heq; subst heq
    refine A.bump fun A => ?_
    exact k1 _ _ A
  · rename_i hne
    split
    · exact k2 t sp r _ rfl hne A
    · exact hun

/-- An optional `stream` followed by a type name. -/
theorem stream_snd {β : Type} {E : AS → Prop} {Q : β → AS → Prop} {st st1 : AS} {u : List STok} {Φ : Prop}
    {f : Option Span → TypeName → Prog β} (hf : n < fuel) (A : At L n E st u Φ st1)
    (k : ∀ used s t st2, At L n E st (u ++ used) (Φ ∧ StreamG (bare used) t s) st2 →
      (∀ a b, UC a used b → t.In a b ∧ optSpIn a b s) → wp L (f s t) Q E st2) :
    wp L (parseStreaming >>= fun s => parseTypeName fuel [.token .rightParen] >>= f s) Q E st1 := by
  refine parseStreaming_snd A (fun sp st2 A => ?_) (fun t sp r st2 ht hne A => ?_)
  · refine A.call (parseTypeName_snd hf _) fun used v st3 _ A i => ?_
    have := k ((kw b!"stream", sp) :: used) (some sp) v st3 ⟨by simpa using A.eats, fun hb =>
      ⟨(A.good hb).1, .yes (A.good hb).2⟩, A.len, A.pre, A.fail⟩ ?_
    · exact this
    · intro a b h
      obtain ⟨c, h1, h2⟩ := UC_cons.1 h
      refine ⟨(i _ _ h2).mono (SpIn.le h1) (Nat.le_refl _), ?_⟩
      intro l hl
      cases hl
      exact SpIn.wr h1 h2.le
  · refine A.call (parseTypeName_snd hf _) fun used v st3 e A i => ?_
    refine k used none v st3 ⟨A.eats, fun hb => ⟨(A.good hb).1, .no (A.good hb).2 ?_⟩, A.len, A.pre, A.fail⟩ ?_
    · obtain ⟨xs, hx⟩ := e.head ht (bare_ne (typeNameG_ne (A.good hb).2))
      exact noKw_of_head hx (by simpa using hne)
    · intro a b h
      exact ⟨i a b h, nofun⟩

/-- The options of a method lie in `[a, b]`. -/
def MethodJ (a b : Nat) (s : List Opt) : Prop := a ≤ b ∧ (∀ x ∈ s, x.In a b)

theorem MethodJ.mono {a b c : Nat} {s} (h : MethodJ a b s) (hbc : b ≤ c) : MethodJ a c s :=
  ⟨Nat.le_trans h.1 hbc, all_mono (P := Opt.In) Opt.In.mono h.2 hbc⟩

theorem methodOptionStep_snd [FloatFmt] (hf : n < fuel) (s : List Opt) : Snd L n (methodOptionStep fuel s)
      (stepG MethodElem (fun ts s v => ts = [.rightBrace] ∧ v.1 = s) s)
      (stepI MethodJ (fun a b v => ∃ c, MethodJ a c v.1 ∧ SpIn c b v.2) s) := by
  intro st Q E hn hp hQ hE
  unfold methodOptionStep
  refine (At.start hn hp hE).peek rfl fun t sp r ht A hun => ?_
  simp only
  split
  · refine A.call (parseOption_snd hf) fun used v st2 e A i => ?_
    refine hQ _ _ _ A.eats (fun hb => .option (A.good hb).2) (fun a b h => ?_)
    have hv := i a b h
    exact ⟨Opt.In.lt hv, fun a0 hj => ⟨Nat.le_trans hj.1 h.le,
      all_snoc (P := Opt.In) Opt.In.mono hj.2 hv hj.1 h.le⟩⟩
  split
  · rename_i heq; subst heq
    refine A.bump fun A => ?_
    exact hQ _ _ _ A.eats (fun hb => ⟨rfl, rfl⟩) (fun a b h a0 hj => ⟨a, hj, UC_one.1 h⟩)
  split
  · rename_i heq; subst heq
    refine A.bump fun A => ?_
    exact hQ _ _ _ A.eats (fun hb => .empty) (fun a b h => ⟨UC.lt h, fun a0 hj => hj.mono h.le⟩)
  · exact hun

theorem parseRpc_snd [FloatFmt] (hf : n < fuel) : Snd L n (parseRpc fuel) MethodG Method.In := by
  intro st Q E hn hp hQ hE
  unfold parseRpc
  refine (At.start hn hp hE).leading fun c st1 A => ?_
  refine A.expect fun sp st2 _ A => ?_
  refine A.call parseIdent_snd fun used1 name st3 _ A i1 => ?_
  refine A.expect fun sp1 st4 _ A => ?_
  refine stream_snd hf A fun used2 s1 t1 st5 A i2 => ?_
  refine A.expect fun sp2 st6 _ A => ?_
  refine A.expect fun sp3 st7 _ A => ?_
  refine A.expect fun sp4 st8 _ A => ?_
  refine stream_snd hf A fun used3 s2 t2 st9 A i3 => ?_
  refine A.expect fun sp5 st10 _ A => ?_
  rw [wp_bind']
  have tail : ∀ (used4 : List STok) (os : List Opt) (stop : Span) (st11 : AS),
      At L n E st (((((((([(kw b!"rpc", sp)] ++ used1) ++ [(.leftParen, sp1)]) ++ used2) ++ [(.rightParen, sp2)]) ++
        [(kw b!"returns", sp3)]) ++ [(.leftParen, sp4)]) ++ used3) ++ [(.rightParen, sp5)] ++ used4)
        ((((True ∧ IdentG (bare used1) name) ∧ StreamG (bare used2) t1 s1) ∧ StreamG (bare used3) t2 s2) ∧
          MethodEndG (bare used4) os) st11 →
      (∀ a b, UC a used4 b → ∃ c, MethodJ a c os ∧ SpIn c b stop) →
      wp L (Prog.trailing c >>= fun comments => pure { name, inputTy := t1, outputTy := t2, options := os, clientStreaming := s1, serverStreaming := s2, comments, span := joinSpan sp stop }) Q E st11 := by
    intro used4 os stop st11 A i4
    refine A.trailing fun c2 st12 A => ?_
    refine hQ _ _ _ A.eats (fun hb => ?_) (fun a b h => ?_)
    · obtain ⟨⟨⟨⟨_, h1⟩, h2⟩, h3⟩, h4⟩ := A.good hb
      simpa using MethodG.mk (c := c2) (sp := joinSpan sp stop) h1 h2 h3 h4
    · obtain ⟨c9, h, h10⟩ := UC_append.1 h
      obtain ⟨c8, h, h9⟩ := UC_append.1 h
      obtain ⟨c7, h, h8⟩ := UC_append.1 h
      obtain ⟨c6, h, h7⟩ := UC_append.1 h
      obtain ⟨c5, h, h6⟩ := UC_append.1 h
      obtain ⟨c4, h, h5⟩ := UC_append.1 h
      obtain ⟨c3, h, h4⟩ := UC_append.1 h
      obtain ⟨c2, h, h3⟩ := UC_append.1 h
      obtain ⟨c1, h, h2⟩ := UC_append.1 h
      obtain ⟨d, hj, hs⟩ := i4 _ _ h10
      have k0 := UC_one.1 h
      have g1 := h.le; have g2 := h2.le; have g3 := h3.le; have g4 := h4.le; have g5 := h5.le; have g6 := h6.le
      have g7 := h7.le; have g8 := h8.le; have g9 := h9.le; have g10 := hj.1; have g11 := SpIn.le hs
      have k1 := i2 _ _ h4
      have k2 := i3 _ _ h8
      exact ⟨(i1 _ _ h2).mono (by omega) (by omega), k1.1.mono (by omega) (by omega), k2.1.mono (by omega) (by omega),
        fun x hx => (hj.2 x hx).mono (by omega) (by omega), k1.2.mono (by omega) (by omega),
        k2.2.mono (by omega) (by omega), SpIn.join' k0 hs (by omega)⟩
  refine A.peekSkip rfl fun t spx r ht A hun => ?_
  simp only
  split
  · rename_i heq; subst heq
    refine A.bump fun A => ?_
    rw [wp_pure]
    refine tail [(.semicolon, spx)] [] spx _ ⟨A.eats, fun hb => ⟨A.good hb, .semi⟩, A.len, A.pre, A.fail⟩ ?_
    intro a b h
    exact ⟨a, ⟨Nat.le_refl _, nofun⟩, UC_one.1 h⟩
  split
  · rename_i heq; subst heq
    refine A.bump fun A => ?_
    refine loop_snd hf (s0 := []) (J := MethodJ) ?_ (methodOptionStep_snd hf) _ _ E A.len A.pre ?_ A.fail
    · intro a b hab; exact ⟨hab, nofun⟩
    · intro used4 v st11 e g i4
      obtain ⟨os, stop⟩ := v
      have A := A.step e g
      refine tail ((.leftBrace, spx) :: used4) os stop _ ⟨by simpa using A.eats, fun hb => ?_, A.len, A.pre, A.fail⟩ ?_
      · obtain ⟨h1, t1, t2, s, h2, h3, h4, h5⟩ := A.good hb
        simp only at h5
        subst h4 h5
        refine ⟨h1, ?_⟩
        simpa [h2] using MethodEndG.body h3
      · intro a b h
        obtain ⟨c, h1, h2⟩ := UC_cons.1 h
        obtain ⟨d, hj, hs⟩ := i4 _ _ h2
        have := SpIn.le h1; have := hj.1
        exact ⟨d, ⟨by omega, fun x hx => (hj.2 x hx).mono (by omega) (by omega)⟩, hs⟩
  · exact hun

/-- The elements of a service lie in `[a, b]`. -/
def ServiceJ (a b : Nat) (s : List Opt × List Method) : Prop :=
  a ≤ b ∧ (∀ x ∈ s.1, x.In a b) ∧ (∀ x ∈ s.2, x.In a b)

theorem ServiceJ.mono {a b c : Nat} {s} (h : ServiceJ a b s) (hbc : b ≤ c) : ServiceJ a c s :=
  ⟨Nat.le_trans h.1 hbc, all_mono (P := Opt.In) Opt.In.mono h.2.1 hbc,
    all_mono (P := Method.In) Method.In.mono h.2.2 hbc⟩

theorem serviceStep_snd [FloatFmt] (hf : n < fuel) (s : List Opt × List Method) : Snd L n (serviceStep fuel s)
      (stepG ServiceElem (fun ts s v => ts = [.rightBrace] ∧ v.1 = s) s)
      (stepI ServiceJ (fun a b v => ∃ c, ServiceJ a c v.1 ∧ SpIn c b v.2) s) := by
  intro st Q E hn hp hQ hE
  unfold serviceStep
  refine (At.start hn hp hE).peek rfl fun t sp r ht A hun => ?_
  simp only
  obtain ⟨os, ms⟩ := s
  split
  · refine A.call (parseRpc_snd hf) fun used v st2 e A i => ?_
    refine hQ _ _ _ A.eats (fun hb => .method (A.good hb).2) (fun a b h => ?_)
    have hv := i a b h
    exact ⟨Method.In.lt hv, fun a0 hj => ⟨Nat.le_trans hj.1 h.le, (hj.mono h.le).2.1,
      all_snoc (P := Method.In) Method.In.mono hj.2.2 hv hj.1 h.le⟩⟩
  split
  · refine A.call (parseOption_snd hf) fun used v st2 e A i => ?_
    refine hQ _ _ _ A.eats (fun hb => .option (A.good hb).2) (fun a b h => ?_)
    have hv := i a b h
    exact ⟨Opt.In.lt hv, fun a0 hj => ⟨Nat.le_trans hj.1 h.le,
      all_snoc (P := Opt.In) Opt.In.mono hj.2.1 hv hj.1 h.le, (hj.mono h.le).2.2⟩⟩
  split
  · rename_i heq; subst heq
    refine A.bump fun A => ?_
    exact hQ _ _ _ A.eats (fun hb => .empty) (fun a b h => ⟨UC.lt h, fun a0 hj => hj.mono h.le⟩)
  split
  · rename_i heq; subst heq
    refine A.bump fun A => ?_
    exact hQ _ _ _ A.eats (fun hb => ⟨rfl, rfl⟩) (fun a b h a0 hj => ⟨a, hj, UC_one.1 h⟩)
  · exact hun

theorem parseService_sndK [FloatFmt] (hf : n < fuel) :
    SndK L n (kw b!"service") (parseService fuel) ServiceG Service.In := by
  intro st Q E hn hp hQ hE
  unfold parseService
  refine At.startK hn hp hE fun c sp st2 A => ?_
  refine A.call parseIdent_snd fun used name st3 _ A i => ?_
  refine A.expect fun sp2 st4 _ A => ?_
  refine A.trailing fun c2 st5 A => ?_
  refine A.call (loop_snd hf ?_ (serviceStep_snd hf)) fun used3 v st6 _ A i3 => ?_
  · intro a b hab
    exact ⟨hab, nofun, nofun⟩
  obtain ⟨⟨os, ms⟩, stop⟩ := v
  refine hQ _ _ _ A.eats (fun hb => ?_) (fun a b h => ?_)
  · obtain ⟨⟨_, h1⟩, t1, t2, s, h2, h3, h4, h5⟩ := A.good hb
    simp only at h5
    subst h4 h5
    simpa [h2] using ServiceG.mk (c := c2) (sp := joinSpan sp stop) h1 h3
  · obtain ⟨c3, h, h4⟩ := UC_append.1 h
    obtain ⟨c2, h, h3⟩ := UC_append.1 h
    obtain ⟨c1, h1, h2⟩ := UC_cons.1 h
    obtain ⟨d, hj, hs⟩ := i3 _ _ h4
    have g0 := SpIn.le h1; have g1 := h2.le; have g2 := h3.le; have g3 := hj.1; have g4 := SpIn.le hs
    exact ⟨(i _ _ h2).mono (by omega) (by omega), fun x hx => (hj.2.1 x hx).mono (by omega) (by omega),
      fun x hx => (hj.2.2 x hx).mono (by omega) (by omega), SpIn.join' h1 hs (by omega)⟩

/-! ## Packages, imports, syntax -/

theorem parsePackage_sndK (hf : n < fuel) :
    SndK L n (kw b!"package") (parsePackage fuel) PackageG Package.In := by
  intro st Q E hn hp hQ hE
  unfold parsePackage
  refine At.startK hn hp hE fun c sp st2 A => ?_
  refine A.call (parseFullIdent_snd hf _) fun used name st3 _ A i => ?_
  refine A.expect fun sp2 st4 _ A => ?_
  refine A.trailing fun c2 st5 A => ?_
  refine hQ _ _ _ A.eats (fun hb => ?_) (fun a b h => ?_)
  · simpa using PackageG.mk (c := c2) (sp := joinSpan sp sp2) (A.good hb).2
  · obtain ⟨c, h1, h2⟩ := UC_append.1 h
    obtain ⟨d, h3, h4⟩ := UC_cons.1 h1
    have h5 := UC_one.1 h2
    exact ⟨(i _ _ h4).mono (SpIn.le h3) (SpIn.le h5), SpIn.join' h3 h5 h4.le⟩

theorem isValidImport_path {v : Bytes} (h : isValidImport v = true) : ImportPath v := by
  unfold isValidImport at h
  simp only [Bool.and_eq_true, List.all_eq_true] at h
  refine ⟨splitAt 47 v, splitAt_ne_nil 47 v, (joinWith_splitAt 47 v).symm, fun c hc => ?_⟩
  have h1 := h.1 c hc
  simp only [Bool.not_eq_true', Bool.or_eq_false_iff, beq_eq_false_iff_ne, ne_eq, List.isEmpty_eq_false_iff,
    List.contains_eq_mem, decide_eq_false_iff_not] at h1
  exact ⟨h1.1.1.1, h1.1.2, h1.2, h1.1.1.2, splitAt_no_sep 47 v c hc⟩

theorem parseImport_sndK (hf : n < fuel) :
    SndK L n (kw b!"import") (parseImport fuel) ImportG Import.In := by
  intro st Q E hn hp hQ hE
  unfold parseImport
  refine At.startK hn hp hE fun c sp st2 A => ?_
  rw [wp_bind']
  have tail : ∀ (used1 : List STok) (kind : Option (ImportKind × Span)) (st3 : AS),
      At L n E st ([(kw b!"import", sp)] ++ used1) (ImportKindG (bare used1) kind) st3 →
      (∀ a b, UC a used1 b → ∀ k, kind = some k → SpIn a b k.2) →
      wp L (parseUtf8String fuel >>= fun x => match x with
        | (value, valueSpan) => (if isValidImport value then pure () else Prog.addError (.invalidImport valueSpan)) >>= fun _ =>
          expectEq .semicolon >>= fun stop => Prog.trailing c >>= fun comments =>
            pure { kind, value, valueSpan, comments, span := joinSpan sp stop }) Q E st3 := by
    intro used1 kind st3 A i1
    have hp1 := A.pre
    refine A.call (parseUtf8String_snd hf) fun used2 v st4 e2 A i2 => ?_
    obtain ⟨value, vsp⟩ := v
    simp only
    have tail2 : ∀ st5, At L n E st ([(kw b!"import", sp)] ++ used1 ++ used2)
        ((ImportKindG (bare used1) kind ∧ Utf8G (bare used2) value) ∧ ImportPath value) st5 →
        wp L (expectEq .semicolon >>= fun stop => Prog.trailing c >>= fun comments =>
            pure ({ kind, value, valueSpan := vsp, comments, span := joinSpan sp stop } : Import)) Q E st5 := by
      intro st5 A
      refine A.expect fun sp2 st6 _ A => ?_
      refine A.trailing fun c2 st7 A => ?_
      refine hQ _ _ _ A.eats (fun hb => ?_) (fun a b h => ?_)
      · obtain ⟨⟨h1, h2⟩, h3⟩ := A.good hb
        simpa using ImportG.mk (vsp := vsp) (c := c2) (sp := joinSpan sp sp2) h1 h2 h3
      · obtain ⟨c3, h, h4⟩ := UC_append.1 h
        obtain ⟨c2, h, h3⟩ := UC_append.1 h
        obtain ⟨c1, h1, h2⟩ := UC_cons.1 h
        have g0 := SpIn.le h1; have g1 := h2.le; have g2 := h3.le; have g3 := h4.le
        refine ⟨fun k hk => SpIn.mono (i1 _ _ h2 k hk) (by omega) (by omega), SpIn.mono (i2 _ _ h3) (by omega) (by omega),
          SpIn.join' h1 (UC_one.1 h4) (by omega)⟩
    split
    · rename_i hv
      exact tail2 _ ⟨A.eats, fun hb => ⟨A.good hb, isValidImport_path hv⟩, A.len, A.pre, A.fail⟩
    · refine A.addError (spans_one rfl (uc_spanOk e2 hp1 i2)) fun A => ?_
      exact tail2 _ (A _)
  refine A.peekSkip rfl fun t sp1 r ht A hun => ?_
  simp only
  split
  · rename_i heq; subst heq
    refine A.bump fun A => ?_
    refine tail [(kw b!"weak", sp1)] _ _ ⟨A.eats, fun _ => .weak, A.len, A.pre, A.fail⟩ ?_
    intro a b h k hk
    cases hk
    exact UC_one.1 h
  split
  · rename_i heq; subst heq
    refine A.bump fun A => ?_
    refine tail [(kw b!"public", sp1)] _ _ ⟨A.eats, fun _ => .publ, A.len, A.pre, A.fail⟩ ?_
    intro a b h k hk
    cases hk
    exact UC_one.1 h
  · cases t <;> try exact hun
    exact tail [] none _ ⟨by simpa using A.eats, fun _ => .none, A.len, A.pre, A.fail⟩ nofun

theorem parseSyntax_snd (hf : n < fuel) : Snd L n (parseSyntax fuel) (fun ts v => SyntaxG ts v.1)
    (fun a b v => SpIn a b v.2.1) := by
  intro st Q E hn hp hQ hE
  unfold parseSyntax
  refine (At.start hn hp hE).leading fun c st1 A => ?_
  refine A.expect fun sp st2 _ A => ?_
  refine A.expect fun sp1 st3 _ A => ?_
  refine A.peek rfl fun t sp2 r ht A hun => ?_
  cases t <;> try exact hun
  have hp1 := A.pre
  refine A.call (parseString_snd hf) fun used v st4 e A i => ?_
  have spans : ∀ {stop a b}, UC a ([] ++ [(kw b!"syntax", sp)] ++ [(.equals, sp1)] ++ used ++ [(.semicolon, stop)]) b →
      SpIn a b (joinSpan sp stop) := by
    intro stop a b h
    obtain ⟨c3, h, h4⟩ := UC_append.1 h
    obtain ⟨c2, h, h3⟩ := UC_append.1 h
    obtain ⟨c1, h, h2⟩ := UC_append.1 h
    have g2 := h2.le; have g3 := h3.le
    exact SpIn.join' (UC_one.1 h) (UC_one.1 h4) (by omega)
  split
  · rename_i heq
    refine A.expect fun stop st5 _ A => ?_
    refine A.trailing fun c2 st6 A => ?_
    refine hQ _ _ _ A.eats (fun hb => ?_) (fun a b h => spans h)
    obtain ⟨ps, h1, h2, h3⟩ := (A.good hb).2
    have := SyntaxG.proto2 (sp := v.span) ⟨ps, h1, h2, heq.symm.trans h3⟩
    simpa using this
  split
  · rename_i heq
    refine A.expect fun stop st5 _ A => ?_
    refine A.trailing fun c2 st6 A => ?_
    refine hQ _ _ _ A.eats (fun hb => ?_) (fun a b h => spans h)
    obtain ⟨ps, h1, h2, h3⟩ := (A.good hb).2
    have := SyntaxG.proto3 (sp := v.span) ⟨ps, h1, h2, heq.symm.trans h3⟩
    simpa using this
  · refine A.addError (spans_one rfl (uc_spanOk e hp1 i)) fun A => ?_
    exact (A True).fail _ ⟨rfl, Nat.le_refl _⟩

end Verif.Parse
