import Verif.Proofs.Snd3
/-! Soundness of the grammar methods: fields. -/
namespace Verif.Parse
open Lex Verif.Ast Verif.Grammar

variable {L n fuel : Nat}

theorem At.expect' {E : AS → Prop} {st st1 : AS} {u : List STok} {Φ : Prop} {β : Type} {Q : β → AS → Prop} {t}
    {f : Span → Prog β} (A : At L n E st u Φ st1)
    (k : ∀ sp st2, st1.toks = some (t, sp) :: st2.toks → At L n E st (u ++ [(t, sp)]) Φ st2 → wp L (f sp) Q E st2) :
    wp L (expectEq t >>= f) Q E st1 := by
  rw [wp_bind']
  exact wp_expectEq A.pre (fun sp st2 ht e _ => k sp st2 ht (A.step1 e)) (fun st' h _ _ => A.fail _ h)

theorem Eats.head {st st' : AS} {t : STok} {r} {used : List STok} (e : Eats st used st') (h : st.toks = some t :: r)
    (hne : used ≠ []) : ∃ xs, used = t :: xs := by
  cases used with
  | nil => exact absurd rfl hne
  | cons x xs =>
    have := e.toks
    rw [h] at this
    simp only [List.map_cons, List.cons_append, List.cons.injEq, Option.some.injEq] at this
    exact ⟨xs, by rw [this.1]⟩

theorem sepBy_ne {α : Type} {sep : Token} {item : List Token → α → Prop} {ts l} (hi : ∀ t a, item t a → t ≠ [])
    (h : SepBy sep item ts l) : ts ≠ [] := by
  cases h with
  | one h => exact hi _ _ h
  | cons h _ => simp

theorem fullIdentG_ne {ts f} (h : FullIdentG ts f) : ts ≠ [] :=
  sepBy_ne (fun t a (ha : IdentG t a) => by rw [ha]; simp) h

theorem typeNameG_ne {ts f} (h : TypeNameG ts f) : ts ≠ [] := by
  cases h with
  | relative h => exact fullIdentG_ne h
  | absolute h => simp

theorem tyG_ne {ts f} (h : TyG ts f) : ts ≠ [] := by
  cases h with
  | scalar h => simp
  | named h => exact typeNameG_ne h

theorem bare_ne {u : List STok} (h : bare u ≠ []) : u ≠ [] := by rintro rfl; exact h rfl

theorem ite_some {c : Prop} [Decidable c] {α : Type} {x y : α} {r : Option α} (h : (if c then some x else r) = some y) :
    (c ∧ x = y) ∨ r = some y := by
  by_cases hc : c
  · rw [if_pos hc] at h; exact .inl ⟨hc, Option.some.inj h⟩
  · rw [if_neg hc] at h; exact .inr h

theorem scalarTy_some {t ty} (h : scalarTy t = some ty) : ∃ m, t = kw m ∧ (m, ty) ∈ scalars := by
  unfold scalarTy at h
  iterate 15
    rcases ite_some h with ⟨heq, rfl⟩ | h
    · exact ⟨_, heq, by decide⟩
  exact nomatch h

theorem scalarTy_none {t} (h : scalarTy t = none) : ∀ m ∈ scalars.map (·.1), t ≠ kw m := by
  intro m hm heq
  subst heq
  simp only [scalars, List.map_cons, List.map_nil, List.mem_cons, List.not_mem_nil, or_false] at hm
  rcases hm with rfl | rfl | rfl | rfl | rfl | rfl | rfl | rfl | rfl | rfl | rfl | rfl | rfl | rfl | rfl <;>
    revert h <;> decide

theorem chainIn_head_last {a b : Nat} {l : List Ident} (h : ChainIn Ident.In a l b) (hne : l ≠ []) :
    ∃ x y, l.head? = some x ∧ l.getLast? = some y ∧ a ≤ x.span.start ∧ x.span.start < y.span.stop ∧ y.span.stop ≤ b := by
  induction l generalizing a with
  | nil => exact absurd rfl hne
  | cons x xs ih =>
    obtain ⟨c, h1, h2⟩ := h
    cases xs with
    | nil => exact ⟨x, x, rfl, rfl, h1.1, h1.2.1, Nat.le_trans h1.2.2 h2⟩
    | cons y ys =>
      obtain ⟨p, q, hp, hq, h3, h4, h5⟩ := ih h2 (by simp)
      refine ⟨x, q, rfl, by simpa using hq, h1.1, ?_, h5⟩
      have := h1.2.1; have := h1.2.2; omega

theorem FullIdent_span_in {a b : Nat} {f : FullIdent} (h : f.In a b) : ∃ sp, f.span = some sp ∧ SpIn a b sp := by
  obtain ⟨x, y, h1, h2, h3, h4, h5⟩ := chainIn_head_last h.2 h.1
  exact ⟨⟨x.span.start, y.span.stop⟩, by simp [FullIdent.span, h1, h2], h3, h4, h5⟩

theorem TypeName_span_in {a b : Nat} {t : TypeName} (h : t.In a b) : ∃ sp, t.span = some sp ∧ SpIn a b sp := by
  unfold TypeName.In at h
  unfold TypeName.span
  cases hd : t.leadingDot with
  | none => rw [hd] at h; simp only at h ⊢; exact FullIdent_span_in h
  | some d =>
    rw [hd] at h
    obtain ⟨c, h1, h2⟩ := h
    obtain ⟨sp, h3, h4⟩ := FullIdent_span_in h2
    exact ⟨joinSpan d sp, by simp [h3], h1.join h4⟩

theorem noKw_of_head {names : List Bytes} {u : List STok} {t sp xs} (hu : u = (t, sp) :: xs)
    (h : ∀ m ∈ names, t ≠ kw m) : NoKw names (bare u) := by
  intro m hm
  subst hu
  simp only [bare_cons, List.head?_cons, ne_eq, Option.some.injEq]
  exact h m hm

theorem parseFieldType_snd (hf : n < fuel) (terms : List Expected) :
    Snd L n (parseFieldType fuel terms) (fun ts v => TyG ts v.1) (fun a b v => v.1.In a b ∧ SpIn a b v.2) := by
  intro st Q E hn hp hQ hE
  unfold parseFieldType
  refine (At.start hn hp hE).peek rfl fun t sp r ht A hun => ?_
  simp only
  cases hs : scalarTy t with
  | some ty =>
    simp only
    obtain ⟨m, rfl, hm⟩ := scalarTy_some hs
    refine A.bump fun A => ?_
    refine hQ _ _ _ A.eats (fun hb => .scalar hm) (fun a b h => ⟨?_, UC_one.1 h⟩)
    have : ∀ p ∈ scalars, Ty.In a b p.2 := by
      intro p hp
      simp only [scalars, List.mem_cons, List.not_mem_nil, or_false] at hp
      rcases hp with rfl | rfl | rfl | rfl | rfl | rfl | rfl | rfl | rfl | rfl | rfl | rfl | rfl | rfl | rfl <;>
        trivial
    exact this _ hm
  | none =>
    simp only
    split
    · have hp1 := A.pre
      refine A.call (parseTypeName_snd hf terms) fun used v st2 e A i => ?_
      obtain ⟨a0, ha0⟩ := e.uc hp1
      obtain ⟨sp2, hsp, _⟩ := TypeName_span_in (i _ _ ha0)
      rw [hsp]
      simp only
      refine hQ _ _ _ A.eats (fun hb => ?_) (fun a b h => ?_)
      · refine .named (A.good hb).2 ?_
        obtain ⟨xs, hx⟩ := e.head rfl (bare_ne (typeNameG_ne (A.good hb).2))
        exact noKw_of_head hx (scalarTy_none hs)
      · obtain ⟨sp3, hsp3, h3⟩ := TypeName_span_in (i a b h)
        rw [hsp] at hsp3
        cases hsp3
        exact ⟨i a b h, h3⟩
    · exact hun

/-! ## Fields -/

/-- Where a field starts: the label is read, the next token is looked at. -/
structure FieldStart (label : Option (FieldLabel × Span)) (start : Span) (u : List STok) (st1 : AS) : Prop where
  spans : ∀ t sp r, st1.toks = some (t, sp) :: r → ∀ a b, UC a (u ++ [(t, sp)]) b →
    SpIn a b start ∧ labelIn a b label
  noLabel : u = [] → ∀ t sp r, st1.toks = some (t, sp) :: r →
    t ≠ kw b!"optional" ∧ t ≠ kw b!"required" ∧ t ≠ kw b!"repeated"

theorem parseNormalField_snd [FloatFmt] {body : List Token → MessageBody → Prop} {lead start label}
    {E : AS → Prop} {Q : Field → AS → Prop} {st st1 : AS} {u : List STok} (hf : n < fuel)
    (A : At L n E st u (LabelG (bare u) label) st1) (F : FieldStart label start u st1)
    (hkw : ∀ t sp r, st1.toks = some (t, sp) :: r → t ≠ kw b!"map" ∧ t ≠ kw b!"group")
    (hQ : ∀ used v st', Eats st used st' → (st'.bad = false → FieldG body (bare used) v) →
      (∀ a b, UC a used b → v.In a b) → Q v st') :
    wp L (parseNormalField fuel lead start label) Q E st1 := by
  unfold parseNormalField
  refine A.call (parseFieldType_snd hf _) fun used1 v1 st2 e1 A i1 => ?_
  obtain ⟨ty, tsp⟩ := v1
  simp only
  refine A.call parseIdent_snd fun used2 name st3 _ A i2 => ?_
  refine A.expect fun spq st4 _ A => ?_
  refine A.call parseInt_snd fun used3 number st5 _ A i3 => ?_
  refine A.call (parseOptOptions_snd hf _) fun used4 os st6 _ A i4 => ?_
  refine A.expect fun stop st7 _ A => ?_
  refine A.trailing fun c st8 A => ?_
  have hne : used1 ≠ [] := by
    rintro rfl
    exact Nat.lt_irrefl _ (SpIn.lt (i1 0 0 (Nat.le_refl 0)).2)
  obtain ⟨⟨t0, sp0⟩, xs, hxs⟩ := List.exists_cons_of_ne_nil hne
  have ht0 : st1.toks = some (t0, sp0) :: (xs.map some ++ st2.toks) := by rw [e1.toks, hxs]; rfl
  refine hQ _ _ _ A.eats (fun hb => ?_) (fun a b h => ?_)
  · obtain ⟨⟨⟨⟨h0, h1⟩, h2⟩, h3⟩, h4⟩ := A.good hb
    have := FieldG.normal (body := body) (tsp := tsp) (c := c) (sp := joinSpan start stop) h0 h1 h2 h3 h4 ?_ ?_
    · simpa using this
    · refine noKw_of_head hxs ?_
      have := hkw _ _ _ ht0
      simp [this.1, this.2]
    · intro hl
      have hu : u = [] := by simpa [bare] using hl
      refine noKw_of_head hxs ?_
      have := F.noLabel hu _ _ _ ht0
      simp [this.1, this.2.1, this.2.2]
  · obtain ⟨c6, h, h7⟩ := UC_append.1 h
    obtain ⟨c5, h, h6⟩ := UC_append.1 h
    obtain ⟨c4, h, h5⟩ := UC_append.1 h
    obtain ⟨c3, h, h4⟩ := UC_append.1 h
    obtain ⟨c2, h, h3⟩ := UC_append.1 h
    obtain ⟨c1, h, h2⟩ := UC_append.1 h
    have hs : SpIn a c2 start ∧ labelIn a c2 label := by
      rw [hxs] at h2
      obtain ⟨d, h8, h9⟩ := UC_cons.1 h2
      have := F.spans _ _ _ ht0 a d (UC_append.2 ⟨c1, h, UC_one.2 h8⟩)
      exact ⟨SpIn.wr this.1 h9.le, this.2.mono (Nat.le_refl _) h9.le⟩
    have g1 := h.le; have g2 := h2.le; have g3 := h3.le; have g4 := h4.le; have g5 := h5.le; have g6 := h6.le; have g7 := h7.le
    have := i1 _ _ h2
    simp only [Field.In, FieldKind.In]
    refine ⟨hs.2.mono (by omega) (by omega), (i2 _ _ h3).mono (by omega) (by omega),
      ⟨this.1.mono (by omega) (by omega), SpIn.mono this.2 (by omega) (by omega)⟩,
      (i3 _ _ h5).mono (by omega) (by omega), (i4 _ _ h6).mono (by omega) (by omega),
      SpIn.join' hs.1 (UC_one.1 h7) (by omega)⟩

theorem parseMap_snd [FloatFmt] {body : List Token → MessageBody → Prop} {lead start label}
    {E : AS → Prop} {Q : Field → AS → Prop} {st st1 : AS} {u : List STok} (hf : n < fuel)
    (A : At L n E st u (LabelG (bare u) label) st1) (F : FieldStart label start u st1)
    (hQ : ∀ used v st', Eats st used st' → (st'.bad = false → FieldG body (bare used) v) →
      (∀ a b, UC a used b → v.In a b) → Q v st') :
    wp L (parseMap fuel lead start label) Q E st1 := by
  unfold parseMap
  refine A.expect' fun sp1 st2 ht0 A => ?_
  refine A.expect fun sp2 st3 _ A => ?_
  refine A.call (parseFieldType_snd hf _) fun used1 v1 st4 e1 A i1 => ?_
  obtain ⟨kty, ksp⟩ := v1
  simp only
  refine A.expect fun sp3 st5 _ A => ?_
  refine A.call (parseFieldType_snd hf _) fun used2 v2 st6 e2 A i2 => ?_
  obtain ⟨vty, vsp⟩ := v2
  simp only
  refine A.expect fun sp4 st7 _ A => ?_
  refine A.call parseIdent_snd fun used3 name st8 _ A i3 => ?_
  refine A.expect fun spq st4 _ A => ?_
  refine A.call parseInt_snd fun used4 number st5 _ A i4 => ?_
  refine A.call (parseOptOptions_snd hf _) fun used5 os st6 _ A i5 => ?_
  refine A.expect fun stop st7 _ A => ?_
  refine A.trailing fun c st8 A => ?_
  refine hQ _ _ _ A.eats (fun hb => ?_) (fun a b h => ?_)
  · obtain ⟨⟨⟨⟨⟨h0, h1⟩, h2⟩, h3⟩, h4⟩, h5⟩ := A.good hb
    have := FieldG.map (body := body) (c := c) (sp := joinSpan start stop) (sp1 := joinSpan sp1 sp4) (sp2 := ksp)
      (sp3 := vsp) h0 h1 h2 h3 h4 h5
    simpa using this
  · obtain ⟨c11, h, h12⟩ := UC_append.1 h
    obtain ⟨c10, h, h11⟩ := UC_append.1 h
    obtain ⟨c9, h, h10⟩ := UC_append.1 h
    obtain ⟨c8, h, h9⟩ := UC_append.1 h
    obtain ⟨c7, h, h8⟩ := UC_append.1 h
    obtain ⟨c6, h, h7⟩ := UC_append.1 h
    obtain ⟨c5, h, h6⟩ := UC_append.1 h
    obtain ⟨c4, h, h5⟩ := UC_append.1 h
    obtain ⟨c3, h, h4⟩ := UC_append.1 h
    obtain ⟨c2, h, h3⟩ := UC_append.1 h
    have hs := F.spans _ _ _ ht0 a c2 h
    obtain ⟨c1, h, h2⟩ := UC_append.1 h
    have g1 := h.le; have g2 := h2.le; have g3 := h3.le; have g4 := h4.le; have g5 := h5.le; have g6 := h6.le
    have g7 := h7.le; have g8 := h8.le; have g9 := h9.le; have g10 := h10.le; have g11 := h11.le; have g12 := h12.le
    have k1 := i1 _ _ h4
    have k2 := i2 _ _ h6
    have k3 := UC_one.1 h2
    have k4 := UC_one.1 h7
    have k5 := SpIn.join' k3 k4 (by omega)
    have k6 := UC_one.1 h12
    simp only [Field.In, FieldKind.In]
    refine ⟨hs.2.mono (by omega) (by omega), (i3 _ _ h8).mono (by omega) (by omega),
      ⟨SpIn.mono k5 (by omega) (by omega), k1.1.mono (by omega) (by omega), SpIn.mono k1.2 (by omega) (by omega),
        k2.1.mono (by omega) (by omega), SpIn.mono k2.2 (by omega) (by omega)⟩,
      (i4 _ _ h10).mono (by omega) (by omega), (i5 _ _ h11).mono (by omega) (by omega),
      SpIn.join' hs.1 k6 (by omega)⟩

theorem isValidGroupName_iff {s : Bytes} : isValidGroupName s = true ↔ GroupName s := by
  unfold GroupName
  cases s with
  | nil => simp [isValidGroupName]
  | cons b r =>
    simp only [isValidGroupName, Bool.and_eq_true, List.all_eq_true, Bool.or_eq_true, beq_iff_eq, List.cons.injEq]
    constructor
    · intro h; exact ⟨b, r, ⟨rfl, rfl⟩, h⟩
    · rintro ⟨_, _, ⟨rfl, rfl⟩, h⟩; exact h

/-- What `parse_message_body` does, up to the closing brace. -/
def BodySnd (L n : Nat) (p : Prog (MessageBody × Span)) (body : List Token → MessageBody → Prop) : Prop :=
  Snd L n p (fun ts v => ∃ t1, ts = t1 ++ [.rightBrace] ∧ body t1 v.1)
    (fun a b v => ∃ c, v.1.In a c ∧ a ≤ c ∧ SpIn c b v.2)

/-- Calling a method that is known to work on fewer tokens. -/
theorem At.callLt {E : AS → Prop} {st st1 : AS} {u : List STok} {Φ : Prop} {α β : Type} {Q : β → AS → Prop}
    {p : Prog α} {G I} {f : α → Prog β} (A : At L n E st u Φ st1) (hn : st.toks.length ≤ n) (hu : u ≠ [])
    (h : Snd L (n - 1) p G I)
    (k : ∀ used v st2, Eats st1 used st2 → At L n E st (u ++ used) (Φ ∧ G (bare used) v) st2 →
      (∀ a b, UC a used b → I a b v) → wp L (f v) Q E st2) :
    wp L (p >>= f) Q E st1 := by
  rw [wp_bind']
  refine h st1 _ E ?_ A.pre (fun used v st2 e g i => k used v st2 e (A.step e g) i) A.fail
  have := A.eats.len
  cases u with
  | nil => exact absurd rfl hu
  | cons x xs => simp at this; omega

theorem parseGroup_snd [FloatFmt] {body : List Token → MessageBody → Prop} {p : Prog (MessageBody × Span)}
    {lead start label}
    {E : AS → Prop} {Q : Field → AS → Prop} {st st1 : AS} {u : List STok} (hf : n < fuel)
    (hbody : BodySnd L (n - 1) p body) (hn : st.toks.length ≤ n)
    (A : At L n E st u (LabelG (bare u) label) st1) (F : FieldStart label start u st1)
    (hQ : ∀ used v st', Eats st used st' → (st'.bad = false → FieldG body (bare used) v) →
      (∀ a b, UC a used b → v.In a b) → Q v st') :
    wp L (parseGroup p fuel lead start label) Q E st1 := by
  unfold parseGroup
  refine A.expect' fun sp1 st2 ht0 A => ?_
  have hp1 := A.pre
  refine A.call parseIdent_snd fun used1 name st3 e1 A i1 => ?_
  have tail : ∀ st4, At L n E st (u ++ [(kw b!"group", sp1)] ++ used1)
      ((LabelG (bare u) label ∧ IdentG (bare used1) name) ∧ GroupName name.value) st4 →
      wp L (expectEq .equals >>= fun _ => parseInt >>= fun number => parseOptOptions fuel .leftBrace >>= fun options =>
        expectEq .leftBrace >>= fun _ => Prog.trailing lead >>= fun comments => p >>= fun x => match x with
          | (b, stop) => pure { label, kind := .group sp1 b, name, number, options, comments, span := joinSpan start stop })
        Q E st4 := by
    intro st4 A
    refine A.expect fun spq st4 _ A => ?_
    refine A.call parseInt_snd fun used2 number st5 _ A i2 => ?_
    refine A.call (parseOptOptions_snd hf _) fun used3 os st6 _ A i3 => ?_
    refine A.expect fun sp2 st7 _ A => ?_
    refine A.trailing fun c st8 A => ?_
    refine A.callLt hn (by simp) hbody fun used4 v st9 _ A i4 => ?_
    obtain ⟨b, stop⟩ := v
    refine hQ _ _ _ A.eats (fun hb => ?_) (fun a b h => ?_)
    · obtain ⟨⟨⟨⟨⟨h0, h1⟩, h2⟩, h3⟩, h4⟩, t1, h5, h6⟩ := A.good hb
      have := FieldG.group (body := body) (c := c) (sp := joinSpan start stop) (sp1 := sp1) h0 h1 h2 h3 h4 h6
      simpa [h5] using this
    · obtain ⟨c8, h, h9⟩ := UC_append.1 h
      obtain ⟨c7, h, h8⟩ := UC_append.1 h
      obtain ⟨c6, h, h7⟩ := UC_append.1 h
      obtain ⟨c5, h, h6⟩ := UC_append.1 h
      obtain ⟨c4, h, h5⟩ := UC_append.1 h
      obtain ⟨c3, h, h4⟩ := UC_append.1 h
      have hs := F.spans _ _ _ ht0 a c3 h
      obtain ⟨c2, h, h3⟩ := UC_append.1 h
      obtain ⟨d, k1, k2, k3⟩ := i4 _ _ h9
      have g2 := h.le; have g3 := h3.le; have g4 := h4.le; have g5 := h5.le; have g6 := h6.le
      have g7 := h7.le; have g8 := h8.le; have g9 := h9.le
      have k4 := SpIn.le k3
      simp only [Field.In, FieldKind.In]
      refine ⟨hs.2.mono (by omega) (by omega), (i1 _ _ h4).mono (by omega) (by omega),
        ⟨SpIn.mono (UC_one.1 h3) (by omega) (by omega), MessageBody.In.mono (by omega) (by omega) _ k1⟩,
        (i2 _ _ h6).mono (by omega) (by omega), (i3 _ _ h7).mono (by omega) (by omega),
        SpIn.join' hs.1 k3 (by omega)⟩
  split
  · rename_i hv
    exact tail _ ⟨A.eats, fun hb => ⟨⟨(A.good hb).1, (A.good hb).2⟩, isValidGroupName_iff.1 hv⟩, A.len, A.pre, A.fail⟩
  · refine A.addError (spans_one rfl (uc_spanOk e1 hp1 i1)) fun A => ?_
    exact tail _ (A _)

theorem parseField_snd [FloatFmt] {body : List Token → MessageBody → Prop} {p : Prog (MessageBody × Span)}
    (hf : n < fuel) (hbody : BodySnd L (n - 1) p body) : Snd L n (parseField p fuel) (FieldG body) Field.In := by
  intro st Q E hn hp hQ hE
  unfold parseField
  refine (At.start hn hp hE).leading fun lead st1 A => ?_
  unfold parseLabel
  rw [wp_bind']
  -- what follows the label
  have tail : ∀ (label : Option (FieldLabel × Span)) (start : Span) (u : List STok) (st2 : AS),
      At L n E st u (LabelG (bare u) label) st2 → FieldStart label start u st2 →
      wp L (Prog.peek >>= fun x => match x with
        | some (tok, _) => if tok = kw b!"map" then parseMap fuel lead start label
          else if tok = kw b!"group" then parseGroup p fuel lead start label
          else parseNormalField fuel lead start label
        | none => parseNormalField fuel lead start label) Q E st2 := by
    intro label start u st2 A F
    refine A.peekO (fun ht A => ?_) (fun t sp r ht A => ?_)
    · exact parseNormalField_snd hf A ⟨nofun, nofun⟩ nofun hQ
    · have F' : FieldStart label start u ⟨some (t, sp) :: r, true, st2.bad⟩ :=
        ⟨fun t' sp' r' h => F.spans t' sp' r' (ht.trans h), fun hu t' sp' r' h => F.noLabel hu t' sp' r' (ht.trans h)⟩
      simp only
      split
      · exact parseMap_snd hf A F' hQ
      · split
        · exact parseGroup_snd hf hbody hn A F' hQ
        · rename_i h1 h2
          refine parseNormalField_snd hf A F' ?_ hQ
          intro t' sp' r' h
          simp only [List.cons.injEq, Option.some.injEq, Prod.mk.injEq] at h
          exact ⟨h.1.1 ▸ h1, h.1.1 ▸ h2⟩
  refine A.peek rfl fun t sp r ht A hun => ?_
  simp only
  have lab : ∀ (l : FieldLabel), t = kw b!"optional" ∧ l = .optional ∨ t = kw b!"required" ∧ l = .required ∨
      t = kw b!"repeated" ∧ l = .repeated →
      wp L (Prog.bump >>= fun _ => pure (some (l, sp), sp)) (fun x st' => wp L (match x with
        | (label, start) => Prog.peek >>= fun x => match x with
        | some (tok, _) => if tok = kw b!"map" then parseMap fuel lead start label
          else if tok = kw b!"group" then parseGroup p fuel lead start label
          else parseNormalField fuel lead start label
        | none => parseNormalField fuel lead start label) Q E st') E ⟨some (t, sp) :: r, true, st1.bad⟩ := by
    intro l hl
    refine A.bump fun A => ?_
    refine tail (some (l, sp)) sp _ _ ⟨A.eats, fun _ => ?_, A.len, A.pre, A.fail⟩ ⟨?_, nofun⟩
    · rcases hl with ⟨rfl, rfl⟩ | ⟨rfl, rfl⟩ | ⟨rfl, rfl⟩
      · exact .optional
      · exact .required
      · exact .repeated
    · intro t' sp' r' _ a b h
      obtain ⟨c, h1, h2⟩ := UC_append.1 h
      have h3 := UC_one.1 h1
      refine ⟨SpIn.wr h3 h2.le, ?_⟩
      intro x hx
      cases hx
      exact SpIn.wr h3 h2.le
  split
  · rename_i heq; exact lab .optional (.inl ⟨heq, rfl⟩)
  · split
    · rename_i heq; exact lab .required (.inr (.inl ⟨heq, rfl⟩))
    · split
      · rename_i heq; exact lab .repeated (.inr (.inr ⟨heq, rfl⟩))
      · rename_i h1 h2 h3
        split
        · refine tail none sp _ _ ⟨A.eats, fun _ => .none, A.len, A.pre, A.fail⟩ ⟨?_, ?_⟩
          · intro t' sp' r' h' a b h
            simp only [List.cons.injEq, Option.some.injEq, Prod.mk.injEq] at h'
            rw [← h'.1.2] at h
            exact ⟨UC_one.1 h, nofun⟩
          · intro _ t' sp' r' h'
            simp only [List.cons.injEq, Option.some.injEq, Prod.mk.injEq] at h'
            rw [← h'.1.1]
            exact ⟨h1, h2, h3⟩
        · exact hun

end Verif.Parse
