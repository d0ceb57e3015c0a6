import Verif.Proofs.Cpl4
/-! Completeness of the grammar methods: enums, oneofs, extends, messages. -/
namespace Verif.Parse
open Lex Verif.Ast Verif.Grammar

section
variable {n fuel : Nat} {e : Bool} [FloatFmt]

/-- A loop over elements followed by a closing token. -/
theorem elems_loop {σ β : Type} [Erase σ] {elem : List Token → σ → σ → Prop} {step : σ → Prog (Step σ β)} {Q : β → TS → Prop}
    (hstep : ∀ (t : List Token) (s s' s1 : σ) (rest : List Token) (pk : Bool) (R : Step σ β → TS → Prop), elem t s s' → er s1 = er s →
      (t ++ rest).length ≤ n → (∀ s2 pk', er s2 = er s' → R (.next s2) (At' rest pk' false)) → wpc (step s1) R (At' (t ++ rest) pk false))
    (hne : ∀ t s s', elem t s s' → t ≠ []) {ts rest : List Token} {s s' : σ} (hm : Many elem ts s s') {pk : Bool}
    (hn : (ts ++ rest).length ≤ n) (hf : n < fuel)
    (hfin : ∀ s2 pk, er s2 = er s' → wpc (step s2) (DoneQ Q) (At' rest pk false)) :
    wpc (loopM step fuel s) Q (At' (ts ++ rest) pk false) := by
  refine loop_cpl (F := Any) (n := n) ?_ hne (fun _ _ _ _ _ _ => trivial) trivial ts s s' hm s pk fuel rfl hn ?_ hfin
  · intro t s s' s1 rest pk R h1 h2 h3 _ h4
    exact hstep t s s' s1 rest pk R h1 h2 h3 h4
  · rw [List.length_append] at hn; omega

theorem reserved_head {ts : List Token} {r : Reserved} (h : ReservedG ts r) : ∃ us, ts = kw b!"reserved" :: us := by
  cases h <;> exact ⟨_, rfl⟩
theorem option_head {ts : List Token} {r : Opt} (h : OptionG ts r) : ∃ us, ts = kw b!"option" :: us := by
  cases h; exact ⟨_, rfl⟩
theorem enumValue_head {ts : List Token} {r : EnumValue} (h : EnumValueG ts r) : ∃ m us, ts = .ident m :: us := by
  obtain ⟨h⟩ := h; cases h; exact ⟨_, _, rfl⟩
theorem enum_head {ts : List Token} {r : Enum} (h : EnumG ts r) : ∃ us, ts = kw b!"enum" :: us := by
  cases h; exact ⟨_, rfl⟩
theorem oneof_head {B} {ts : List Token} {r : Oneof} (h : OneofG B ts r) : ∃ us, ts = kw b!"oneof" :: us := by
  cases h; exact ⟨_, rfl⟩
theorem extend_head {B} {ts : List Token} {r : Extend} (h : ExtendG B ts r) : ∃ us, ts = kw b!"extend" :: us := by
  cases h; exact ⟨_, rfl⟩
omit [FloatFmt] in
theorem message_head {B} {ts : List Token} {r : Message} (h : MessageG B ts r) : ∃ us, ts = kw b!"message" :: us := by
  cases h; exact ⟨_, rfl⟩
theorem extensions_head {ts : List Token} {r : Extensions} (h : ExtensionsG ts r) : ∃ us, ts = kw b!"extensions" :: us := by
  cases h; exact ⟨_, rfl⟩

/-! ## Enums -/

theorem parseEnumValue_cpl (hf : n < fuel) : Cpl n false (parseEnumValue fuel) EnumValueG Any := by
  intro ts v rest pk Q hn hg hF hQ
  unfold parseEnumValue
  refine leading_b fun lead => ?_
  obtain ⟨h1, h2, h3⟩ := hg
  simp only [List.append_assoc, List.cons_append, List.nil_append] at hn ⊢
  refine ident_b h1 fun i hi => ?_
  refine equals_b fun _ => ?_
  refine (parseInt_cpl (n := n)).use (by simp at hn ⊢; omega) h2 trivial fun nv pk' hnv => ?_
  refine (parseOptOptions_cpl (n := n) hf (by simp)).use (by simp at hn ⊢; omega) h3 (By.mk (by simp)) fun ov pk' hov => ?_
  refine expect_b rfl (by simp) (by simp) fun sp => ?_
  refine trailing_b fun c => ?_
  refine hQ _ _ ?_
  show EnumValue.mk _ _ _ _ _ = EnumValue.mk _ _ _ _ _
  rw [hi, hnv, hov]; rfl

theorem enumElem_ne {t s s'} (h : EnumElem t s s') : t ≠ [] := by
  cases h with
  | option h => obtain ⟨_, rfl⟩ := option_head h; simp
  | reserved h => obtain ⟨_, rfl⟩ := reserved_head h; simp
  | value h => obtain ⟨_, _, rfl⟩ := enumValue_head h; simp
  | empty => simp

theorem parseEnum_cpl (hf : n < fuel) : Cpl n false (parseEnum fuel) EnumG Any := by
  intro ts v rest pk Q hn hg hF hQ
  unfold parseEnum
  refine leading_b fun lead => ?_
  obtain ⟨h1, h2⟩ := hg
  rename_i is name ts os vs rs c0 sp0
  simp only [List.append_assoc, List.cons_append, List.nil_append] at hn ⊢
  refine expect_b rfl (by simp) (by simp) fun sp => ?_
  refine ident_b h1 fun i hi => ?_
  refine expect_b rfl (by simp) (by simp) fun sp2 => ?_
  refine trailing_b fun c => ?_
  rw [wpc_bind]
  refine elems_loop (n := n) ?_ (fun _ _ _ h => enumElem_ne h) h2 (by simp at hn ⊢; omega) hf ?_
  · intro t s s' s1 rest pk R h he hl hR
    unfold enumStep
    have e1 := er_fst he
    have e2 := er_fst (er_snd he)
    have e3 := er_snd (er_snd he)
    cases h with
    | option h =>
      obtain ⟨us, hus⟩ := option_head h
      rw [show t ++ rest = kw b!"option" :: (us ++ rest) by rw [hus]; rfl]
      refine peek_b fun sp => ?_
      dsimp only
      rw [if_pos rfl, ← List.cons_append, ← hus]
      refine (parseOption_cpl hf).use hl h trivial fun o pk' ho => ?_
      exact hR _ _ (er_pair (er_snoc e1 ho) (er_pair e2 e3))
    | reserved h =>
      obtain ⟨us, hus⟩ := reserved_head h
      rw [show t ++ rest = kw b!"reserved" :: (us ++ rest) by rw [hus]; rfl]
      refine peek_b fun sp => ?_
      dsimp only
      rw [if_neg (by decide), if_pos rfl, ← List.cons_append, ← hus]
      refine (parseReserved_cpl hf).use hl h trivial fun o pk' ho => ?_
      exact hR _ _ (er_pair e1 (er_pair e2 (er_snoc e3 ho)))
    | value h h' =>
      obtain ⟨m, us, hus⟩ := enumValue_head h
      rw [hus] at h'
      rw [show t ++ rest = .ident m :: (us ++ rest) by rw [hus]; rfl]
      refine peek_b fun sp => ?_
      dsimp only
      rw [if_neg (noKw_head h' (by simp)), if_neg (noKw_head h' (by simp)), ← List.cons_append, ← hus]
      refine (parseEnumValue_cpl hf).use hl h trivial fun o pk' ho => ?_
      exact hR _ _ (er_pair e1 (er_pair (er_snoc e2 ho) e3))
    | empty =>
      refine peek_b fun sp => ?_
      dsimp only
      rw [if_neg (by decide), if_neg (by decide)]
      exact bump_b rfl (by simp) (by simp) fun _ => hR _ _ he
  · intro s2 pk he
    unfold enumStep
    refine peek_b fun sp => ?_
    dsimp only
    rw [if_neg (by decide), if_neg (by decide)]
    refine bump_b rfl (by simp) (by simp) fun _ => ?_
    refine hQ _ _ ?_
    show Enum.mk _ _ _ _ _ _ = Enum.mk _ _ _ _ _ _
    rw [hi, er_fst he, er_fst (er_snd he), er_snd (er_snd he)]; rfl

/-! ## Oneofs, extends, messages -/

variable {body : Prog (MessageBody × Span)} {B : List Token → MessageBody → Prop}

theorem startsType_cases {c : Token} (h : Token.startsType c = true) : c = .dot ∨ ∃ m, c = .ident m := by
  cases c <;> first | exact .inl rfl | exact .inr ⟨_, rfl⟩ | cases h

theorem oneofElem_ne {t s s'} (h : OneofElem B t s s') : t ≠ [] := by
  cases h with
  | option h => obtain ⟨_, rfl⟩ := option_head h; simp
  | field h => obtain ⟨_, _, rfl, _⟩ := field_head h; simp
  | empty => simp

theorem parseOneof_cpl (hb : Cpl n false body (Closed B) Any) (hf : n + 1 < fuel) :
    Cpl (n + 1) false (parseOneof body fuel) (OneofG B) Any := by
  intro ts v rest pk Q hn hg hF hQ
  unfold parseOneof
  refine leading_b fun lead => ?_
  obtain ⟨h1, h2⟩ := hg
  rename_i is name ts os fs c0 sp0
  simp only [List.append_assoc, List.cons_append, List.nil_append] at hn ⊢
  refine expect_b rfl (by simp) (by simp) fun sp => ?_
  refine ident_b h1 fun i hi => ?_
  refine expect_b rfl (by simp) (by simp) fun sp2 => ?_
  refine trailing_b fun c => ?_
  rw [wpc_bind]
  refine elems_loop (n := n + 1) ?_ (fun _ _ _ h => oneofElem_ne h) h2 (by simp at hn ⊢; omega) hf ?_
  · intro t s s' s1 rest pk R h he hl hR
    unfold oneofStep
    have e1 := er_fst he
    have e2 := er_snd he
    cases h with
    | option h =>
      obtain ⟨us, hus⟩ := option_head h
      rw [show t ++ rest = kw b!"option" :: (us ++ rest) by rw [hus]; rfl]
      refine peek_b fun sp => ?_
      dsimp only
      rw [if_pos rfl, ← List.cons_append, ← hus]
      refine (parseOption_cpl hf).use hl h trivial fun o pk' ho => ?_
      exact hR _ _ (er_pair (er_snoc e1 ho) e2)
    | field h h' =>
      obtain ⟨c, us, hus, hc⟩ := field_head h
      rw [hus] at h'
      have key : ∀ pk, wpc (do let f ← parseField body fuel; pure (Step.next (s1.1, s1.2 ++ [f]))) R (At' (t ++ rest) pk false) := by
        intro pk
        refine (parseField_cpl hb hf).use hl h trivial fun o pk' ho => ?_
        exact hR _ _ (er_pair e1 (er_snoc e2 ho))
      rw [show t ++ rest = c :: (us ++ rest) by rw [hus]; rfl] at key ⊢
      refine peek_b fun sp => ?_
      dsimp only
      rw [if_neg (noKw_head h' (by simp))]
      rcases startsType_cases hc with rfl | ⟨m, rfl⟩ <;> exact key _
    | empty =>
      refine peek_b fun sp => ?_
      dsimp only
      rw [if_neg (by decide)]
      exact bump_b rfl (by simp) (by simp) fun _ => hR _ _ he
  · intro s2 pk he
    unfold oneofStep
    refine peek_b fun sp => ?_
    dsimp only
    rw [if_neg (by decide)]
    refine bump_b rfl (by simp) (by simp) fun _ => ?_
    refine hQ _ _ ?_
    rw [er_oneof, er_oneof]
    simp only
    rw [hi, er_fst he, er_snd he]; rfl

theorem extendElem_ne {t s s'} (h : ExtendElem B t s s') : t ≠ [] := by
  cases h with
  | field h => obtain ⟨_, _, rfl, _⟩ := field_head h; simp
  | empty => simp

theorem parseExtend_cpl (hb : Cpl n false body (Closed B) Any) (hf : n + 1 < fuel) :
    Cpl (n + 1) false (parseExtend body fuel) (ExtendG B) Any := by
  intro ts v rest pk Q hn hg hF hQ
  unfold parseExtend
  refine leading_b fun lead => ?_
  obtain ⟨h1, h2⟩ := hg
  rename_i is name ts fs c0 sp0
  simp only [List.append_assoc, List.cons_append, List.nil_append] at hn ⊢
  refine expect_b rfl (by simp) (by simp) fun sp => ?_
  refine (parseTypeName_cpl (n := n + 1) hf).use (by simp at hn ⊢; omega) h1 ⟨_, _, rfl, by simp, by decide⟩ fun i pk' hi => ?_
  refine expect_b rfl (by simp) (by simp) fun sp2 => ?_
  refine trailing_b fun c => ?_
  rw [wpc_bind]
  refine elems_loop (n := n + 1) ?_ (fun _ _ _ h => extendElem_ne h) h2 (by simp at hn ⊢; omega) hf ?_
  · intro t s s' s1 rest pk R h he hl hR
    unfold extendStep
    cases h with
    | field h =>
      obtain ⟨c, us, hus, hc⟩ := field_head h
      have key : ∀ pk, wpc (do let f ← parseField body fuel; pure (Step.next (s1 ++ [f]))) R (At' (t ++ rest) pk false) := by
        intro pk
        refine (parseField_cpl hb hf).use hl h trivial fun o pk' ho => ?_
        exact hR _ _ (er_snoc he ho)
      rw [show t ++ rest = c :: (us ++ rest) by rw [hus]; rfl] at key ⊢
      refine peek_b fun sp => ?_
      rcases startsType_cases hc with rfl | ⟨m, rfl⟩ <;> exact key _
    | empty =>
      refine peek_b fun sp => ?_
      exact bump_b rfl (by simp) (by simp) fun _ => hR _ _ he
  · intro s2 pk he
    unfold extendStep
    refine peek_b fun sp => ?_
    refine bump_b rfl (by simp) (by simp) fun _ => ?_
    refine hQ _ _ ?_
    rw [er_extend, er_extend]
    simp only
    rw [hi, he]; rfl

omit [FloatFmt] in
theorem parseMessage_cpl (hb : Cpl n false body (Closed B) Any) :
    Cpl (n + 1) false (parseMessage body) (MessageG B) Any := by
  intro ts v rest pk Q hn hg hF hQ
  unfold parseMessage
  refine leading_b fun lead => ?_
  obtain ⟨h1, h2⟩ := hg
  rename_i is name ts b c0 sp0
  simp only [List.append_assoc, List.cons_append, List.nil_append] at hn ⊢
  refine expect_b rfl (by simp) (by simp) fun sp => ?_
  refine ident_b h1 fun i hi => ?_
  refine expect_b rfl (by simp) (by simp) fun sp2 => ?_
  refine trailing_b fun c => ?_
  rw [show ts ++ .rightBrace :: rest = (ts ++ [.rightBrace]) ++ rest by simp]
  refine hb.use (v := (b, sp)) (by simp at hn ⊢; omega) ⟨_, rfl, h2⟩ trivial fun bv pk' hbv => ?_
  refine hQ _ _ ?_
  rw [er_message, er_message]
  simp only
  rw [hi, show er bv.1 = er b from er_fst hbv]; rfl

theorem bodyElem_ne {t s s'} (h : BodyElem B t s s') : t ≠ [] := by
  cases h with
  | field h => obtain ⟨_, _, rfl, _⟩ := field_head h; simp
  | oneof h => obtain ⟨_, rfl⟩ := oneof_head h; simp
  | enum h => obtain ⟨_, rfl⟩ := enum_head h; simp
  | message h => obtain ⟨_, rfl⟩ := message_head h; simp
  | extend h => obtain ⟨_, rfl⟩ := extend_head h; simp
  | option h => obtain ⟨_, rfl⟩ := option_head h; simp
  | reserved h => obtain ⟨_, rfl⟩ := reserved_head h; simp
  | extensions h => obtain ⟨_, rfl⟩ := extensions_head h; simp
  | empty => simp

theorem er_body_eq {a b : MessageBody} : er a = er b ↔ er a.items = er b.items ∧ er a.extensions = er b.extensions ∧
    er a.options = er b.options ∧ er a.reserved = er b.reserved := by
  rw [er_body, er_body]; simp

theorem er_ifield {a b : Field} (h : er a = er b) : er (MessageItem.field a) = er (MessageItem.field b) := by
  show erItem _ = erItem _
  rw [erItem, erItem]; exact congrArg MessageItem.field h
theorem er_ienum {a b : Enum} (h : er a = er b) : er (MessageItem.enum a) = er (MessageItem.enum b) := by
  show erItem _ = erItem _
  rw [erItem, erItem]; exact congrArg MessageItem.enum h
theorem er_imessage {a b : Message} (h : er a = er b) : er (MessageItem.message a) = er (MessageItem.message b) := by
  show erItem _ = erItem _
  rw [erItem, erItem]; exact congrArg MessageItem.message h
theorem er_iextend {a b : Extend} (h : er a = er b) : er (MessageItem.extend a) = er (MessageItem.extend b) := by
  show erItem _ = erItem _
  rw [erItem, erItem]; exact congrArg MessageItem.extend h
theorem er_ioneof {a b : Oneof} (h : er a = er b) : er (MessageItem.oneof a) = er (MessageItem.oneof b) := by
  show erItem _ = erItem _
  rw [erItem, erItem]; exact congrArg MessageItem.oneof h

theorem bodyStep_cpl (hb : Cpl n false body (Closed B) Any) (hf : n + 1 < fuel)
    {t : List Token} {s s' s1 : MessageBody} {rest : List Token} {pk : Bool} {R : Step MessageBody (MessageBody × Span) → TS → Prop}
    (h : BodyElem B t s s') (he : er s1 = er s) (hl : (t ++ rest).length ≤ n + 1)
    (hR : ∀ s2 pk', er s2 = er s' → R (.next s2) (At' rest pk' false)) : wpc (bodyStep body fuel s1) R (At' (t ++ rest) pk false) := by
  obtain ⟨e1, e2, e3, e4⟩ := er_body_eq.1 he
  unfold bodyStep
  cases h with
  | field h h' =>
    obtain ⟨c, us, hus, hc⟩ := field_head h
    rw [hus] at h'
    have key : ∀ pk, wpc (do let f ← parseField body fuel; pure (Step.next { s1 with items := s1.items ++ [.field f] })) R
        (At' (t ++ rest) pk false) := by
      intro pk
      refine (parseField_cpl hb hf).use hl h trivial fun o pk' ho => ?_
      exact hR _ _ (er_body_eq.2 ⟨er_snoc e1 (er_ifield ho), e2, e3, e4⟩)
    rw [show t ++ rest = c :: (us ++ rest) by rw [hus]; rfl] at key ⊢
    refine peek_b fun sp => ?_
    dsimp only
    rw [if_neg (noKw_head h' (by decide)), if_neg (noKw_head h' (by decide)), if_neg (noKw_head h' (by decide)),
      if_neg (noKw_head h' (by decide)), if_neg (noKw_head h' (by decide)), if_neg (noKw_head h' (by decide)),
      if_neg (noKw_head h' (by decide))]
    rcases startsType_cases hc with rfl | ⟨m, rfl⟩ <;> exact key _
  | oneof h =>
    obtain ⟨us, hus⟩ := oneof_head h
    rw [show t ++ rest = kw b!"oneof" :: (us ++ rest) by rw [hus]; rfl]
    refine peek_b fun sp => ?_
    dsimp only
    rw [if_pos rfl, ← List.cons_append, ← hus]
    refine (parseOneof_cpl hb hf).use hl h trivial fun o pk' ho => ?_
    exact hR _ _ (er_body_eq.2 ⟨er_snoc e1 (er_ioneof ho), e2, e3, e4⟩)
  | enum h =>
    obtain ⟨us, hus⟩ := enum_head h
    rw [show t ++ rest = kw b!"enum" :: (us ++ rest) by rw [hus]; rfl]
    refine peek_b fun sp => ?_
    dsimp only
    rw [if_neg (by decide), if_pos rfl, ← List.cons_append, ← hus]
    refine (parseEnum_cpl hf).use hl h trivial fun o pk' ho => ?_
    exact hR _ _ (er_body_eq.2 ⟨er_snoc e1 (er_ienum ho), e2, e3, e4⟩)
  | message h =>
    obtain ⟨us, hus⟩ := message_head h
    rw [show t ++ rest = kw b!"message" :: (us ++ rest) by rw [hus]; rfl]
    refine peek_b fun sp => ?_
    dsimp only
    rw [if_neg (by decide), if_neg (by decide), if_pos rfl, ← List.cons_append, ← hus]
    refine (parseMessage_cpl hb).use hl h trivial fun o pk' ho => ?_
    exact hR _ _ (er_body_eq.2 ⟨er_snoc e1 (er_imessage ho), e2, e3, e4⟩)
  | extend h =>
    obtain ⟨us, hus⟩ := extend_head h
    rw [show t ++ rest = kw b!"extend" :: (us ++ rest) by rw [hus]; rfl]
    refine peek_b fun sp => ?_
    dsimp only
    rw [if_neg (by decide), if_neg (by decide), if_neg (by decide), if_pos rfl, ← List.cons_append, ← hus]
    refine (parseExtend_cpl hb hf).use hl h trivial fun o pk' ho => ?_
    exact hR _ _ (er_body_eq.2 ⟨er_snoc e1 (er_iextend ho), e2, e3, e4⟩)
  | option h =>
    obtain ⟨us, hus⟩ := option_head h
    rw [show t ++ rest = kw b!"option" :: (us ++ rest) by rw [hus]; rfl]
    refine peek_b fun sp => ?_
    dsimp only
    rw [if_neg (by decide), if_neg (by decide), if_neg (by decide), if_neg (by decide), if_pos rfl, ← List.cons_append, ← hus]
    refine (parseOption_cpl hf).use hl h trivial fun o pk' ho => ?_
    exact hR _ _ (er_body_eq.2 ⟨e1, e2, er_snoc e3 ho, e4⟩)
  | reserved h =>
    obtain ⟨us, hus⟩ := reserved_head h
    rw [show t ++ rest = kw b!"reserved" :: (us ++ rest) by rw [hus]; rfl]
    refine peek_b fun sp => ?_
    dsimp only
    rw [if_neg (by decide), if_neg (by decide), if_neg (by decide), if_neg (by decide), if_neg (by decide), if_pos rfl,
      ← List.cons_append, ← hus]
    refine (parseReserved_cpl hf).use hl h trivial fun o pk' ho => ?_
    exact hR _ _ (er_body_eq.2 ⟨e1, e2, e3, er_snoc e4 ho⟩)
  | extensions h =>
    obtain ⟨us, hus⟩ := extensions_head h
    rw [show t ++ rest = kw b!"extensions" :: (us ++ rest) by rw [hus]; rfl]
    refine peek_b fun sp => ?_
    dsimp only
    rw [if_neg (by decide), if_neg (by decide), if_neg (by decide), if_neg (by decide), if_neg (by decide), if_neg (by decide), if_pos rfl,
      ← List.cons_append, ← hus]
    refine (parseExtensions_cpl hf).use hl h trivial fun o pk' ho => ?_
    exact hR _ _ (er_body_eq.2 ⟨e1, er_snoc e2 ho, e3, e4⟩)
  | empty =>
    refine peek_b fun sp => ?_
    dsimp only
    rw [if_neg (by decide), if_neg (by decide), if_neg (by decide), if_neg (by decide), if_neg (by decide), if_neg (by decide),
      if_neg (by decide)]
    exact bump_b rfl (by simp) (by simp) fun _ => hR _ _ he

theorem Cpl.mono {α : Type} [Erase α] {p : Prog α} {G F} {k : Nat} (h : Cpl n e p G F) (hk : k ≤ n) : Cpl k e p G F :=
  fun ts v rest pk Q hn => h ts v rest pk Q (Nat.le_trans hn hk)

theorem bodyLoop_cpl {d : Nat} (hb : Cpl n false body (Closed (BodyG d)) Any) (hf : n + 1 < fuel) :
    Cpl (n + 1) false (loopM (bodyStep body fuel) fuel ⟨[], [], [], []⟩) (Closed (BodyG (d + 1))) Any := by
  rintro ts v rest pk Q hn ⟨bs, rfl, hg⟩ hF hQ
  rw [List.append_assoc, List.singleton_append] at hn ⊢
  refine elems_loop (n := n + 1) (elem := BodyElem (BodyG d)) ?_ (fun _ _ _ h => bodyElem_ne h) hg hn hf ?_
  · intro t s s' s1 rest pk R h he hl hR
    exact bodyStep_cpl hb hf h he hl hR
  · intro s2 pk he
    unfold bodyStep
    refine peek_b fun sp => ?_
    dsimp only
    rw [if_neg (by decide), if_neg (by decide), if_neg (by decide), if_neg (by decide), if_neg (by decide), if_neg (by decide),
      if_neg (by decide)]
    refine bump_b rfl (by simp) (by simp) fun _ => ?_
    exact hQ _ _ (er_pair he rfl)

theorem parseMessageBody_cpl : ∀ (depth n d : Nat), n < depth → n < fuel →
    Cpl n false (parseMessageBody fuel depth) (Closed (BodyG d)) Any := by
  intro depth
  induction depth with
  | zero => intro n d h; omega
  | succ k ih =>
    intro n d h hf
    cases d with
    | zero => rintro ts v rest pk Q hn ⟨bs, rfl, hg⟩; exact hg.elim
    | succ d =>
      cases n with
      | zero =>
        rintro ts v rest pk Q hn ⟨bs, rfl, hg⟩
        simp at hn
      | succ n =>
        exact bodyLoop_cpl (ih n d (by omega) (by omega)) hf

theorem parseAnyBody_cpl {depth : Nat} (h : n < depth) (hf : n < fuel) : Cpl n false (parseMessageBody fuel depth) (Closed AnyBodyG) Any := by
  rintro ts v rest pk Q hn ⟨bs, h1, d, hg⟩
  exact parseMessageBody_cpl depth n d h hf ts v rest pk Q hn ⟨bs, h1, hg⟩

end
end Verif.Parse
