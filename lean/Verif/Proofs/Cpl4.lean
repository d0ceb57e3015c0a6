import Verif.Proofs.Cpl3
/-! Completeness of the grammar methods: types, fields, enums, oneofs, extends, messages. -/
namespace Verif.Parse
open Lex Verif.Ast Verif.Grammar

/-! ## Erasing of nested trees -/

theorem erItems_map (xs : List MessageItem) : erItems xs = er xs := by
  show _ = xs.map erItem
  induction xs with
  | nil => rfl
  | cons x xs ih => rw [erItems, ih]; rfl

theorem erFields_map (xs : List Field) : erFields xs = er xs := by
  show _ = xs.map erField
  induction xs with
  | nil => rfl
  | cons x xs ih => rw [erFields, ih]; rfl

theorem er_body (b : MessageBody) : er b = ⟨er b.items, er b.extensions, er b.options, er b.reserved⟩ := by
  show erBody b = _
  cases b; rw [erBody, erItems_map]

theorem er_field (f : Field) : er f = ⟨er f.label, er f.name, er f.kind, er f.number, er f.options, er f.comments, er f.span⟩ := by
  show erField f = _
  cases f; rw [erField]; rfl

theorem er_group (s : Span) (b : MessageBody) : er (FieldKind.group s b) = .group (er s) (er b) := by
  show erKind _ = _
  rw [erKind]; rfl

theorem er_map (s k ks v vs) : er (FieldKind.map s k ks v vs) = .map (er s) (er k) (er ks) (er v) (er vs) := by
  show erKind _ = _
  rw [erKind]

theorem er_normal (t s) : er (FieldKind.normal t s) = .normal (er t) (er s) := by
  show erKind _ = _
  rw [erKind]

theorem er_message (x : Message) : er x = ⟨er x.name, er x.body, er x.comments, er x.span⟩ := by
  show erMessage x = _
  cases x; rw [erMessage]; rfl

theorem er_extend (x : Extend) : er x = ⟨er x.extendee, er x.fields, er x.comments, er x.span⟩ := by
  show erExtend x = _
  cases x; rw [erExtend, erFields_map]

theorem er_oneof (x : Oneof) : er x = ⟨er x.name, er x.options, er x.fields, er x.comments, er x.span⟩ := by
  show erOneof x = _
  cases x; rw [erOneof, erFields_map]

theorem er_sp (a b : Span) : er a = er b := rfl
theorem er_comm (a b : Comments) : er a = er b := rfl

section
variable {n fuel : Nat} {e : Bool}

/-! ## Types -/

theorem scalarTy_mem {m : Bytes} {ty : Ty} (h : (m, ty) ∈ scalars) : scalarTy (.ident m) = some ty := by
  simp only [scalars, List.mem_cons, Prod.mk.injEq, List.not_mem_nil, or_false] at h
  rcases h with ⟨rfl, rfl⟩ | ⟨rfl, rfl⟩ | ⟨rfl, rfl⟩ | ⟨rfl, rfl⟩ | ⟨rfl, rfl⟩ | ⟨rfl, rfl⟩ | ⟨rfl, rfl⟩ | ⟨rfl, rfl⟩ | ⟨rfl, rfl⟩ |
    ⟨rfl, rfl⟩ | ⟨rfl, rfl⟩ | ⟨rfl, rfl⟩ | ⟨rfl, rfl⟩ | ⟨rfl, rfl⟩ | ⟨rfl, rfl⟩ <;> rfl

theorem scalarTy_noKw {t : Token} {r : List Token} (h : NoKw (scalars.map (·.1)) (t :: r)) : scalarTy t = none := by
  cases hs : scalarTy t with
  | none => rfl
  | some ty =>
    obtain ⟨m, rfl, hm⟩ := scalarTy_some hs
    exact absurd rfl (h m (List.mem_map.2 ⟨_, hm, rfl⟩))

theorem typeName_head {ts : List Token} {t : Ast.TypeName} (h : TypeNameG ts t) : ∃ c r, ts = c :: r ∧ Token.startsType c = true := by
  cases h with
  | relative h =>
    obtain ⟨_, _, _, _, rfl, _, h1, _⟩ := sepBy_split h
    cases h1
    exact ⟨_, _, rfl, rfl⟩
  | absolute h => exact ⟨_, _, rfl, rfl⟩

theorem ty_head {ts : List Token} {t : Ty} (h : TyG ts t) : ∃ c r, ts = c :: r ∧ Token.startsType c = true := by
  cases h with
  | scalar h => exact ⟨_, _, rfl, rfl⟩
  | named h _ => exact typeName_head h

theorem fullIdent_span {f f' : FullIdent} (h : er f' = er f) (hne : f.parts ≠ []) : f'.span.isSome = true := by
  have h : er f'.parts = er f.parts := by
    cases f; cases f'
    simpa [er] using h
  have h2 : f'.parts ≠ [] := by
    intro h0
    rw [h0, er_nil] at h
    cases hp : f.parts with
    | nil => exact hne hp
    | cons a l => rw [hp, er_cons] at h; cases h
  unfold FullIdent.span
  cases hp : f'.parts with
  | nil => exact absurd hp h2
  | cons a l => simp [List.getLast?_cons]

theorem er_typeName {t t' : Ast.TypeName} (h : er t' = er t) : er t'.name = er t.name ∧ t'.leadingDot.isSome = t.leadingDot.isSome := by
  cases t; cases t'
  simp only [er, TypeName.mk.injEq] at h
  refine ⟨h.2, ?_⟩
  have h1 := congrArg Option.isSome h.1
  simpa using h1

theorem typeName_span {ts : List Token} {t t' : Ast.TypeName} (hg : TypeNameG ts t) (h : er t' = er t) : t'.span.isSome = true := by
  have hp : t.name.parts ≠ [] := by
    cases hg with
    | relative h7 => exact sepBy_last h7
    | absolute h7 => exact sepBy_last h7
  have := fullIdent_span (er_typeName h).1 hp
  unfold TypeName.span
  cases t'.leadingDot <;> simpa using this

theorem parseFieldType_cpl {terms : List Expected} (hf : n < fuel) :
    Cpl n e (parseFieldType fuel terms) (fun ts (v : Ty × Span) => TyG ts v.1) (ByE terms) := by
  rintro ts ⟨v, vs⟩ rest pk Q hn hg hF hQ
  unfold parseFieldType
  cases hg with
  | @scalar m ty h =>
    refine peek_b fun sp => ?_
    dsimp only
    rw [scalarTy_mem h]
    refine bump_b rfl (by simp) (by simp) fun _ => ?_
    exact hQ _ _ rfl
  | @named ts t h h2 =>
    obtain ⟨c, r, rfl, hc⟩ := typeName_head h
    rw [List.cons_append]
    refine peek_b fun sp => ?_
    dsimp only
    rw [scalarTy_noKw h2]
    dsimp only
    rw [if_pos hc]
    rw [← List.cons_append]
    refine (parseTypeName_cpl hf).use hn h hF fun v' pk' hv => ?_
    have := typeName_span h hv
    cases hs : v'.span with
    | none => rw [hs] at this; cases this
    | some sp => exact hQ _ _ (er_pair (congrArg Ty.named hv) rfl)

/-! ## Labels -/

theorem noKw_kw {ms : List Bytes} {m : Bytes} {r : List Token} (h : m ∉ ms) : NoKw ms (kw m :: r) := by
  intro m' hm h'
  simp only [List.head?_cons, Option.some.injEq, Token.ident.injEq] at h'
  exact h (h' ▸ hm)

theorem noKw_head {ms : List Bytes} {c : Token} {r : List Token} (h : NoKw ms (c :: r)) {m : Bytes} (hm : m ∈ ms) : c ≠ Parse.kw m := by
  intro h'
  exact h m hm (by rw [h']; rfl)

theorem label_b {β : Type} {f : Option (FieldLabel × Span) × Span → Prog β} {Q : β → TS → Prop} {ls : List Token} {l : Option (FieldLabel × Span)}
    {t : Token} {r : List Token} {pk : Bool} (hl : LabelG ls l) (ht : Token.startsType t = true)
    (hno : ls = [] → NoKw [b!"optional", b!"required", b!"repeated"] (t :: r))
    (hQ : ∀ l' sp pk', er l' = er l → wpc (f (l', sp)) Q (At' (t :: r) pk' false)) :
    wpc (parseLabel >>= f) Q (At' (ls ++ t :: r) pk false) := by
  unfold parseLabel
  rw [wpc_bind]
  cases hl with
  | none =>
    have hno := hno rfl
    refine peek_b fun sp => ?_
    dsimp only
    rw [if_neg (noKw_head hno (by simp)), if_neg (noKw_head hno (by simp)), if_neg (noKw_head hno (by simp)), if_pos ht]
    exact hQ _ _ _ rfl
  | optional =>
    refine peek_b fun sp => ?_
    dsimp only
    rw [if_pos rfl]
    exact bump_b rfl (by simp) (by simp) fun _ => hQ _ _ _ rfl
  | required =>
    refine peek_b fun sp => ?_
    dsimp only
    rw [if_neg (by decide), if_pos rfl]
    exact bump_b rfl (by simp) (by simp) fun _ => hQ _ _ _ rfl
  | repeated =>
    refine peek_b fun sp => ?_
    dsimp only
    rw [if_neg (by decide), if_neg (by decide), if_pos rfl]
    exact bump_b rfl (by simp) (by simp) fun _ => hQ _ _ _ rfl

/-! ## Fields -/

variable [FloatFmt]

/-- A body and the closing brace. -/
def Closed (G : List Token → MessageBody → Prop) (ts : List Token) (v : MessageBody × Span) : Prop :=
  ∃ bs, ts = bs ++ [.rightBrace] ∧ G bs v.1

theorem field_head {B : List Token → MessageBody → Prop} {ts : List Token} {f : Field} (h : FieldG B ts f) :
    ∃ c r, ts = c :: r ∧ Token.startsType c = true := by
  have hl : ∀ {ls l} (c : Token) (r : List Token), LabelG ls l → Token.startsType c = true →
      ∃ c' r', ls ++ c :: r = c' :: r' ∧ Token.startsType c' = true := by
    intro ls l c r h hc
    cases h with
    | none => exact ⟨_, _, rfl, hc⟩
    | optional => exact ⟨_, _, rfl, rfl⟩
    | required => exact ⟨_, _, rfl, rfl⟩
    | repeated => exact ⟨_, _, rfl, rfl⟩
  cases h with
  | normal h1 h2 =>
    obtain ⟨c, r, rfl, hc⟩ := ty_head h2
    simp only [List.append_assoc, List.cons_append]
    exact hl _ _ h1 hc
  | map h1 =>
    simp only [List.append_assoc, List.cons_append]
    exact hl _ _ h1 rfl
  | group h1 =>
    simp only [List.append_assoc, List.cons_append]
    exact hl _ _ h1 rfl

theorem parseField_cpl {body : Prog (MessageBody × Span)} {B : List Token → MessageBody → Prop} (hb : Cpl n false body (Closed B) Any)
    (hf : n + 1 < fuel) : Cpl (n + 1) false (parseField body fuel) (FieldG B) Any := by
  intro ts v rest pk Q hn hg hF hQ
  unfold parseField
  refine leading_b fun lead => ?_
  cases hg with
  | @normal ls label ts ty tsp is name ns number us os c0 sp0 h1 h2 h3 h4 h5 h6 h7 =>
    obtain ⟨c, r, hts, hc⟩ := ty_head h2
    simp only [List.append_assoc, List.cons_append, List.nil_append] at hn ⊢
    have e1 : ts ++ (is ++ .equals :: (ns ++ (us ++ .semicolon :: rest))) =
      c :: (r ++ (is ++ .equals :: (ns ++ (us ++ .semicolon :: rest)))) := by rw [hts]; rfl
    rw [e1]
    refine label_b h1 hc (fun hl => ?_) fun l sp pk' hl => ?_
    · have := h7 hl
      rw [hts] at this
      exact this
    refine peek_b fun sp2 => ?_
    have hk : ∀ m ∈ [b!"map", b!"group"], c ≠ Parse.kw m := by
      intro m hm h
      have := h6 m hm
      rw [hts, h] at this
      exact this rfl
    dsimp only
    rw [if_neg (hk _ (by simp)), if_neg (hk _ (by simp)), ← e1]
    unfold parseNormalField
    refine (parseFieldType_cpl (n := n + 1) hf).use (v := (ty, sp)) (by simp at hn ⊢; omega) h2 ?_ fun tv pk' htv => ?_
    · cases h3
      exact ⟨_, _, rfl, by simp, rfl⟩
    refine ident_b h3 fun i hi => ?_
    refine equals_b fun _ => ?_
    refine (parseInt_cpl (n := n + 1)).use (by simp at hn ⊢; omega) h4 trivial fun nv pk' hnv => ?_
    refine (parseOptOptions_cpl (n := n + 1) hf (by simp)).use (by simp at hn ⊢; omega) h5 (By.mk (by simp)) fun ov pk' hov => ?_
    refine expect_b rfl (by simp) (by simp) fun sp => ?_
    refine trailing_b fun c => ?_
    refine hQ _ _ ?_
    rw [er_field, er_field]
    simp only [er_normal]
    rw [hl, hi, hnv, hov, show er tv.1 = er ty from er_fst htv]
    rfl
  | @map ls label ks kty vs vty is name ns number us os c0 sp0 sp1 sp2 sp3 h1 h2 h3 h4 h5 h6 =>
    simp only [List.append_assoc, List.cons_append, List.nil_append] at hn ⊢
    refine label_b h1 rfl (fun hl => noKw_kw (by decide)) fun l sp pk' hl => ?_
    refine peek_b fun sp2 => ?_
    dsimp only
    rw [if_pos rfl]
    unfold parseMap
    refine expect_b rfl (by simp) (by simp) fun sp => ?_
    refine expect_b rfl (by simp) (by simp) fun sp => ?_
    refine (parseFieldType_cpl (n := n + 1) hf).use (v := (kty, sp)) (by simp at hn ⊢; omega) h2 ⟨_, _, rfl, by simp, by decide⟩
      fun kv pk' hkv => ?_
    refine expect_b rfl (by simp) (by simp) fun sp => ?_
    refine (parseFieldType_cpl (n := n + 1) hf).use (v := (vty, sp)) (by simp at hn ⊢; omega) h3 ⟨_, _, rfl, by simp, by decide⟩
      fun vv pk' hvv => ?_
    refine expect_b rfl (by simp) (by simp) fun sp => ?_
    refine ident_b h4 fun i hi => ?_
    refine equals_b fun _ => ?_
    refine (parseInt_cpl (n := n + 1)).use (by simp at hn ⊢; omega) h5 trivial fun nv pk' hnv => ?_
    refine (parseOptOptions_cpl (n := n + 1) hf (by simp)).use (by simp at hn ⊢; omega) h6 (By.mk (by simp)) fun ov pk' hov => ?_
    refine expect_b rfl (by simp) (by simp) fun sp => ?_
    refine trailing_b fun c => ?_
    refine hQ _ _ ?_
    rw [er_field, er_field]
    simp only [er_map]
    rw [hl, hi, hnv, hov, show er kv.1 = er kty from er_fst hkv, show er vv.1 = er vty from er_fst hvv]
    rfl
  | @group ls label is name ns number us os bs b c0 sp0 sp1 h1 h2 h3 h4 h5 h6 =>
    simp only [List.append_assoc, List.cons_append, List.nil_append] at hn ⊢
    refine label_b h1 rfl (fun hl => noKw_kw (by decide)) fun l sp pk' hl => ?_
    refine peek_b fun sp2 => ?_
    dsimp only
    rw [if_neg (by decide), if_pos rfl]
    unfold parseGroup
    refine expect_b rfl (by simp) (by simp) fun sp => ?_
    refine ident_b h2 fun i hi => ?_
    rw [er_ident.1 hi, if_pos (isValidGroupName_iff.2 h3)]
    refine pure_b ?_
    refine equals_b fun _ => ?_
    refine (parseInt_cpl (n := n + 1)).use (by simp at hn ⊢; omega) h4 trivial fun nv pk' hnv => ?_
    refine (parseOptOptions_cpl (n := n + 1) hf (by simp)).use (by simp at hn ⊢; omega) h5 (By.mk (by simp)) fun ov pk' hov => ?_
    refine expect_b rfl (by simp) (by simp) fun sp => ?_
    refine trailing_b fun c => ?_
    have e1 : bs ++ .rightBrace :: rest = (bs ++ [.rightBrace]) ++ rest := by simp
    rw [e1]
    refine hb.use (v := (b, sp)) (by simp at hn ⊢; omega) ⟨bs, rfl, h6⟩ trivial fun bv pk' hbv => ?_
    refine hQ _ _ ?_
    rw [er_field, er_field]
    simp only [er_group]
    rw [hl, hi, hnv, hov, show er bv.1 = er b from er_fst hbv]
    rfl

end
end Verif.Parse
