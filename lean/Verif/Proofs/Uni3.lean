import Verif.Proofs.Uni2
/-!
A source has only one tree: field types and fields.
-/
namespace Verif.Pos
open Verif.Parse Verif.Spec Verif.Ast Verif.Places
open Verif.Grammar (balanced aggText scalars GroupName)

theorem noKw_tok {ms : List Bytes} {a : ATok} {r : List ATok} (h : NoKw ms (a :: r)) {m : Bytes} (hm : m ∈ ms) : a.tok ≠ kw m := by
  intro h'
  exact h m hm (by simp [h'])

theorem typeNameG_head {ts t} (h : TypeNameG ts t) : ∃ a r, ts = a :: r ∧ Token.startsType a.tok = true := by
  cases h with
  | relative h =>
    obtain ⟨_, _, _, _, rfl, _, ⟨a, rfl, h1, _⟩, _⟩ := sepBy_tail h
    exact ⟨_, _, rfl, by rw [h1]; rfl⟩
  | absolute h _ => exact ⟨_, _, rfl, by rw [h]; rfl⟩

theorem parseFieldType_det (fuel : Nat) (terms : List Expected) :
    Det (parseFieldType fuel terms) (fun ts v => TyG ts v.1 v.2) NoDot := by
  intro st Q u v rest g e hF hQ
  unfold parseFieldType
  obtain ⟨ty, sp⟩ := v
  generalize hv : (ty, sp) = v at g
  obtain ⟨ty', sp'⟩ := v
  cases hv
  simp only at g
  cases g with
  | @scalar a n ty hm ha =>
    refine peekD e fun st' e' _ => ?_
    simp only [ha]
    have := scalarTy_mem hm
    simp only [this]
    exact bump e' (hQ _ rfl)
  | @named ts t h hno =>
    obtain ⟨a, r, rfl, ha⟩ := typeNameG_head h
    refine peekD e fun st' e' _ => ?_
    have hs : scalarTy a.tok = none := by
      cases hs : scalarTy a.tok with
      | none => rfl
      | some ty =>
        obtain ⟨m, h1, hm⟩ := scalarTy_some hs
        exact absurd h1 (noKw_tok hno (List.mem_map.2 ⟨_, hm, rfl⟩))
    simp only [hs]
    rw [if_pos ha]
    refine (parseTypeName_det fuel terms).bind h e' hF fun st2 e2 => ?_
    rw [typeName_span h]
    exact hQ _ e2

theorem label_det {β : Type} {Q : β → AS → Prop} {st : AS} {f : Option (FieldLabel × Span) × Span → Prog β} {ls label t r a}
    (g : LabelG ls label) (e : st.toks = ls ++ t :: r) (ha : (ls ++ t :: r).head? = some a)
    (hno : ls = [] → ∀ m ∈ [b!"optional", b!"required", b!"repeated"], t.tok ≠ kw m)
    (k : ∀ st', st'.toks = t :: r → wp (f (label, a.span)) Q st') : wp (parseLabel >>= f) Q st := by
  rw [bind]
  unfold parseLabel
  cases g with
  | none =>
    cases ha
    refine peekD e fun st' e' _ => ?_
    have h := hno rfl
    simp only
    rw [if_neg (h _ (by simp)), if_neg (h _ (by simp)), if_neg (h _ (by simp))]
    split
    · exact k _ e'
    · exact unexp'
  | @optional b h =>
    cases ha
    refine peekD e fun st' e' _ => ?_
    simp only
    rw [if_pos h]
    exact bump e' (k _ rfl)
  | @required b h =>
    cases ha
    refine peekD e fun st' e' _ => ?_
    simp only
    rw [if_neg (by rw [h]; decide), if_pos h]
    exact bump e' (k _ rfl)
  | @repeated b h =>
    cases ha
    refine peekD e fun st' e' _ => ?_
    simp only
    rw [if_neg (by rw [h]; decide), if_neg (by rw [h]; decide), if_pos h]
    exact bump e' (k _ rfl)

theorem identG_head {is i} (h : IdentG is i) : ∃ a, is = [a] ∧ ∃ v, a.tok = .ident v := by
  obtain ⟨a, rfl, h, _⟩ := h
  exact ⟨a, rfl, _, h⟩

theorem head_ls {ls : List ATok} (t : ATok) (r : List ATok) : ∃ a, (ls ++ t :: r).head? = some a ∧ (ls ++ [t]).head? = some a := by
  cases ls with
  | nil => exact ⟨t, rfl, rfl⟩
  | cons a l => exact ⟨a, rfl, rfl⟩

theorem comments_of {ts : List ATok} {a z : ATok} (h : ts.head? = some a) : comments ts z = ⟨a.detached, a.leading, z.trailing⟩ := by
  unfold comments; rw [h]

/-- A block that ends with a closing brace. -/
def BlockDet {α : Type} (p : Prog (α × Span)) (G : List ATok → α → Prop) : Prop :=
  ∀ (st : AS) (Q : α × Span → AS → Prop) (ts : List ATok) (v : α) (z : ATok) (r : List ATok), st.lead = true → G ts v →
    st.toks = ts ++ z :: r → z.tok = .rightBrace → Q (v, z.span) ⟨r, .fresh, some z⟩ → wp p Q st

theorem BlockDet.bind {α β : Type} {p : Prog (α × Span)} {G} {f : α × Span → Prog β} {Q : β → AS → Prop} {st : AS}
    (h : BlockDet p G) {ts v z r} (hl : st.lead = true) (g : G ts v) (e : st.toks = ts ++ z :: r) (hz : z.tok = .rightBrace)
    (k : wp (f (v, z.span)) Q ⟨r, .fresh, some z⟩) : wp (p >>= f) Q st := Pos.bind.mpr (h st _ ts v z r hl g e hz k)

section
variable [FloatFmt] {Q : Field → AS → Prop} {st : AS} {rest : List ATok} {fuel : Nat}

/-- The end of a field: `= number [options];`. -/
theorem fieldEnd_det {β : Type} {Q : β → AS → Prop} {f : Int' → Option OptionList → Span → Prog β} {e ns number us os z} {rest}
    {term : Token} (h4 : IntG ns number) (h5 : OptListG us os) (hz : z.tok ≠ .leftBracket) (hT : st.toks = e :: ns ++ us ++ z :: rest)
    (k : wp (f number os z.span) Q ⟨rest, .fresh, some z⟩) :
    wp (expectEq .equals >>= fun _ => parseInt >>= fun n => parseOptOptions fuel term >>= fun o => expectEq term >>= fun s => f n o s)
      Q st := by
  refine expectD (r := ns ++ (us ++ z :: rest)) (a := e) (by rw [hT]; simp) ?_
  refine parseInt_det.bind h4 rfl trivial fun st1 e1 => ?_
  refine (parseOptOptions_det fuel _).bind h5 e1 (not_tok rfl hz) fun st2 e2 => ?_
  exact expectD e2 k

theorem parseField_det {body : List ATok → MessageBody → Prop} {p : Prog (MessageBody × Span)} (fuel : Nat)
    (hbody : BlockDet p body) : DetL (parseField p fuel) (FieldG body) := by
  intro st Q u v rest hl g e hQ
  unfold parseField
  cases g with
  | @normal ls label ts ty tsp is name eq ns number us os z gl gt gi he gn go hz hk hno =>
    obtain ⟨t, tr, rfl⟩ := List.exists_cons_of_ne_nil (tyG_ne gt)
    obtain ⟨a, ha, ha'⟩ := head_ls (ls := ls) t (tr ++ (is ++ eq :: ns ++ us ++ z :: rest))
    have e0 : st.toks = ls ++ t :: (tr ++ (is ++ eq :: ns ++ us ++ z :: rest)) := by rw [e]; simp
    obtain ⟨r0, hr0⟩ : ∃ r0, ls ++ t :: (tr ++ (is ++ eq :: ns ++ us ++ z :: rest)) = a :: r0 := by
      cases h : ls ++ t :: (tr ++ (is ++ eq :: ns ++ us ++ z :: rest)) with
      | nil => rw [h] at ha; cases ha
      | cons b l => rw [h] at ha; cases ha; exact ⟨l, rfl⟩
    refine leadingD hl (e0.trans hr0) fun st1 e1 => ?_
    rw [← hr0] at e1
    refine label_det gl e1 ha (fun h m hm => noKw_tok (hno h) hm) fun st2 e2 => ?_
    simp only
    refine peekD e2 fun st3 e3 _ => ?_
    simp only
    rw [if_neg (noKw_tok hk (by simp)), if_neg (noKw_tok hk (by simp))]
    unfold parseNormalField
    refine (parseFieldType_det fuel _).bind (v := (ty, tsp)) (rest := is ++ (eq :: ns ++ us ++ z :: rest)) gt (by rw [e3]; simp) ?_
      fun st4 e4 => ?_
    · obtain ⟨b, rfl, w, hb⟩ := identG_head gi
      exact not_tok hb (by simp)
    simp only
    refine parseIdent_det.bind gi e4 trivial fun st5 e5 => ?_
    refine fieldEnd_det gn go (by rw [hz]; simp) e5 ?_
    refine trailing ?_
    rw [comments_of (a := a), extent_eq (a := a) (z := z)] at hQ
    · exact hQ _ rfl rfl
    · have : ls ++ t :: tr ++ is ++ eq :: ns ++ us ++ [z] = (ls ++ [t]) ++ (tr ++ is ++ eq :: ns ++ us ++ [z]) := by simp
      rw [this, List.head?_append, ha']; rfl
    · rw [List.getLast?_append]; rfl
    · have : ls ++ t :: tr = (ls ++ [t]) ++ tr := by simp
      rw [this, List.head?_append, ha']; rfl
  | @map ls label m l ks kty ksp c vs vty vsp r is name eq ns number us os z gl hm hl' gk hc gv hr gi he gn go hz =>
    obtain ⟨a, ha, ha'⟩ := head_ls (ls := ls) m (l :: (ks ++ c :: (vs ++ r :: (is ++ (eq :: ns ++ us ++ z :: rest)))))
    have e0 : st.toks = ls ++ m :: (l :: (ks ++ c :: (vs ++ r :: (is ++ (eq :: ns ++ us ++ z :: rest))))) := by rw [e]; simp
    obtain ⟨r0, hr0⟩ : ∃ r0, ls ++ m :: (l :: (ks ++ c :: (vs ++ r :: (is ++ (eq :: ns ++ us ++ z :: rest))))) = a :: r0 := by
      cases h : ls ++ m :: (l :: (ks ++ c :: (vs ++ r :: (is ++ (eq :: ns ++ us ++ z :: rest))))) with
      | nil => rw [h] at ha; cases ha
      | cons b l => rw [h] at ha; cases ha; exact ⟨l, rfl⟩
    refine leadingD hl (e0.trans hr0) fun st1 e1 => ?_
    rw [← hr0] at e1
    refine label_det gl e1 ha (fun _ n hn => ?_) fun st2 e2 => ?_
    · rw [hm]
      simp only [List.mem_cons, List.not_mem_nil, or_false] at hn
      rcases hn with rfl | rfl | rfl <;> decide
    simp only
    refine peekD e2 fun st3 e3 _ => ?_
    simp only
    rw [if_pos hm]
    unfold parseMap
    refine expectD e3 ?_
    refine expectD rfl ?_
    refine (parseFieldType_det fuel _).bind (v := (kty, ksp)) gk rfl (not_tok hc (by simp)) fun st4 e4 => ?_
    simp only
    refine expectD e4 ?_
    refine (parseFieldType_det fuel _).bind (v := (vty, vsp)) gv rfl (not_tok hr (by simp)) fun st5 e5 => ?_
    simp only
    refine expectD e5 ?_
    refine parseIdent_det.bind gi rfl trivial fun st6 e6 => ?_
    refine fieldEnd_det gn go (by rw [hz]; simp) e6 ?_
    refine trailing ?_
    rw [comments_of (a := a), extent_eq (ts := ls ++ m :: l :: ks ++ c :: vs ++ r :: is ++ eq :: ns ++ us ++ [z]) (a := a) (z := z),
      extent_eq (ts := m :: l :: ks ++ c :: vs ++ [r]) (a := m) (z := r)] at hQ
    · exact hQ _ rfl rfl
    · rfl
    · rw [List.getLast?_append]; rfl
    · have : ls ++ m :: l :: ks ++ c :: vs ++ r :: is ++ eq :: ns ++ us ++ [z] =
        (ls ++ [m]) ++ (l :: ks ++ c :: vs ++ r :: is ++ eq :: ns ++ us ++ [z]) := by simp
      rw [this, List.head?_append, ha']; rfl
    · rw [List.getLast?_append]; rfl
    · exact ha'
  | @group ls label g is name eq ns number us os o bs b z gl hg gi hname he gn go ho gb hz =>
    obtain ⟨a, ha, ha'⟩ := head_ls (ls := ls) g (is ++ (eq :: ns ++ us ++ o :: (bs ++ z :: rest)))
    have e0 : st.toks = ls ++ g :: (is ++ (eq :: ns ++ us ++ o :: (bs ++ z :: rest))) := by rw [e]; simp
    obtain ⟨r0, hr0⟩ : ∃ r0, ls ++ g :: (is ++ (eq :: ns ++ us ++ o :: (bs ++ z :: rest))) = a :: r0 := by
      cases h : ls ++ g :: (is ++ (eq :: ns ++ us ++ o :: (bs ++ z :: rest))) with
      | nil => rw [h] at ha; cases ha
      | cons b l => rw [h] at ha; cases ha; exact ⟨l, rfl⟩
    refine leadingD hl (e0.trans hr0) fun st1 e1 => ?_
    rw [← hr0] at e1
    refine label_det gl e1 ha (fun _ n hn => ?_) fun st2 e2 => ?_
    · rw [hg]
      simp only [List.mem_cons, List.not_mem_nil, or_false] at hn
      rcases hn with rfl | rfl | rfl <;> decide
    simp only
    refine peekD e2 fun st3 e3 _ => ?_
    simp only
    rw [if_neg (by rw [hg]; decide), if_pos hg]
    unfold parseGroup
    refine expectD e3 ?_
    refine parseIdent_det.bind gi rfl trivial fun st6 e6 => ?_
    rw [if_pos (isValidGroupName_iff.2 hname)]
    refine fieldEnd_det gn go (by rw [ho]; simp) e6 ?_
    refine trailing ?_
    refine hbody.bind rfl gb rfl hz ?_
    rw [comments_of (a := a), extent_eq (a := a) (z := z)] at hQ
    · exact hQ _ rfl rfl
    · have : ls ++ g :: is ++ eq :: ns ++ us ++ o :: bs ++ [z] =
        (ls ++ [g]) ++ (is ++ eq :: ns ++ us ++ o :: bs ++ [z]) := by simp
      rw [this, List.head?_append, ha']; rfl
    · rw [List.getLast?_append]; rfl
    · exact ha'

end
end Verif.Pos
