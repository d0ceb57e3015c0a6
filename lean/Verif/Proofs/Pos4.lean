import Verif.Proofs.Pos3
import Verif.Proofs.Snd4
/-!
Places and comments: field types and fields.
-/
namespace Verif.Pos
open Verif.Parse Verif.Spec Verif.Ast Verif.Places
open Verif.Grammar (balanced aggText scalars)

theorem head_append {T u r : List ATok} {a : ATok} (e : T = u ++ r) (hu : u ≠ []) (h : T.head? = some a) :
    u.head? = some a := by
  cases u with
  | nil => exact absurd rfl hu
  | cons b l => rw [e] at h; exact h

theorem noKw_of {names : List Bytes} {u : List ATok} {a : ATok} (hu : u.head? = some a) (h : ∀ m ∈ names, a.tok ≠ kw m) :
    NoKw names u := by
  intro m hm
  rw [hu]
  simpa using h m hm

theorem tyG_ne {ts t sp} (h : TyG ts t sp) : ts ≠ [] := by
  cases h with
  | scalar _ _ => simp
  | named h _ => exact typeNameG_ne h

theorem parseFieldType_snd (fuel : Nat) (terms : List Expected) :
    Snd (parseFieldType fuel terms) (fun ts v => TyG ts v.1 v.2) := by
  intro st Q k
  unfold parseFieldType
  refine peek rfl fun a r st' e e' _ => ?_
  simp only
  cases hs : scalarTy a.tok with
  | some ty =>
    simp only
    obtain ⟨m, hm, hmem⟩ := scalarTy_some hs
    refine bump e' ?_
    exact k [a] _ ⟨r, .fresh, some a⟩ (by eats) (.scalar hmem hm)
  | none =>
    simp only
    split
    · refine (parseTypeName_snd fuel terms).bind fun u v st2 e2 g => ?_
      rw [typeName_span g]
      refine k u _ st2 (by rw [e, ← e', e2]) (.named g ?_)
      exact noKw_of (head_append e2 (typeNameG_ne g) (by rw [e']; rfl)) (scalarTy_none hs)
    · exact unexp'

theorem intG_ne {ts i} (h : IntG ts i) : ts ≠ [] := by cases h <;> simp

/-- What is known when the label of a field has been read. -/
structure FieldStart (T : List ATok) (lead : List Bytes × Option Bytes) (start : Span)
    (label : Option (FieldLabel × Span)) (ls : List ATok) (st1 : AS) : Prop where
  toks : T = ls ++ st1.toks
  label : LabelG ls label
  head : ∀ a, T.head? = some a → lead = (a.detached, a.leading) ∧ start = a.span
  noLabel : ls = [] → ∀ a, st1.toks.head? = some a → ∀ m ∈ [b!"optional", b!"required", b!"repeated"], a.tok ≠ kw m

variable {β : Type} {Q : Field → AS → Prop} {T ls : List ATok} {st1 : AS} {lead : List Bytes × Option Bytes} {start : Span}
  {label : Option (FieldLabel × Span)}

/-- The span and comments of a field. -/
theorem FieldStart.fin (F : FieldStart T lead start label ls st1) {u ms r : List ATok} {z : ATok} (e : T = u ++ r)
    (hne : ls ++ ms ≠ []) (hu : ∃ r', u = ls ++ ms ++ r' ++ [z]) (w : ATok) :
    joinSpan start z.span = extent u ∧ (⟨lead.1, lead.2, w.trailing⟩ : Comments) = comments (ls ++ ms) w := by
  obtain ⟨r', rfl⟩ := hu
  obtain ⟨a, ha⟩ : ∃ a, (ls ++ ms).head? = some a := by
    cases h : ls ++ ms with
    | nil => exact absurd h hne
    | cons a l => exact ⟨a, rfl⟩
  have hT : T.head? = some a := by
    rw [e, List.head?_append, List.head?_append, List.head?_append, ha]; rfl
  obtain ⟨h1, h2⟩ := F.head a hT
  constructor
  · rw [extent_eq (a := a) (z := z), h2]
    · rw [List.head?_append, List.head?_append, ha]; rfl
    · simp
  · unfold comments
    rw [ha, h1]

theorem parseNormalField_snd [FloatFmt] {body : List ATok → MessageBody → Prop} (fuel : Nat)
    (F : FieldStart T lead start label ls st1)
    (hn : ∀ a, st1.toks.head? = some a → ∀ m ∈ [b!"map", b!"group"], a.tok ≠ kw m)
    (k : ∀ u v st', T = u ++ st'.toks → st'.lead = true → FieldG body u v → Q v st') :
    wp (parseNormalField fuel lead start label) Q st1 := by
  unfold parseNormalField
  refine (parseFieldType_snd fuel _).bind fun u v st2 e2 g2 => ?_
  obtain ⟨ty, tsp⟩ := v
  simp only at g2 ⊢
  refine parseIdent_snd.bind fun u3 name st3 e3 g3 => ?_
  refine expect fun a r e4 ha => ?_
  refine parseInt_snd.bind fun u5 num st5 e5 g5 => ?_
  refine (parseOptOptions_snd fuel _).bind fun u6 os st6 e6 g6 => ?_
  refine expect fun z r' e7 hz => ?_
  refine trailing ?_
  have hne := tyG_ne g2
  obtain ⟨b, hb⟩ : ∃ b, u.head? = some b := by
    cases h : u with
    | nil => exact absurd h hne
    | cons a l => exact ⟨a, rfl⟩
  have hst : st1.toks.head? = some b := by rw [e2, List.head?_append, hb]; rfl
  have hT : T = (ls ++ u ++ u3 ++ a :: u5 ++ u6 ++ [z]) ++ r' := by
    have := F.toks
    simp only at *
    simp [*]
  have f := F.fin (z := z) hT (ms := u) (by simp [hne]) ⟨u3 ++ a :: u5 ++ u6, by simp⟩ z
  refine k (ls ++ u ++ u3 ++ a :: u5 ++ u6 ++ [z]) _ ⟨r', .seen true false, some z⟩ hT rfl ?_
  rw [f.1, f.2]
  exact .normal F.label g2 g3 ha g5 g6 hz (noKw_of hb (hn b hst)) fun h => noKw_of hb (F.noLabel h b hst)

theorem parseMap_snd [FloatFmt] {body : List ATok → MessageBody → Prop} (fuel : Nat)
    (F : FieldStart T lead start label ls st1)
    (k : ∀ u v st', T = u ++ st'.toks → st'.lead = true → FieldG body u v → Q v st') :
    wp (parseMap fuel lead start label) Q st1 := by
  unfold parseMap
  refine expect fun m rm em hm => ?_
  refine expect fun l rl el hl => ?_
  refine (parseFieldType_snd fuel _).bind fun uk v stk ek gk => ?_
  obtain ⟨kty, ksp⟩ := v
  simp only at gk ek el ⊢
  refine expect fun c rc ec hc => ?_
  refine (parseFieldType_snd fuel _).bind fun uv v stv ev gv => ?_
  obtain ⟨vty, vsp⟩ := v
  simp only at gv ev ⊢
  refine expect fun x rx ex hx => ?_
  refine parseIdent_snd.bind fun u3 name st3 e3 g3 => ?_
  refine expect fun a r e4 ha => ?_
  refine parseInt_snd.bind fun u5 num st5 e5 g5 => ?_
  refine (parseOptOptions_snd fuel _).bind fun u6 os st6 e6 g6 => ?_
  refine expect fun z r' e7 hz => ?_
  refine trailing ?_
  have hT : T = (ls ++ m :: l :: uk ++ c :: uv ++ x :: u3 ++ a :: u5 ++ u6 ++ [z]) ++ r' := by
    have := F.toks
    simp only at *
    simp [*]
  have f := F.fin (z := z) hT (ms := [m]) (by simp) ⟨l :: uk ++ c :: uv ++ x :: u3 ++ a :: u5 ++ u6, by simp⟩ z
  refine k (ls ++ m :: l :: uk ++ c :: uv ++ x :: u3 ++ a :: u5 ++ u6 ++ [z]) _ ⟨r', .seen true false, some z⟩ hT rfl ?_
  rw [f.1, f.2]
  have hx' : joinSpan m.span x.span = extent (m :: l :: uk ++ c :: uv ++ [x]) := by
    rw [extent_eq (a := m) (z := x) rfl]
    rw [List.getLast?_append]; rfl
  rw [hx']
  exact .map F.label hm hl gk hc gv hx g3 ha g5 g6 hz

/-- A block that ends with a closing brace. -/
def BlockSnd {α : Type} (p : Prog (α × Span)) (G : List ATok → α → Prop) : Prop :=
  ∀ (st : AS) (Q : α × Span → AS → Prop), st.lead = true →
    (∀ ts v z r, st.toks = ts ++ z :: r → G ts v → z.tok = .rightBrace → Q (v, z.span) ⟨r, .fresh, some z⟩) → wp p Q st

theorem BlockSnd.bind {α β : Type} {p : Prog (α × Span)} {G} {f : α × Span → Prog β} {Q : β → AS → Prop} {st : AS}
    (h : BlockSnd p G) (hl : st.lead = true)
    (k : ∀ ts v z r, st.toks = ts ++ z :: r → G ts v → z.tok = .rightBrace → wp (f (v, z.span)) Q ⟨r, .fresh, some z⟩) :
    wp (p >>= f) Q st := Pos.bind.mpr (h st _ hl k)

theorem parseGroup_snd [FloatFmt] {body : List ATok → MessageBody → Prop} {p : Prog (MessageBody × Span)} (fuel : Nat)
    (hbody : BlockSnd p body) (F : FieldStart T lead start label ls st1)
    (k : ∀ u v st', T = u ++ st'.toks → st'.lead = true → FieldG body u v → Q v st') :
    wp (parseGroup p fuel lead start label) Q st1 := by
  unfold parseGroup
  refine expect fun g rg eg hg => ?_
  refine parseIdent_snd.bind fun u3 name st3 e3 g3 => ?_
  by_cases hv : isValidGroupName name.value = true
  · rw [if_pos hv]
    show wp (expectEq .equals >>= _) _ _
    refine expect fun a r e4 ha => ?_
    refine parseInt_snd.bind fun u5 num st5 e5 g5 => ?_
    refine (parseOptOptions_snd fuel _).bind fun u6 os st6 e6 g6 => ?_
    refine expect fun o ro eo ho => ?_
    refine trailing ?_
    refine hbody.bind rfl fun ts b z r' eb gb hz => ?_
    simp only at eb ⊢
    have hT : T = (ls ++ g :: u3 ++ a :: u5 ++ u6 ++ o :: ts ++ [z]) ++ r' := by
      have := F.toks
      simp only at *
      simp [*]
    have f := F.fin (z := z) hT (ms := [g]) (by simp) ⟨u3 ++ a :: u5 ++ u6 ++ o :: ts, by simp⟩ o
    refine k (ls ++ g :: u3 ++ a :: u5 ++ u6 ++ o :: ts ++ [z]) _ ⟨r', .fresh, some z⟩ hT rfl ?_
    rw [f.1, f.2]
    exact .group F.label hg g3 (isValidGroupName_iff.1 hv) ha g5 g6 ho gb hz
  · rw [if_neg hv]
    trivial

theorem parseField_snd [FloatFmt] {body : List ATok → MessageBody → Prop} {p : Prog (MessageBody × Span)} (fuel : Nat)
    (hbody : BlockSnd p body) : SndL (parseField p fuel) (FieldG body) := by
  intro st Q hl k
  unfold parseField
  refine leading hl fun c hc => ?_
  unfold parseLabel
  rw [bind]
  have tail : ∀ (label : Option (FieldLabel × Span)) (start : Span) (ls : List ATok) (st2 : AS),
      FieldStart st.toks c start label ls st2 →
      wp (Prog.peek >>= fun x => match x with
        | some (tok, _) => if tok = kw b!"map" then parseMap fuel c start label
          else if tok = kw b!"group" then parseGroup p fuel c start label
          else parseNormalField fuel c start label
        | none => parseNormalField fuel c start label) Q st2 := by
    intro label start ls st2 F
    refine peekO (fun ht => ?_) (fun a r st' e e' _ => ?_)
    · refine parseNormalField_snd fuel ⟨by simpa using F.toks, F.label, F.head, fun h a ha => F.noLabel h a (by simpa using ha)⟩ ?_ k
      intro a ha
      simp [ht] at ha
    · have F' : FieldStart st.toks c start label ls st' :=
        ⟨by rw [e', ← e]; exact F.toks, F.label, F.head, fun h a ha => F.noLabel h a (by rw [e, ← e']; exact ha)⟩
      simp only
      split
      · exact parseMap_snd fuel F' k
      · split
        · exact parseGroup_snd fuel hbody F' k
        · rename_i h1 h2
          refine parseNormalField_snd fuel F' ?_ k
          intro b hb m hm
          rw [e'] at hb
          cases hb
          simp only [List.mem_cons, List.not_mem_nil, or_false] at hm
          rcases hm with rfl | rfl
          · exact h1
          · exact h2
  refine peek rfl fun a r st' e e' _ => ?_
  simp only [noLead_toks] at e ⊢
  have head : ∀ b, st.toks.head? = some b → c = (b.detached, b.leading) ∧ a.span = b.span := by
    intro b hb
    refine ⟨hc b hb, ?_⟩
    rw [e] at hb
    cases hb
    rfl
  have lab : ∀ (l : FieldLabel), LabelG [a] (some (l, a.span)) →
      wp (Prog.bump >>= fun _ => pure (some (l, a.span), a.span)) (fun x st' => wp (match x with
        | (label, start) => Prog.peek >>= fun x => match x with
        | some (tok, _) => if tok = kw b!"map" then parseMap fuel c start label
          else if tok = kw b!"group" then parseGroup p fuel c start label
          else parseNormalField fuel c start label
        | none => parseNormalField fuel c start label) Q st') st' := by
    intro l hl
    refine bump e' ?_
    exact tail (some (l, a.span)) a.span [a] _ ⟨by simp [e], hl, head, by simp⟩
  split
  · rename_i h; exact lab .optional (.optional h)
  · split
    · rename_i h; exact lab .required (.required h)
    · split
      · rename_i h; exact lab .repeated (.repeated h)
      · rename_i h1 h2 h3
        split
        · refine tail none a.span [] _ ⟨by simp [e, e'], .none, head, ?_⟩
          intro _ b hb m hm
          rw [e'] at hb
          cases hb
          simp only [List.mem_cons, List.not_mem_nil, or_false] at hm
          rcases hm with rfl | rfl | rfl
          · exact h1
          · exact h2
          · exact h3
        · exact unexp'

end Verif.Pos
