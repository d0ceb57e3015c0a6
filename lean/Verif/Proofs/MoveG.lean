import Verif.Proofs.Move
/-!
The grammar with places is kept when the places move.
-/
namespace Verif.Pos
open Verif.Spec Verif.Ast
open Verif.Grammar (kw)
open Places

/-- The token at its new place. -/
def mvA (g : Nat → Nat) (a : ATok) : ATok := { a with span := mv g a.span }
abbrev mk (g : Nat → Nat) (ts : List ATok) : List ATok := ts.map (mvA g)

section
variable {g : Nat → Nat} (h0 : g 0 = 0)

theorem extent_mv (hg : g 0 = 0) (ts : List ATok) : extent (mk g ts) = mv g (extent ts) := by
  unfold extent
  rw [List.head?_map, List.getLast?_map]
  cases ts.head? with
  | none =>
    show (⟨0, 0⟩ : Span) = ⟨g 0, g 0⟩
    rw [hg]
  | some a =>
    cases ts.getLast? with
    | none =>
      show (⟨0, 0⟩ : Span) = ⟨g 0, g 0⟩
      rw [hg]
    | some z => rfl

theorem comments_mv (ts : List ATok) (z : ATok) : comments (mk g ts) (mvA g z) = comments ts z := by
  unfold comments
  rw [List.head?_map]
  cases ts.head? <;> rfl

theorem SepBy.mv {α : Type} [Move α] {sep : Token} {G : List ATok → α → Prop}
    (h : ∀ ts a, G ts a → G (mk g ts) (mv g a)) {ts as} (hs : Places.SepBy sep G ts as) : Places.SepBy sep G (mk g ts) (mv g as) := by
  induction hs with
  | one h1 => exact .one (h _ _ h1)
  | cons h1 hc _ ih =>
    rw [mk, List.map_append, List.map_cons]
    exact .cons (h _ _ h1) hc ih

theorem Many.mv {σ : Type} [Move σ] {G : List ATok → σ → σ → Prop}
    (h : ∀ ts a b, G ts a b → G (mk g ts) (mv g a) (mv g b)) {ts a b} (hs : Places.Many G ts a b) :
    Places.Many G (mk g ts) (mv g a) (mv g b) := by
  induction hs with
  | nil => exact .nil
  | cons h1 _ ih =>
    rw [mk, List.map_append]
    exact .cons (h _ _ _ h1) ih

theorem NoKw.mv {ms ts} (h : Places.NoKw ms ts) : Places.NoKw ms (mk g ts) := by
  intro n hn
  have := h n hn
  rw [mk, List.head?_map]
  cases hd : ts.head? with
  | none => simp
  | some a => rw [hd] at this; exact this

theorem IdentG.mv {ts i} (h : Places.IdentG ts i) : Places.IdentG (mk g ts) (mv g i) := by
  obtain ⟨a, rfl, h1, h2⟩ := h
  exact ⟨mvA g a, rfl, h1, by show Move.mv g i.span = Move.mv g a.span; rw [h2]⟩

include h0

theorem IntG.mv {ts i} (h : Places.IntG ts i) : Places.IntG (mk g ts) (mv g i) := by
  cases h with
  | @pos a v h =>
    have : Move.mv g (Int'.mk false v (extent [a])) = ⟨false, v, extent [mvA g a]⟩ := by
      show Int'.mk false v (Move.mv g (extent [a])) = _
      rw [← extent_mv h0]; rfl
    rw [this]; exact .pos h
  | @neg m a v h1 h2 =>
    have : Move.mv g (Int'.mk true v (extent [m, a])) = ⟨true, v, extent [mvA g m, mvA g a]⟩ := by
      show Int'.mk true v (Move.mv g (extent [m, a])) = _
      rw [← extent_mv h0]; rfl
    rw [this]; exact .neg h1 h2

theorem StrG.mv {ts s} (h : Places.StrG ts s) : Places.StrG (mk g ts) (mv g s) := by
  obtain ⟨ps, h1, h2, h3, h4⟩ := h
  refine ⟨ps, h1, ?_, h3, ?_⟩
  · rw [← h2, mk, List.map_map]; rfl
  · show Move.mv g s.span = _
    rw [h4, extent_mv h0]

theorem Utf8G.mv {ts v sp} (h : Places.Utf8G ts v sp) : Places.Utf8G (mk g ts) v (mv g sp) := ⟨StrG.mv h0 h.1, h.2⟩

omit h0 in
theorem FullIdentG.mv {ts f} (h : Places.FullIdentG ts f) : Places.FullIdentG (mk g ts) (mv g f) := SepBy.mv (fun _ _ => IdentG.mv) h

omit h0 in
theorem TypeNameG.mv {ts t} (h : Places.TypeNameG ts t) : Places.TypeNameG (mk g ts) (mv g t) := by
  cases h with
  | relative h => exact .relative (FullIdentG.mv h)
  | @absolute d _ _ h1 h2 => exact .absolute (d := mvA g d) h1 (FullIdentG.mv h2)

theorem NamePartG.mv {ts t} (h : Places.NamePartG ts t) : Places.NamePartG (mk g ts) (mv g t) := by
  cases h with
  | ident h => exact .ident (IdentG.mv h)
  | @ext l ts r t h1 h2 h3 =>
    have := NamePartG.ext (l := mvA g l) (r := mvA g r) h1 (TypeNameG.mv (g := g) h2) h3
    rw [show mvA g l :: mk g ts ++ [mvA g r] = mk g (l :: ts ++ [r]) by simp [mk], extent_mv h0] at this
    exact this

variable [FloatFmt]

theorem ValueG.mv {ts v} (h : Places.ValueG ts v) : Places.ValueG (mk g ts) (mv g v) := by
  cases h with
  | @ident ts i h =>
    show Places.ValueG _ (.ident false (Move.mv g i) (Move.mv g (extent ts)))
    rw [← extent_mv h0]; exact .ident (IdentG.mv h)
  | @negIdent m ts i h1 h2 =>
    show Places.ValueG _ (.ident true (Move.mv g i) (Move.mv g (extent (m :: ts))))
    rw [← extent_mv h0]; exact .negIdent h1 (IdentG.mv (g := g) h2)
  | int h => exact .int (IntG.mv h0 h)
  | @float a t h =>
    show Places.ValueG _ (.float ⟨.lit false t, Move.mv g (extent [a])⟩)
    rw [← extent_mv h0]; exact .float h
  | @negFloat m a t h1 h2 =>
    show Places.ValueG _ (.float ⟨.lit true t, Move.mv g (extent [m, a])⟩)
    rw [← extent_mv h0]; exact .negFloat h1 h2
  | string h => exact .string (StrG.mv h0 h)
  | @aggregate l ts r h1 h2 h3 =>
    have he : (mk g ts).map (·.tok) = ts.map (·.tok) := by rw [mk, List.map_map]; rfl
    show Places.ValueG _ (.aggregate (Grammar.aggText (ts.map (·.tok))) (Move.mv g (extent (l :: ts ++ [r]))))
    rw [← extent_mv h0, ← he]
    simp only [mk, List.cons_append, List.map_cons, List.map_append, List.map_nil]
    exact .aggregate h1 (by rw [← he] at h2; exact h2) h3

theorem OptionBodyG.mv {ts v} (h : Places.OptionBodyG ts v) : Places.OptionBodyG (mk g ts) (mv g v) := by
  cases h with
  | mk h1 h2 h3 =>
    simp only [mk, List.cons_append, List.map_cons, List.map_append, List.map_nil]
    exact .mk (SepBy.mv (fun _ _ => NamePartG.mv h0) h1) h2 (ValueG.mv h0 h3)

theorem OptionG.mv {ts v} (h : Places.OptionG ts v) : Places.OptionG (mk g ts) (mv g v) := by
  cases h with
  | @mk k ts z body h1 h2 h3 =>
    show Places.OptionG _ ⟨Move.mv g body, comments (k :: ts) z, Move.mv g (extent (k :: ts ++ [z]))⟩
    rw [← extent_mv h0, ← comments_mv (g := g)]
    simp only [mk, List.cons_append, List.map_cons, List.map_append, List.map_nil]
    exact .mk h1 (OptionBodyG.mv h0 h2) h3

theorem OptListG.mv {ts v} (h : Places.OptListG ts v) : Places.OptListG (mk g ts) (mv g v) := by
  cases h with
  | none => exact .none
  | @some l ts r os h1 h2 h3 =>
    show Places.OptListG _ (some ⟨Move.mv g os, Move.mv g (extent (l :: ts ++ [r]))⟩)
    rw [← extent_mv h0]
    simp only [mk, List.cons_append, List.map_cons, List.map_append, List.map_nil]
    exact .some h1 (SepBy.mv (fun _ _ => OptionBodyG.mv h0) h2) h3

omit [FloatFmt] in
theorem RangeG.mv {ts v} (h : Places.RangeG ts v) : Places.RangeG (mk g ts) (mv g v) := by
  cases h with
  | single h => exact .single (IntG.mv h0 h)
  | to h1 h2 h3 =>
    simp only [mk, List.cons_append, List.map_cons, List.map_append, List.map_nil]
    exact .to (IntG.mv h0 h1) h2 (IntG.mv h0 h3)
  | @max _ _ k m h1 h2 h3 =>
    simp only [mk, List.cons_append, List.map_cons, List.map_append, List.map_nil]
    exact .max (k := mvA g k) (m := mvA g m) (IntG.mv h0 h1) h2 h3

omit [FloatFmt] in
theorem ReservedG.mv {ts v} (h : Places.ReservedG ts v) : Places.ReservedG (mk g ts) (mv g v) := by
  cases h with
  | @ranges k ts z rs h1 h2 h3 =>
    show Places.ReservedG _ ⟨.ranges (Move.mv g rs), comments (k :: ts) z, Move.mv g (extent (k :: ts ++ [z]))⟩
    rw [← extent_mv h0, ← comments_mv (g := g)]
    simp only [mk, List.cons_append, List.map_cons, List.map_append, List.map_nil]
    exact .ranges h1 (SepBy.mv (fun _ _ => RangeG.mv h0) h2) h3
  | @names k ts z rs h1 h2 h3 =>
    show Places.ReservedG _ ⟨.names (Move.mv g rs), comments (k :: ts) z, Move.mv g (extent (k :: ts ++ [z]))⟩
    rw [← extent_mv h0, ← comments_mv (g := g)]
    simp only [mk, List.cons_append, List.map_cons, List.map_append, List.map_nil]
    exact .names h1 (SepBy.mv (fun _ _ h => ⟨Utf8G.mv h0 h.1, h.2⟩) h2) h3

theorem ExtensionsG.mv {ts v} (h : Places.ExtensionsG ts v) : Places.ExtensionsG (mk g ts) (mv g v) := by
  cases h with
  | @mk k ts rs us os z h1 h2 h3 h4 h5 =>
    show Places.ExtensionsG _ ⟨Move.mv g rs, Move.mv g os, comments (k :: ts) z, Move.mv g (extent (k :: ts ++ us ++ [z]))⟩
    rw [← extent_mv h0, ← comments_mv (g := g)]
    simp only [mk, List.cons_append, List.map_cons, List.map_append, List.map_nil]
    refine .mk (k := mvA g k) (z := mvA g z) h1 (SepBy.mv (fun _ _ => RangeG.mv h0) h2) (OptListG.mv h0 h3) ?_ h5
    intro ho r hr
    have ho' : os.isSome = true := by
      have : (Move.mv g os).isSome = os.isSome := by
        show (Option.map _ os).isSome = _
        simp
      rw [← this]; exact ho
    have hr' : (rs.map (Move.mv g)).getLast? = some r := hr
    rw [List.getLast?_map] at hr'
    cases hl : rs.getLast? with
    | none => rw [hl] at hr'; cases hr'
    | some r0 =>
      rw [hl] at hr'
      cases hr'
      have := h4 ho' r0 hl
      obtain ⟨a, b⟩ := r0
      cases b with
      | none => exact absurd rfl this
      | int i => exact fun h => by cases h
      | max i => exact fun h => by cases h

omit [FloatFmt] in
theorem TyG.mv {ts t sp} (h : Places.TyG ts t sp) : Places.TyG (mk g ts) (mv g t) (mv g sp) := by
  cases h with
  | @scalar a n ty h1 h2 =>
    rw [← extent_mv h0]
    have : Move.mv g t = t := by
      cases t with
      | named n' => simp [Grammar.scalars] at h1
      | _ => rfl
    rw [this]
    exact .scalar h1 h2
  | named h1 h2 =>
    rw [← extent_mv h0]
    exact .named (TypeNameG.mv (g := g) h1) (NoKw.mv h2)

omit [FloatFmt] h0 in
theorem LabelG.mv {ts v} (h : Places.LabelG ts v) : Places.LabelG (mk g ts) (mv g v) := by
  cases h with
  | none => exact .none
  | @optional a h => exact .optional (a := mvA g a) h
  | @required a h => exact .required (a := mvA g a) h
  | @repeated a h => exact .repeated (a := mvA g a) h

variable {B : List ATok → MessageBody → Prop} (hB : ∀ ts b, B ts b → B (mk g ts) (mv g b))
include hB

theorem FieldG.mv {ts v} (h : Places.FieldG B ts v) : Places.FieldG B (mk g ts) (mv g v) := by
  cases h with
  | @normal ls label ts ty tsp is name e ns number us os z h1 h2 h3 h4 h5 h6 h7 h8 h9 =>
    show Places.FieldG B _ ⟨Move.mv g label, Move.mv g name, .normal (Move.mv g ty) (Move.mv g tsp), Move.mv g number, Move.mv g os,
      comments (ls ++ ts) z, Move.mv g (extent (ls ++ ts ++ is ++ e :: ns ++ us ++ [z]))⟩
    rw [← extent_mv h0, ← comments_mv (g := g)]
    simp only [mk, List.cons_append, List.map_cons, List.map_append, List.map_nil]
    have := FieldG.normal (body := B) (e := mvA g e) (z := mvA g z) (LabelG.mv (g := g) h1) (TyG.mv h0 h2) (IdentG.mv (g := g) h3) h4 (IntG.mv h0 h5) (OptListG.mv h0 h6) h7
      (NoKw.mv h8) fun h => NoKw.mv (h9 (List.map_eq_nil_iff.1 h))
    simpa only [mk, List.cons_append] using this
  | @map ls label m l ks kty ksp c vs vty vsp r is name e ns number us os z h1 h2 h3 h4 h5 h6 h7 h8 h9 h10 h11 h12 =>
    show Places.FieldG B _ ⟨Move.mv g label, Move.mv g name, .map (Move.mv g (extent (m :: l :: ks ++ c :: vs ++ [r]))) (Move.mv g kty) (Move.mv g ksp)
      (Move.mv g vty) (Move.mv g vsp), Move.mv g number, Move.mv g os, comments (ls ++ [m]) z,
      Move.mv g (extent (ls ++ m :: l :: ks ++ c :: vs ++ r :: is ++ e :: ns ++ us ++ [z]))⟩
    rw [← extent_mv h0, ← extent_mv h0, ← comments_mv (g := g)]
    simp only [mk, List.cons_append, List.map_cons, List.map_append, List.map_nil]
    have := FieldG.map (body := B) (m := mvA g m) (l := mvA g l) (c := mvA g c) (r := mvA g r) (e := mvA g e) (z := mvA g z) (LabelG.mv (g := g) h1)
      h2 h3 (TyG.mv h0 h4) h5 (TyG.mv h0 h6) h7 (IdentG.mv (g := g) h8) h9 (IntG.mv h0 h10) (OptListG.mv h0 h11) h12
    simpa only [mk, List.cons_append] using this
  | @group ls label g' is name e ns number us os o bs b z h1 h2 h3 h4 h5 h6 h7 h8 h9 h10 =>
    show Places.FieldG B _ ⟨Move.mv g label, Move.mv g name, .group (Move.mv g g'.span) (Move.mv g b), Move.mv g number, Move.mv g os,
      comments (ls ++ [g']) o, Move.mv g (extent (ls ++ g' :: is ++ e :: ns ++ us ++ o :: bs ++ [z]))⟩
    rw [← extent_mv h0, ← comments_mv (g := g)]
    simp only [mk, List.cons_append, List.map_cons, List.map_append, List.map_nil]
    have := FieldG.group (body := B) (g := mvA g g') (e := mvA g e) (o := mvA g o) (z := mvA g z) (LabelG.mv (g := g) h1)
      h2 (IdentG.mv (g := g) h3) h4 h5 (IntG.mv h0 h6) (OptListG.mv h0 h7) h8 (hB _ _ h9) h10
    simp only [mk, List.cons_append] at this ⊢
    exact this

omit hB in
theorem EnumValueG.mv {ts v} (h : Places.EnumValueG ts v) : Places.EnumValueG (mk g ts) (mv g v) := by
  cases h with
  | @mk is name e ns number us os z h1 h2 h3 h4 h5 =>
    show Places.EnumValueG _ ⟨Move.mv g name, Move.mv g number, Move.mv g os, comments is z, Move.mv g (extent (is ++ e :: ns ++ us ++ [z]))⟩
    rw [← extent_mv h0, ← comments_mv (g := g)]
    simp only [mk, List.cons_append, List.map_cons, List.map_append, List.map_nil]
    have := EnumValueG.mk (e := mvA g e) (z := mvA g z) (IdentG.mv (g := g) h1) h2 (IntG.mv h0 h3) (OptListG.mv h0 h4) h5
    simpa only [mk, List.cons_append] using this

omit h0 hB [FloatFmt] in
theorem mv_snoc {α : Type} [Move α] (l : List α) (x : α) : mv g (l ++ [x]) = mv g l ++ [mv g x] := by
  show List.map _ _ = List.map _ _ ++ _
  simp

omit hB in
theorem EnumElem.mv {ts a b} (h : Places.EnumElem ts a b) : Places.EnumElem (mk g ts) (mv g a) (mv g b) := by
  cases h with
  | @option ts o os vs rs h =>
    show Places.EnumElem _ (Move.mv g os, Move.mv g vs, Move.mv g rs) (Move.mv g (os ++ [o]), Move.mv g vs, Move.mv g rs)
    rw [mv_snoc]; exact .option (OptionG.mv h0 h)
  | @reserved ts o os vs rs h =>
    show Places.EnumElem _ (Move.mv g os, Move.mv g vs, Move.mv g rs) (Move.mv g os, Move.mv g vs, Move.mv g (rs ++ [o]))
    rw [mv_snoc]; exact .reserved (ReservedG.mv h0 h)
  | @value ts o os vs rs h h' =>
    show Places.EnumElem _ (Move.mv g os, Move.mv g vs, Move.mv g rs) (Move.mv g os, Move.mv g (vs ++ [o]), Move.mv g rs)
    rw [mv_snoc]; exact .value (EnumValueG.mv h0 h) (NoKw.mv h')
  | empty h => exact .empty h

omit hB in
theorem EnumG.mv {ts v} (h : Places.EnumG ts v) : Places.EnumG (mk g ts) (mv g v) := by
  cases h with
  | @mk k is name o ts os vs rs z h1 h2 h3 h4 h5 =>
    show Places.EnumG _ ⟨Move.mv g name, Move.mv g os, Move.mv g vs, Move.mv g rs, comments (k :: is) o, Move.mv g (extent (k :: is ++ o :: ts ++ [z]))⟩
    rw [← extent_mv h0, ← comments_mv (g := g)]
    simp only [mk, List.cons_append, List.map_cons, List.map_append, List.map_nil]
    have := EnumG.mk (k := mvA g k) (o := mvA g o) (z := mvA g z) h1 (IdentG.mv (g := g) h2) h3 (Many.mv (fun _ _ _ => EnumElem.mv h0) h4) h5
    simpa only [mk, List.cons_append] using this

omit h0 hB [FloatFmt] in
theorem mvFields_eq : ∀ l : List Field, mvFields g l = mv g l
  | [] => rfl
  | x :: xs => by rw [mvFields, mvFields_eq xs]; rfl

theorem OneofElem.mv {ts a b} (h : Places.OneofElem B ts a b) : Places.OneofElem B (mk g ts) (mv g a) (mv g b) := by
  cases h with
  | @option ts o os fs h =>
    show Places.OneofElem B _ (Move.mv g os, Move.mv g fs) (Move.mv g (os ++ [o]), Move.mv g fs)
    rw [mv_snoc]; exact .option (OptionG.mv h0 h)
  | @field ts f os fs h h' =>
    show Places.OneofElem B _ (Move.mv g os, Move.mv g fs) (Move.mv g os, Move.mv g (fs ++ [f]))
    rw [mv_snoc]; exact .field (FieldG.mv h0 hB h) (NoKw.mv h')
  | empty h => exact .empty h

theorem OneofG.mv {ts v} (h : Places.OneofG B ts v) : Places.OneofG B (mk g ts) (mv g v) := by
  cases h with
  | @mk k is name o ts os fs z h1 h2 h3 h4 h5 =>
    show Places.OneofG B _ (mvOneof g _)
    rw [mvOneof, mvFields_eq]
    show Places.OneofG B _ ⟨Move.mv g name, Move.mv g os, Move.mv g fs, comments (k :: is) o, Move.mv g (extent (k :: is ++ o :: ts ++ [z]))⟩
    rw [← extent_mv h0, ← comments_mv (g := g)]
    simp only [mk, List.cons_append, List.map_cons, List.map_append, List.map_nil]
    have := OneofG.mk (body := B) (k := mvA g k) (o := mvA g o) (z := mvA g z) h1 (IdentG.mv (g := g) h2) h3 (Many.mv (fun _ _ _ => OneofElem.mv h0 hB) h4) h5
    simpa only [mk, List.cons_append] using this

theorem ExtendElem.mv {ts a b} (h : Places.ExtendElem B ts a b) : Places.ExtendElem B (mk g ts) (mv g a) (mv g b) := by
  cases h with
  | field h => rw [mv_snoc]; exact .field (FieldG.mv h0 hB h)
  | empty h => exact .empty h

theorem ExtendG.mv {ts v} (h : Places.ExtendG B ts v) : Places.ExtendG B (mk g ts) (mv g v) := by
  cases h with
  | @mk k ns t o ts fs z h1 h2 h3 h4 h5 =>
    show Places.ExtendG B _ (mvExtend g _)
    rw [mvExtend, mvFields_eq]
    show Places.ExtendG B _ ⟨Move.mv g t, Move.mv g fs, comments (k :: ns) o, Move.mv g (extent (k :: ns ++ o :: ts ++ [z]))⟩
    rw [← extent_mv h0, ← comments_mv (g := g)]
    simp only [mk, List.cons_append, List.map_cons, List.map_append, List.map_nil]
    have := ExtendG.mk (body := B) (k := mvA g k) (o := mvA g o) (z := mvA g z) h1 (TypeNameG.mv (g := g) h2) h3 (Many.mv (fun _ _ _ => ExtendElem.mv h0 hB) h4) h5
    simpa only [mk, List.cons_append] using this

omit [FloatFmt] in
theorem MessageG.mv {ts v} (h : Places.MessageG B ts v) : Places.MessageG B (mk g ts) (mv g v) := by
  cases h with
  | @mk k is name o ts b z h1 h2 h3 h4 h5 =>
    show Places.MessageG B _ ⟨Move.mv g name, Move.mv g b, comments (k :: is) o, Move.mv g (extent (k :: is ++ o :: ts ++ [z]))⟩
    rw [← extent_mv h0, ← comments_mv (g := g)]
    simp only [mk, List.cons_append, List.map_cons, List.map_append, List.map_nil]
    have := MessageG.mk (body := B) (k := mvA g k) (o := mvA g o) (z := mvA g z) h1 (IdentG.mv (g := g) h2) h3 (hB _ _ h4) h5
    simpa only [mk, List.cons_append] using this

omit h0 hB [FloatFmt] in
theorem mvItems_eq : ∀ l : List MessageItem, mvItems g l = mv g l
  | [] => rfl
  | x :: xs => by rw [mvItems, mvItems_eq xs]; rfl

omit h0 hB [FloatFmt] in
theorem body_mv (b : MessageBody) : mv g b = ⟨mv g b.items, mv g b.extensions, mv g b.options, mv g b.reserved⟩ := by
  obtain ⟨i, e, o, r⟩ := b
  show mvBody g _ = _
  rw [mvBody, mvItems_eq]

theorem BodyElem.mv {ts a b} (h : Places.BodyElem B ts a b) : Places.BodyElem B (mk g ts) (mv g a) (mv g b) := by
  cases h with
  | field h h' => rw [body_mv, body_mv]; simp only [mv_snoc]; exact .field (FieldG.mv h0 hB h) (NoKw.mv h')
  | oneof h => rw [body_mv, body_mv]; simp only [mv_snoc]; exact .oneof (OneofG.mv h0 hB h)
  | enum h => rw [body_mv, body_mv]; simp only [mv_snoc]; exact .enum (EnumG.mv h0 h)
  | message h => rw [body_mv, body_mv]; simp only [mv_snoc]; exact .message (MessageG.mv h0 hB h)
  | extend h => rw [body_mv, body_mv]; simp only [mv_snoc]; exact .extend (ExtendG.mv h0 hB h)
  | option h => rw [body_mv, body_mv]; simp only [mv_snoc]; exact .option (OptionG.mv h0 h)
  | reserved h => rw [body_mv, body_mv]; simp only [mv_snoc]; exact .reserved (ReservedG.mv h0 h)
  | extensions h => rw [body_mv, body_mv]; simp only [mv_snoc]; exact .extensions (ExtensionsG.mv h0 h)
  | empty h => exact .empty h

omit hB in
theorem BodyG.mv : ∀ d ts b, Places.BodyG d ts b → Places.BodyG d (mk g ts) (mv g b)
  | 0, _, _, h => h.elim
  | d + 1, _, _, h => by
    have := Many.mv (fun _ _ _ => BodyElem.mv h0 (BodyG.mv d)) h
    rw [body_mv ⟨[], [], [], []⟩] at this
    exact this

omit hB in
theorem AnyBodyG.mv : ∀ ts b, Places.AnyBodyG ts b → Places.AnyBodyG (mk g ts) (mv g b) :=
  fun _ _ ⟨d, h⟩ => ⟨d, BodyG.mv h0 d _ _ h⟩

omit h0 hB [FloatFmt] in
theorem StreamG.mv {ts t s} (h : Places.StreamG ts t s) : Places.StreamG (mk g ts) (mv g t) (mv g s) := by
  cases h with
  | no h h' => exact .no (TypeNameG.mv h) (NoKw.mv h')
  | @yes k _ _ h1 h2 => exact .yes (k := mvA g k) h1 (TypeNameG.mv (g := g) h2)

omit hB in
theorem MethodElem.mv {ts a b} (h : Places.MethodElem ts a b) : Places.MethodElem (mk g ts) (mv g a) (mv g b) := by
  cases h with
  | option h => rw [mv_snoc]; exact .option (OptionG.mv h0 h)
  | empty h => exact .empty h

omit hB in
theorem MethodEndG.mv {ts os z} (h : Places.MethodEndG ts os z) : Places.MethodEndG (mk g ts) (mv g os) (mvA g z) := by
  cases h with
  | semi h => exact .semi h
  | body h1 h2 h3 =>
    simp only [mk, List.cons_append, List.map_cons, List.map_append, List.map_nil]
    exact .body h1 (Many.mv (fun _ _ _ => MethodElem.mv h0) h2) h3

omit hB in
theorem MethodG.mv {ts v} (h : Places.MethodG ts v) : Places.MethodG (mk g ts) (mv g v) := by
  cases h with
  | @mk k is name l ins i cs r k' l' outs o ss r' es os z h1 h2 h3 h4 h5 h6 h7 h8 h9 h10 =>
    show Places.MethodG _ ⟨Move.mv g name, Move.mv g i, Move.mv g o, Move.mv g os, Move.mv g cs, Move.mv g ss, comments (k :: is) z,
      Move.mv g (extent (k :: is ++ l :: ins ++ [r, k', l'] ++ outs ++ r' :: es))⟩
    rw [← extent_mv h0, ← comments_mv (g := g)]
    simp only [mk, List.cons_append, List.map_cons, List.map_append, List.map_nil]
    have := MethodG.mk (k := mvA g k) (l := mvA g l) (r := mvA g r) (k' := mvA g k') (l' := mvA g l') (r' := mvA g r')
      h1 (IdentG.mv (g := g) h2) h3 (StreamG.mv (g := g) h4) h5 h6 h7 (StreamG.mv (g := g) h8) h9 (MethodEndG.mv h0 h10)
    simpa only [mk, List.cons_append] using this

omit hB in
theorem ServiceElem.mv {ts a b} (h : Places.ServiceElem ts a b) : Places.ServiceElem (mk g ts) (mv g a) (mv g b) := by
  cases h with
  | @option ts o os ms h =>
    show Places.ServiceElem _ (Move.mv g os, Move.mv g ms) (Move.mv g (os ++ [o]), Move.mv g ms)
    rw [mv_snoc]; exact .option (OptionG.mv h0 h)
  | @method ts x os ms h =>
    show Places.ServiceElem _ (Move.mv g os, Move.mv g ms) (Move.mv g os, Move.mv g (ms ++ [x]))
    rw [mv_snoc]; exact .method (MethodG.mv h0 h)
  | empty h => exact .empty h

omit hB in
theorem ServiceG.mv {ts v} (h : Places.ServiceG ts v) : Places.ServiceG (mk g ts) (mv g v) := by
  cases h with
  | @mk k is name o ts os ms z h1 h2 h3 h4 h5 =>
    show Places.ServiceG _ ⟨Move.mv g name, Move.mv g os, Move.mv g ms, comments (k :: is) o, Move.mv g (extent (k :: is ++ o :: ts ++ [z]))⟩
    rw [← extent_mv h0, ← comments_mv (g := g)]
    simp only [mk, List.cons_append, List.map_cons, List.map_append, List.map_nil]
    have := ServiceG.mk (k := mvA g k) (o := mvA g o) (z := mvA g z) h1 (IdentG.mv (g := g) h2) h3 (Many.mv (fun _ _ _ => ServiceElem.mv h0) h4) h5
    simpa only [mk, List.cons_append] using this

omit hB [FloatFmt] in
theorem PackageG.mv {ts v} (h : Places.PackageG ts v) : Places.PackageG (mk g ts) (mv g v) := by
  cases h with
  | @mk k ts f z h1 h2 h3 =>
    show Places.PackageG _ ⟨Move.mv g f, comments (k :: ts) z, Move.mv g (extent (k :: ts ++ [z]))⟩
    rw [← extent_mv h0, ← comments_mv (g := g)]
    simp only [mk, List.cons_append, List.map_cons, List.map_append, List.map_nil]
    exact .mk h1 (FullIdentG.mv h2) h3

omit h0 hB [FloatFmt] in
theorem ImportKindG.mv {ts v} (h : Places.ImportKindG ts v) : Places.ImportKindG (mk g ts) (mv g v) := by
  cases h with
  | none => exact .none
  | @weak a h => exact .weak (a := mvA g a) h
  | @publ a h => exact .publ (a := mvA g a) h

omit hB [FloatFmt] in
theorem ImportG.mv {ts v} (h : Places.ImportG ts v) : Places.ImportG (mk g ts) (mv g v) := by
  cases h with
  | @mk k ks kind ts v vsp z h1 h2 h3 h4 h5 =>
    show Places.ImportG _ ⟨Move.mv g kind, v, Move.mv g vsp, comments (k :: ks) z, Move.mv g (extent (k :: ks ++ ts ++ [z]))⟩
    rw [← extent_mv h0, ← comments_mv (g := g)]
    simp only [mk, List.cons_append, List.map_cons, List.map_append, List.map_nil]
    have := ImportG.mk (k := mvA g k) (z := mvA g z) h1 (ImportKindG.mv (g := g) h2) (Utf8G.mv h0 h3) h4 h5
    simpa only [mk, List.cons_append] using this

omit hB [FloatFmt] in
theorem SyntaxG.mv {ts s x} (h : Places.SyntaxG ts s x) : Places.SyntaxG (mk g ts) s (mv g x) := by
  cases h with
  | @proto2 k e ts z sp h1 h2 h3 h4 =>
    show Places.SyntaxG _ _ (Move.mv g (extent (k :: e :: ts ++ [z])), comments [k] z)
    rw [← extent_mv h0, ← comments_mv (g := g)]
    simp only [mk, List.cons_append, List.map_cons, List.map_append, List.map_nil]
    exact .proto2 (k := mvA g k) (e := mvA g e) (z := mvA g z) h1 h2 (StrG.mv h0 h3) h4
  | @proto3 k e ts z sp h1 h2 h3 h4 =>
    show Places.SyntaxG _ _ (Move.mv g (extent (k :: e :: ts ++ [z])), comments [k] z)
    rw [← extent_mv h0, ← comments_mv (g := g)]
    simp only [mk, List.cons_append, List.map_cons, List.map_append, List.map_nil]
    exact .proto3 (k := mvA g k) (e := mvA g e) (z := mvA g z) h1 h2 (StrG.mv h0 h3) h4

instance : Move Grammar.Parts := ⟨fun g p => { p with package := mv g p.package, imports := mv g p.imports, options := mv g p.options, items := mv g p.items }⟩

omit hB in
theorem StatementG.mv {ts a b} (h : Places.StatementG ts a b) : Places.StatementG (mk g ts) (mv g a) (mv g b) := by
  cases h with
  | @package ts x p h h' =>
    exact .package (p := Move.mv g a) (PackageG.mv h0 h) (by show Move.mv g a.package = none; rw [h']; rfl)
  | import' h =>
    show Places.StatementG _ (Move.mv g a) ⟨Move.mv g a.package, Move.mv g (a.imports ++ [_]), Move.mv g a.options, Move.mv g a.items⟩
    rw [mv_snoc]
    exact .import' (p := Move.mv g a) (ImportG.mv h0 h)
  | option h =>
    show Places.StatementG _ (Move.mv g a) ⟨Move.mv g a.package, Move.mv g a.imports, Move.mv g (a.options ++ [_]), Move.mv g a.items⟩
    rw [mv_snoc]
    exact .option (p := Move.mv g a) (OptionG.mv h0 h)
  | message h =>
    show Places.StatementG _ (Move.mv g a) ⟨Move.mv g a.package, Move.mv g a.imports, Move.mv g a.options, Move.mv g (a.items ++ [_])⟩
    rw [mv_snoc]
    exact .message (p := Move.mv g a) (MessageG.mv h0 (AnyBodyG.mv h0) h)
  | enum h =>
    show Places.StatementG _ (Move.mv g a) ⟨Move.mv g a.package, Move.mv g a.imports, Move.mv g a.options, Move.mv g (a.items ++ [_])⟩
    rw [mv_snoc]
    exact .enum (p := Move.mv g a) (EnumG.mv h0 h)
  | extend h =>
    show Places.StatementG _ (Move.mv g a) ⟨Move.mv g a.package, Move.mv g a.imports, Move.mv g a.options, Move.mv g (a.items ++ [_])⟩
    rw [mv_snoc]
    exact .extend (p := Move.mv g a) (ExtendG.mv h0 (AnyBodyG.mv h0) h)
  | service h =>
    show Places.StatementG _ (Move.mv g a) ⟨Move.mv g a.package, Move.mv g a.imports, Move.mv g a.options, Move.mv g (a.items ++ [_])⟩
    rw [mv_snoc]
    exact .service (p := Move.mv g a) (ServiceG.mv h0 h)
  | empty h => exact .empty h

omit hB [FloatFmt] in
theorem fileSpan_mv {len len' : Nat} (hl : g len = len') (ts : List ATok) : fileSpan len' (mk g ts) = mv g (fileSpan len ts) := by
  unfold fileSpan
  cases ts with
  | nil => show (⟨len', 0⟩ : Span) = ⟨g len, g 0⟩; rw [hl, h0]
  | cons a ts => simp only [List.cons_ne_nil, List.map_cons, if_false, reduceCtorEq]; exact extent_mv h0 (a :: ts)

omit hB in
/-- The tree of the moved tokens is the moved tree. -/
theorem FileG.mv {len len' ts f} (hl : g len = len') (h : Places.FileG len ts f) : Places.FileG len' (mk g ts) (mv g f) := by
  cases h with
  | @noSyntax ts p h h' =>
    show Places.FileG len' _ ⟨Move.mv g (fileSpan len ts), .proto2, none, Move.mv g p.package, Move.mv g p.imports, Move.mv g p.options, Move.mv g p.items⟩
    rw [← fileSpan_mv h0 hl]
    exact .noSyntax (p := Move.mv g p) (Many.mv (fun _ _ _ => StatementG.mv h0) h) (NoKw.mv h')
  | @withSyntax ss s ssp ts p h1 h2 =>
    show Places.FileG len' _ ⟨Move.mv g (fileSpan len (ss ++ ts)), s, some (Move.mv g ssp), Move.mv g p.package, Move.mv g p.imports, Move.mv g p.options, Move.mv g p.items⟩
    rw [← fileSpan_mv h0 hl]
    simp only [mk, List.map_append]
    exact .withSyntax (p := Move.mv g p) (SyntaxG.mv h0 h1) (Many.mv (fun _ _ _ => StatementG.mv h0) h2)

end
end Verif.Pos
