import Verif.Proofs.Uni5
/-!
Forgetting places and comments: the grammar with places refines the one without.
-/
namespace Verif.Pos
open Verif.Spec Verif.Ast
open Verif.Grammar (kw)
open Places

/-- The tokens alone. -/
abbrev tk (ts : List ATok) : List Token := ts.map (·.tok)

theorem SepBy.proj {α : Type} {sep : Token} {G : List ATok → α → Prop} {H : List Token → α → Prop}
    (h : ∀ ts a, G ts a → H (tk ts) a) {ts as} (hs : Places.SepBy sep G ts as) : Grammar.SepBy sep H (tk ts) as := by
  induction hs with
  | one h1 => exact .one (h _ _ h1)
  | cons h1 hc _ ih =>
    rw [tk, List.map_append, List.map_cons, hc]
    exact .cons (h _ _ h1) ih

theorem Many.proj {σ : Type} {G : List ATok → σ → σ → Prop} {H : List Token → σ → σ → Prop}
    (h : ∀ ts a b, G ts a b → H (tk ts) a b) {ts a b} (hs : Places.Many G ts a b) : Grammar.Many H (tk ts) a b := by
  induction hs with
  | nil => exact .nil
  | cons h1 _ ih =>
    rw [tk, List.map_append]
    exact .cons (h _ _ _ h1) ih

theorem NoKw.proj {ms ts} (h : Places.NoKw ms ts) : Grammar.NoKw ms (tk ts) := by
  intro n hn
  have := h n hn
  rwa [tk, List.head?_map]

theorem IdentG.proj {ts i} (h : Places.IdentG ts i) : Grammar.IdentG (tk ts) i := by
  obtain ⟨a, rfl, h1, _⟩ := h
  simp [Grammar.IdentG, h1]

theorem IntG.proj {ts i} (h : Places.IntG ts i) : Grammar.IntG (tk ts) i := by
  cases h with
  | pos h => simp only [tk, List.map_cons, List.map_nil, h]; exact .pos
  | neg h1 h2 => simp only [tk, List.map_cons, List.map_nil, h1, h2]; exact .neg

theorem StrG.proj {ts s} (h : Places.StrG ts s) : Grammar.StrG (tk ts) s := by
  obtain ⟨ps, h1, h2, h3, _⟩ := h
  exact ⟨ps, h1, h2, h3⟩

theorem Utf8G.proj {ts v sp} (h : Places.Utf8G ts v sp) : Grammar.Utf8G (tk ts) v := ⟨⟨sp, StrG.proj h.1⟩, h.2⟩

theorem FullIdentG.proj {ts f} (h : Places.FullIdentG ts f) : Grammar.FullIdentG (tk ts) f := SepBy.proj (fun _ _ => IdentG.proj) h

theorem TypeNameG.proj {ts t} (h : Places.TypeNameG ts t) : Grammar.TypeNameG (tk ts) t := by
  cases h with
  | relative h => exact .relative (FullIdentG.proj h)
  | absolute h1 h2 => simp only [tk, List.map_cons, h1]; exact .absolute (FullIdentG.proj h2)

theorem NamePartG.proj {ts t} (h : Places.NamePartG ts t) : Grammar.NamePartG (tk ts) t := by
  cases h with
  | ident h => exact .ident (IdentG.proj h)
  | ext h1 h2 h3 =>
    simp only [tk, List.cons_append, List.map_cons, List.map_append, List.map_nil, h1, h3]
    exact .ext (TypeNameG.proj h2)

section
variable [FloatFmt]

theorem ValueG.proj {ts v} (h : Places.ValueG ts v) : Grammar.ValueG (tk ts) v := by
  cases h with
  | ident h => exact .ident (IdentG.proj h)
  | negIdent h1 h2 => simp only [tk, List.map_cons, h1]; exact .negIdent (IdentG.proj h2)
  | int h => exact .int (IntG.proj h)
  | float h => simp only [tk, List.map_cons, List.map_nil, h]; exact .float
  | negFloat h1 h2 => simp only [tk, List.map_cons, List.map_nil, h1, h2]; exact .negFloat
  | string h => exact .string (StrG.proj h)
  | aggregate h1 h2 h3 =>
    simp only [tk, List.cons_append, List.map_cons, List.map_append, List.map_nil, h1, h3]
    exact .aggregate h2

theorem OptionBodyG.proj {ts v} (h : Places.OptionBodyG ts v) : Grammar.OptionBodyG (tk ts) v := by
  cases h with
  | mk h1 h2 h3 =>
    simp only [tk, List.map_cons, List.map_append, h2]
    exact .mk (SepBy.proj (fun _ _ => NamePartG.proj) h1) (ValueG.proj h3)

theorem OptionG.proj {ts v} (h : Places.OptionG ts v) : Grammar.OptionG (tk ts) v := by
  cases h with
  | mk h1 h2 h3 =>
    simp only [tk, List.cons_append, List.map_cons, List.map_append, List.map_nil, h1, h3]
    exact .mk (OptionBodyG.proj h2)

theorem OptListG.proj {ts v} (h : Places.OptListG ts v) : Grammar.OptListG (tk ts) v := by
  cases h with
  | none => exact .none
  | some h1 h2 h3 =>
    simp only [tk, List.cons_append, List.map_cons, List.map_append, List.map_nil, h1, h3]
    exact .some (SepBy.proj (fun _ _ => OptionBodyG.proj) h2)

omit [FloatFmt] in
theorem RangeG.proj {ts v} (h : Places.RangeG ts v) : Grammar.RangeG (tk ts) v := by
  cases h with
  | single h => exact .single (IntG.proj h)
  | to h1 h2 h3 =>
    simp only [tk, List.map_cons, List.map_append, h2]
    exact .to (IntG.proj h1) (IntG.proj h3)
  | max h1 h2 h3 =>
    simp only [tk, List.map_cons, List.map_append, List.map_nil, h2, h3]
    exact .max (IntG.proj h1)

omit [FloatFmt] in
theorem ReservedG.proj {ts v} (h : Places.ReservedG ts v) : Grammar.ReservedG (tk ts) v := by
  cases h with
  | ranges h1 h2 h3 =>
    simp only [tk, List.cons_append, List.map_cons, List.map_append, List.map_nil, h1, h3]
    exact .ranges (SepBy.proj (fun _ _ => RangeG.proj) h2)
  | names h1 h2 h3 =>
    simp only [tk, List.cons_append, List.map_cons, List.map_append, List.map_nil, h1, h3]
    exact .names (SepBy.proj (fun _ _ h => ⟨Utf8G.proj h.1, h.2⟩) h2)

theorem ExtensionsG.proj {ts v} (h : Places.ExtensionsG ts v) : Grammar.ExtensionsG (tk ts) v := by
  cases h with
  | mk h1 h2 h3 h4 h5 =>
    simp only [tk, List.cons_append, List.map_cons, List.map_append, List.map_nil, h1, h5]
    exact .mk (SepBy.proj (fun _ _ => RangeG.proj) h2) (OptListG.proj h3) h4

omit [FloatFmt] in
theorem TyG.proj {ts t sp} (h : Places.TyG ts t sp) : Grammar.TyG (tk ts) t := by
  cases h with
  | scalar h1 h2 => simp only [tk, List.map_cons, List.map_nil, h2]; exact .scalar h1
  | named h1 h2 => exact .named (TypeNameG.proj h1) (NoKw.proj h2)

omit [FloatFmt] in
theorem LabelG.proj {ts v} (h : Places.LabelG ts v) : Grammar.LabelG (tk ts) v := by
  cases h with
  | none => exact .none
  | optional h => simp only [tk, List.map_cons, List.map_nil, h]; exact .optional
  | required h => simp only [tk, List.map_cons, List.map_nil, h]; exact .required
  | repeated h => simp only [tk, List.map_cons, List.map_nil, h]; exact .repeated

variable {B : List ATok → MessageBody → Prop} {B' : List Token → MessageBody → Prop} (hB : ∀ ts b, B ts b → B' (tk ts) b)
include hB

theorem FieldG.proj {ts v} (h : Places.FieldG B ts v) : Grammar.FieldG B' (tk ts) v := by
  cases h with
  | normal h1 h2 h3 h4 h5 h6 h7 h8 h9 =>
    simp only [tk, List.cons_append, List.map_cons, List.map_append, List.map_nil, h4, h7]
    refine .normal (LabelG.proj h1) (TyG.proj h2) (IdentG.proj h3) (IntG.proj h5) (OptListG.proj h6) (NoKw.proj h8) fun h => ?_
    exact NoKw.proj (h9 (List.map_eq_nil_iff.1 h))
  | map h1 h2 h3 h4 h5 h6 h7 h8 h9 h10 h11 h12 =>
    simp only [tk, List.cons_append, List.map_cons, List.map_append, List.map_nil, h2, h3, h5, h7, h9, h12]
    exact .map (LabelG.proj h1) (TyG.proj h4) (TyG.proj h6) (IdentG.proj h8) (IntG.proj h10) (OptListG.proj h11)
  | group h1 h2 h3 h4 h5 h6 h7 h8 h9 h10 =>
    simp only [tk, List.cons_append, List.map_cons, List.map_append, List.map_nil, h2, h5, h8, h10]
    exact .group (LabelG.proj h1) (IdentG.proj h3) h4 (IntG.proj h6) (OptListG.proj h7) (hB _ _ h9)

omit hB in
theorem EnumValueG.proj {ts v} (h : Places.EnumValueG ts v) : Grammar.EnumValueG (tk ts) v := by
  cases h with
  | mk h1 h2 h3 h4 h5 =>
    simp only [tk, List.cons_append, List.map_cons, List.map_append, List.map_nil, h2, h5]
    exact .mk (IdentG.proj h1) (IntG.proj h3) (OptListG.proj h4)

omit hB in
theorem EnumElem.proj {ts a b} (h : Places.EnumElem ts a b) : Grammar.EnumElem (tk ts) a b := by
  cases h with
  | option h => exact .option (OptionG.proj h)
  | reserved h => exact .reserved (ReservedG.proj h)
  | value h h' => exact .value (EnumValueG.proj h) (NoKw.proj h')
  | empty h => simp only [tk, List.map_cons, List.map_nil, h]; exact .empty

omit hB in
theorem EnumG.proj {ts v} (h : Places.EnumG ts v) : Grammar.EnumG (tk ts) v := by
  cases h with
  | mk h1 h2 h3 h4 h5 =>
    simp only [tk, List.cons_append, List.map_cons, List.map_append, List.map_nil, h1, h3, h5]
    exact .mk (IdentG.proj h2) (Many.proj (fun _ _ _ => EnumElem.proj) h4)

theorem OneofElem.proj {ts a b} (h : Places.OneofElem B ts a b) : Grammar.OneofElem B' (tk ts) a b := by
  cases h with
  | option h => exact .option (OptionG.proj h)
  | field h h' => exact .field (FieldG.proj hB h) (NoKw.proj h')
  | empty h => simp only [tk, List.map_cons, List.map_nil, h]; exact .empty

theorem OneofG.proj {ts v} (h : Places.OneofG B ts v) : Grammar.OneofG B' (tk ts) v := by
  cases h with
  | mk h1 h2 h3 h4 h5 =>
    simp only [tk, List.cons_append, List.map_cons, List.map_append, List.map_nil, h1, h3, h5]
    exact .mk (IdentG.proj h2) (Many.proj (fun _ _ _ => OneofElem.proj hB) h4)

theorem ExtendElem.proj {ts a b} (h : Places.ExtendElem B ts a b) : Grammar.ExtendElem B' (tk ts) a b := by
  cases h with
  | field h => exact .field (FieldG.proj hB h)
  | empty h => simp only [tk, List.map_cons, List.map_nil, h]; exact .empty

theorem ExtendG.proj {ts v} (h : Places.ExtendG B ts v) : Grammar.ExtendG B' (tk ts) v := by
  cases h with
  | mk h1 h2 h3 h4 h5 =>
    simp only [tk, List.cons_append, List.map_cons, List.map_append, List.map_nil, h1, h3, h5]
    exact .mk (TypeNameG.proj h2) (Many.proj (fun _ _ _ => ExtendElem.proj hB) h4)

omit [FloatFmt] in
theorem MessageG.proj {ts v} (h : Places.MessageG B ts v) : Grammar.MessageG B' (tk ts) v := by
  cases h with
  | mk h1 h2 h3 h4 h5 =>
    simp only [tk, List.cons_append, List.map_cons, List.map_append, List.map_nil, h1, h3, h5]
    exact .mk (IdentG.proj h2) (hB _ _ h4)

theorem BodyElem.proj {ts a b} (h : Places.BodyElem B ts a b) : Grammar.BodyElem B' (tk ts) a b := by
  cases h with
  | field h h' => exact .field (FieldG.proj hB h) (NoKw.proj h')
  | oneof h => exact .oneof (OneofG.proj hB h)
  | enum h => exact .enum (EnumG.proj h)
  | message h => exact .message (MessageG.proj hB h)
  | extend h => exact .extend (ExtendG.proj hB h)
  | option h => exact .option (OptionG.proj h)
  | reserved h => exact .reserved (ReservedG.proj h)
  | extensions h => exact .extensions (ExtensionsG.proj h)
  | empty h => simp only [tk, List.map_cons, List.map_nil, h]; exact .empty

omit hB in
theorem BodyG.proj : ∀ d ts b, Places.BodyG d ts b → Grammar.BodyG d (tk ts) b
  | 0, _, _, h => h.elim
  | d + 1, _, _, h => Many.proj (fun _ _ _ => BodyElem.proj (BodyG.proj d)) h

omit hB in
theorem AnyBodyG.proj : ∀ ts b, Places.AnyBodyG ts b → Grammar.AnyBodyG (tk ts) b :=
  fun _ _ ⟨d, h⟩ => ⟨d, BodyG.proj d _ _ h⟩

omit hB [FloatFmt] in
theorem StreamG.proj {ts t s} (h : Places.StreamG ts t s) : Grammar.StreamG (tk ts) t s := by
  cases h with
  | no h h' => exact .no (TypeNameG.proj h) (NoKw.proj h')
  | yes h1 h2 => simp only [tk, List.map_cons, h1]; exact .yes (TypeNameG.proj h2)

omit hB in
theorem MethodElem.proj {ts a b} (h : Places.MethodElem ts a b) : Grammar.MethodElem (tk ts) a b := by
  cases h with
  | option h => exact .option (OptionG.proj h)
  | empty h => simp only [tk, List.map_cons, List.map_nil, h]; exact .empty

omit hB in
theorem MethodEndG.proj {ts os z} (h : Places.MethodEndG ts os z) : Grammar.MethodEndG (tk ts) os := by
  cases h with
  | semi h => simp only [tk, List.map_cons, List.map_nil, h]; exact .semi
  | body h1 h2 h3 =>
    simp only [tk, List.cons_append, List.map_cons, List.map_append, List.map_nil, h1, h3]
    exact .body (Many.proj (fun _ _ _ => MethodElem.proj) h2)

omit hB in
theorem MethodG.proj {ts v} (h : Places.MethodG ts v) : Grammar.MethodG (tk ts) v := by
  cases h with
  | mk h1 h2 h3 h4 h5 h6 h7 h8 h9 h10 =>
    simp only [tk, List.cons_append, List.map_cons, List.map_append, List.map_nil, h1, h3, h5, h6, h7, h9]
    exact .mk (IdentG.proj h2) (StreamG.proj h4) (StreamG.proj h8) (MethodEndG.proj h10)

omit hB in
theorem ServiceElem.proj {ts a b} (h : Places.ServiceElem ts a b) : Grammar.ServiceElem (tk ts) a b := by
  cases h with
  | option h => exact .option (OptionG.proj h)
  | method h => exact .method (MethodG.proj h)
  | empty h => simp only [tk, List.map_cons, List.map_nil, h]; exact .empty

omit hB in
theorem ServiceG.proj {ts v} (h : Places.ServiceG ts v) : Grammar.ServiceG (tk ts) v := by
  cases h with
  | mk h1 h2 h3 h4 h5 =>
    simp only [tk, List.cons_append, List.map_cons, List.map_append, List.map_nil, h1, h3, h5]
    exact .mk (IdentG.proj h2) (Many.proj (fun _ _ _ => ServiceElem.proj) h4)

omit hB [FloatFmt] in
theorem PackageG.proj {ts v} (h : Places.PackageG ts v) : Grammar.PackageG (tk ts) v := by
  cases h with
  | mk h1 h2 h3 =>
    simp only [tk, List.cons_append, List.map_cons, List.map_append, List.map_nil, h1, h3]
    exact .mk (FullIdentG.proj h2)

omit hB [FloatFmt] in
theorem ImportKindG.proj {ts v} (h : Places.ImportKindG ts v) : Grammar.ImportKindG (tk ts) v := by
  cases h with
  | none => exact .none
  | weak h => simp only [tk, List.map_cons, List.map_nil, h]; exact .weak
  | publ h => simp only [tk, List.map_cons, List.map_nil, h]; exact .publ

omit hB [FloatFmt] in
theorem ImportG.proj {ts v} (h : Places.ImportG ts v) : Grammar.ImportG (tk ts) v := by
  cases h with
  | mk h1 h2 h3 h4 h5 =>
    simp only [tk, List.cons_append, List.map_cons, List.map_append, List.map_nil, h1, h5]
    exact .mk (ImportKindG.proj h2) (Utf8G.proj h3) h4

omit hB [FloatFmt] in
theorem SyntaxG.proj {ts s x} (h : Places.SyntaxG ts s x) : Grammar.SyntaxG (tk ts) s := by
  cases h with
  | proto2 h1 h2 h3 h4 =>
    simp only [tk, List.cons_append, List.map_cons, List.map_append, List.map_nil, h1, h2, h4]
    exact .proto2 (StrG.proj h3)
  | proto3 h1 h2 h3 h4 =>
    simp only [tk, List.cons_append, List.map_cons, List.map_append, List.map_nil, h1, h2, h4]
    exact .proto3 (StrG.proj h3)

omit hB in
theorem StatementG.proj {ts a b} (h : Places.StatementG ts a b) : Grammar.StatementG (tk ts) a b := by
  cases h with
  | package h h' => exact .package (PackageG.proj h) h'
  | import' h => exact .import' (ImportG.proj h)
  | option h => exact .option (OptionG.proj h)
  | message h => exact .message (MessageG.proj AnyBodyG.proj h)
  | enum h => exact .enum (EnumG.proj h)
  | extend h => exact .extend (ExtendG.proj AnyBodyG.proj h)
  | service h => exact .service (ServiceG.proj h)
  | empty h => simp only [tk, List.map_cons, List.map_nil, h]; exact .empty

omit hB in
theorem FileG.proj {len ts f} (h : Places.FileG len ts f) : Grammar.FileG (tk ts) f := by
  cases h with
  | noSyntax h _ => exact .noSyntax (Many.proj (fun _ _ _ => StatementG.proj) h)
  | withSyntax h1 h2 =>
    simp only [tk, List.map_append]
    exact .withSyntax (SyntaxG.proj h1) (Many.proj (fun _ _ _ => StatementG.proj) h2)

end

/-- The significant tokens, whether or not they have been given their comments. -/
theorem annotate_sig (l : List STok) : ∀ start gap, (annotate start gap l).map (fun a => (a.tok, a.span)) =
    l.filter (fun t => ! t.1.isTrivia) := by
  induction l with
  | nil => intros; rfl
  | cons t r ih =>
    intro start gap
    unfold annotate
    split
    · rename_i h
      rw [ih, List.filter_cons_of_neg (by simp [h])]
    · rename_i h
      rw [List.map_cons, ih, List.filter_cons_of_pos (by simp [h])]

theorem annotated_sig {src : Bytes} (h : ∀ x ∈ rawToks 0 src, x.1 ≠ none) :
    sigToks 0 src = ((annotated src).map fun a => (a.tok, a.span)).map some := by
  unfold annotated
  rw [annotate_sig]
  unfold sigToks significant allToks
  generalize rawToks 0 src = l at h ⊢
  induction l with
  | nil => rfl
  | cons x l ih =>
    obtain ⟨t, sp⟩ := x
    cases t with
    | none => exact absurd rfl (h _ (List.mem_cons_self ..))
    | some t =>
      have := ih fun y hy => h y (List.mem_cons_of_mem _ hy)
      cases ht : t.isTrivia <;> simp [ht, this]

/-- A tree with places is a tree. -/
theorem treeOf_placed [FloatFmt] {src : Bytes} {f : File} (h : PlacedTree src f) : TreeOf src f := by
  refine ⟨_, annotated_sig h.1, ?_⟩
  have := FileG.proj h.2
  rw [List.map_map]
  exact this

/-- The parser, exactly: a source is accepted with tree `f` if and only if it can be lexed and `f` is its tree, with all
places and comments. -/
theorem parseFile_iff [FloatFmt] {src : Bytes} {f : File} :
    Parse.parseFile src = .ok (.ok f) ↔ lexOk src = true ∧ PlacedTree src f := by
  constructor
  · intro h
    exact ⟨(Parse.parseFile_accepts.1 ⟨f, h⟩).1, parseFile_places h⟩
  · rintro ⟨h1, h2⟩
    obtain ⟨f', h3⟩ := Parse.parseFile_accepts.2 ⟨h1, f, treeOf_placed h2⟩
    rw [h3, parseFile_unique h3 h2]

/-- Every tree of a source has the same content as its tree with places. -/
theorem placed_exists [FloatFmt] {src : Bytes} {f : File} (hl : lexOk src = true) (h : TreeOf src f) :
    ∃ f', PlacedTree src f' ∧ er f' = er f := by
  obtain ⟨f', h1, h2, _⟩ := Parse.parseFile_complete h
  exact ⟨f', parseFile_places (h2 hl), h1⟩

end Verif.Pos
