import Verif.Props.Local
import Verif.Proofs.Concat3
/-!
C70: a file is the sequence of its statements. Putting a file together from two texts, one after the other, gives the
statements of the first and then those of the second: nothing of the first text (an unfinished comment, an aggregate value,
an open brace) reaches into the second, and the descriptors are put one after the other.
-/
namespace Verif
open Verif.Spec Verif.Ast Verif.Gen Verif.Grammar

section
variable [FloatFmt] [LocSort]

omit [FloatFmt] [LocSort] in
theorem importIdx_append (kind : ImportKind) : ∀ (xs ys : List Import) (k : Nat),
    importIdx kind k (xs ++ ys) = importIdx kind k xs ++ (importIdx kind 0 ys).map (· + ((k + xs.length : Nat) : Int)) := by
  have shift : ∀ (ys : List Import) (k m : Nat), importIdx kind (k + m) ys = (importIdx kind k ys).map (· + (m : Int)) := by
    intro ys
    induction ys with
    | nil => intro k m; rfl
    | cons y ys ih =>
      intro k m
      have := ih (k + 1) m
      rw [Nat.add_right_comm] at this
      simp only [importIdx]
      split <;> simp [this]
  intro xs
  induction xs with
  | nil => intro ys k; have := shift ys 0 k; rw [Nat.zero_add] at this; exact this
  | cons x xs ih =>
    intro ys k
    simp only [List.cons_append, importIdx, ih ys (k + 1), List.length_cons]
    rw [show k + 1 + xs.length = k + (xs.length + 1) by omega]
    split <;> rfl

/-- The tree of the statements after the `syntax` statement. -/
def withParts (s : Syntax') (q : Parts) : Ast.File := ⟨⟨0, 0⟩, s, some (⟨0, 0⟩, {}), q.package, q.imports, q.options, q.items⟩

omit [LocSort] in
theorem fileErrs_more {f : Ast.File} {q : Parts} : fileErrs (f.more q) = [] ↔ fileErrs f = [] ∧ fileErrs (withParts f.syntax' q) = [] := by
  simp only [fileErrs, Ast.File.more, withParts, optsErrs, List.flatMap_append, List.append_eq_nil_iff]
  constructor
  · rintro ⟨⟨a, b⟩, c, d⟩; exact ⟨⟨a, c⟩, b, d⟩
  · rintro ⟨⟨a, c⟩, b, d⟩; exact ⟨⟨a, b⟩, c, d⟩

omit [LocSort] in
theorem joined_more {name : Bytes} {f : Ast.File} {q : Parts} {da db d : FileDescriptorProto} (hp : f.package = none ∨ q.package = none)
    (ha : { da with sourceCodeInfo := none } = fileDesc name f) (hb : { db with sourceCodeInfo := none } = fileDesc name (withParts f.syntax' q))
    (hd : { d with sourceCodeInfo := none } = fileDesc name (f.more q)) : Joined da db d := by
  have A : ∀ {β : Type} (g : FileDescriptorProto → β), g { da with sourceCodeInfo := none } = g (fileDesc name f) := fun g => congrArg g ha
  have B : ∀ {β : Type} (g : FileDescriptorProto → β), g { db with sourceCodeInfo := none } = g (fileDesc name (withParts f.syntax' q)) := fun g => congrArg g hb
  have D : ∀ {β : Type} (g : FileDescriptorProto → β), g { d with sourceCodeInfo := none } = g (fileDesc name (f.more q)) := fun g => congrArg g hd
  have a1 := A (·.name); have a2 := A (·.package); have a3 := A (·.dependency); have a4 := A (·.publicDependency)
  have a5 := A (·.weakDependency); have a6 := A (·.messageType); have a7 := A (·.enumType); have a8 := A (·.service)
  have a9 := A (·.extension); have a10 := A (·.options); have a11 := A (·.syntax')
  have b2 := B (·.package); have b3 := B (·.dependency); have b4 := B (·.publicDependency)
  have b5 := B (·.weakDependency); have b6 := B (·.messageType); have b7 := B (·.enumType); have b8 := B (·.service)
  have b9 := B (·.extension); have b10 := B (·.options)
  have d1 := D (·.name); have d2 := D (·.package); have d3 := D (·.dependency); have d4 := D (·.publicDependency)
  have d5 := D (·.weakDependency); have d6 := D (·.messageType); have d7 := D (·.enumType); have d8 := D (·.service)
  have d9 := D (·.extension); have d10 := D (·.options); have d11 := D (·.syntax')
  simp only [fileDesc, Ast.File.more, withParts] at a1 a2 a3 a4 a5 a6 a7 a8 a9 a10 a11 b2 b3 b4 b5 b6 b7 b8 b9 b10 d1 d2 d3 d4 d5 d6 d7 d8 d9 d10 d11
  constructor
  · rw [d1, a1]
  · exact d11.trans a11.symm
  · rw [a2, b2]
    exact hp.imp (fun h => by rw [h]; rfl) (fun h => by rw [h]; rfl)
  · rw [d2, a2, b2]
    cases f.package <;> rfl
  · rw [d3, a3, b3, List.map_append]
  · rw [d4, a4, b4, a3, importIdx_append, Nat.zero_add, List.length_map]
  · rw [d5, a5, b5, a3, importIdx_append, Nat.zero_add, List.length_map]
  · rw [d6, a6, b6, itemsMsgs_flatMap, List.flatMap_append, ← itemsMsgs_flatMap, ← itemsMsgs_flatMap]
  · rw [d7, a7, b7, fileEnums_flatMap, List.flatMap_append, ← fileEnums_flatMap, ← fileEnums_flatMap]
  · rw [d8, a8, b8, fileServices_flatMap, List.flatMap_append, ← fileServices_flatMap, ← fileServices_flatMap]
  · rw [d9, a9, b9, fileExts_flatMap, List.flatMap_append, ← fileExts_flatMap, ← fileExts_flatMap]
  · rw [d10, a10, b10]
    cases h1 : f.options <;> cases h2 : q.options <;> simp [nonEmpty, optsDesc]

omit [LocSort] in
theorem header_file (s : Syntax') : lexOk (header (some s.display)) = true ∧
    ∃ ts, Parse.toksOf 0 (header (some s.display)) = ts.map some ∧ SyntaxG ts s := by
  cases s with
  | proto2 =>
    exact ⟨by decide +kernel, [.ident b!"syntax", .equals, .string b!"proto2", .semicolon], by decide +kernel,
      .proto2 (ts := [.string b!"proto2"]) (sp := ⟨0, 0⟩) ⟨[b!"proto2"], nofun, rfl, rfl⟩⟩
  | proto3 =>
    exact ⟨by decide +kernel, [.ident b!"syntax", .equals, .string b!"proto3", .semicolon], by decide +kernel,
      .proto3 (ts := [.string b!"proto3"]) (sp := ⟨0, 0⟩) ⟨[b!"proto3"], nofun, rfl, rfl⟩⟩

omit [FloatFmt] [LocSort] in
theorem header_of (s : Syntax') : header (if s = .proto2 then none else some s.display) = header (some s.display) := by
  cases s <;> rfl

omit [LocSort] in
/-- What is after a `syntax` statement. -/
theorem after_header (s : Syntax') (b : Bytes) :
    lexOk (joinLines (header (some s.display)) b) = lexOk b ∧
    (∀ {g}, TreeOf (joinLines (header (some s.display)) b) g → ∃ us q, Parse.toksOf 0 b = us.map some ∧ Many StatementG us {} q ∧ er g = er (withParts s q)) ∧
    ∀ {us q}, Parse.toksOf 0 b = us.map some → Many StatementG us {} q → TreeOf (joinLines (header (some s.display)) b) (withParts s q) := by
  obtain ⟨hl, ts, h1, h2⟩ := header_file s
  have ht : TreeOf (header (some s.display)) (withParts s {}) :=
    Parse.treeOf_iff.2 ⟨ts, h1, List.append_nil ts ▸ FileG.withSyntax h2 .nil⟩
  obtain ⟨g1, g2⟩ := Parse.lex_cat (b := b) hl ht
  have back : ∀ {us q}, Parse.toksOf 0 b = us.map some → Many StatementG us {} q → TreeOf (joinLines (header (some s.display)) b) (withParts s q) := by
    intro us q hu hm
    exact Parse.treeOf_iff.2 ⟨ts ++ us, by rw [g2, h1, hu, List.map_append], FileG.withSyntax h2 hm⟩
  refine ⟨g1, ?_, back⟩
  intro g hg
  obtain ⟨xs, e, hx⟩ := Parse.treeOf_iff.1 hg
  rw [g2, h1] at e
  obtain ⟨x1, us, rfl, e1, e2⟩ := List.map_eq_append_iff.1 e.symm
  have e1 : x1 = ts := by
    have := congrArg (List.filterMap id) e1
    simpa [List.filterMap_map] using this
  subst e1
  have hne : x1 ≠ [] := by rintro rfl; have := Parse.syntax_head (us := []) h2; cases this
  have hf : FileG x1 (withParts s {}) := List.append_nil x1 ▸ FileG.withSyntax h2 .nil
  obtain ⟨f', q, k1, k2, _, _⟩ := Parse.file_split hf hx hne
  refine ⟨us, q, e2.symm, k2, ?_⟩
  exact Parse.tree_unique hg (back e2.symm k2)

/-- C70: if `a` is accepted, and `b` is accepted after the `syntax` statement of `a`, and not both have a `package`
statement, then `a` followed by `b` is accepted, and the descriptor is the one of `a` followed by that of `b`. -/
theorem C70_append {name a b : Bytes} {da db : FileDescriptorProto} (ha : parse name a = some (.ok da))
    (hb : parse name (joinLines (header da.syntax') b) = some (.ok db)) (hp : da.package = none ∨ db.package = none)
    (hl : (joinLines a b).length ≤ 2147483647) :
    ∃ d, parse name (joinLines a b) = some (.ok d) ∧ Joined da db d := by
  obtain ⟨_, hxa, f, hf, hfe⟩ := parse_accepts.1 ⟨da, ha⟩
  have ma := made_of_tree ha hf
  have hsyn : da.syntax' = if f.syntax' = .proto2 then none else some f.syntax'.display := congrArg FileDescriptorProto.syntax' ma.desc
  rw [hsyn, header_of] at hb
  obtain ⟨_, hxb, g, hg, hge⟩ := parse_accepts.1 ⟨db, hb⟩
  obtain ⟨k1, k2, k3⟩ := after_header f.syntax' b
  obtain ⟨us, q, hu, hm, _⟩ := k2 hg
  have mb := made_of_tree hb (k3 hu hm)
  have hpk : f.package = none ∨ q.package = none := by
    have e1 : da.package = f.package.map fun p => p.name.display.getD [] := congrArg FileDescriptorProto.package ma.desc
    have e2 : db.package = q.package.map fun p => p.name.display.getD [] := congrArg FileDescriptorProto.package mb.desc
    rw [e1, e2] at hp
    exact hp.imp Option.map_eq_none_iff.1 Option.map_eq_none_iff.1
  obtain ⟨ts, e1, hfg⟩ := Parse.treeOf_iff.1 hf
  obtain ⟨c1, c2⟩ := Parse.lex_cat (b := b) hxa hf
  have htree : TreeOf (joinLines a b) (f.more q) :=
    Parse.treeOf_iff.2 ⟨ts ++ us, by rw [c2, e1, hu, List.map_append], Parse.file_more hfg hm hpk⟩
  obtain ⟨d, hd⟩ := (parse_accepts (name := name)).2 ⟨hl, by rw [c1, ← k1]; exact hxb, _, htree, fileErrs_more.2 ⟨ma.noErrs, mb.noErrs⟩⟩
  exact ⟨d, hd, joined_more hpk ma.desc mb.desc (made_of_tree hd htree).desc⟩

/-- C70: if `a` is syntactically a file, with at least one token, then `a` followed by `b` is accepted only if `a` is, and
`b` after the `syntax` statement of `a`, and not both have a `package` statement; and the descriptor is that of `a` followed
by that of `b`. -/
theorem C70_split {name a b : Bytes} {d : FileDescriptorProto} (hd : parse name (joinLines a b) = some (.ok d))
    (hx : lexOk a = true) {f : Ast.File} (hf : TreeOf a f) (hne : sigToks 0 a ≠ []) (hl : b.length ≤ 2147483600) :
    ∃ da db, parse name a = some (.ok da) ∧ parse name (joinLines (header da.syntax') b) = some (.ok db) ∧ Joined da db d := by
  obtain ⟨hlen, hxd, g, hg, hge⟩ := parse_accepts.1 ⟨d, hd⟩
  obtain ⟨c1, c2⟩ := Parse.lex_cat (b := b) hx hf
  obtain ⟨ts, e1, hfg⟩ := Parse.treeOf_iff.1 hf
  obtain ⟨xs, e, hgg⟩ := Parse.treeOf_iff.1 hg
  rw [c2, e1] at e
  obtain ⟨x1, us, rfl, e2, e3⟩ := List.map_eq_append_iff.1 e.symm
  have e2 : x1 = ts := by
    have := congrArg (List.filterMap id) e2
    simpa [List.filterMap_map] using this
  subst e2
  have hne' : x1 ≠ [] := by
    rintro rfl
    exact hne (List.map_eq_nil_iff.1 e1)
  obtain ⟨f', q, h1, h2, h3, rfl⟩ := Parse.file_split hfg hgg hne'
  obtain ⟨he1, he2⟩ := fileErrs_more.1 hge
  have hta : TreeOf a f' := Parse.treeOf_iff.2 ⟨x1, e1, h1⟩
  obtain ⟨da, ha⟩ := (parse_accepts (name := name)).2 ⟨by simp only [joinLines, List.length_append] at hlen; omega, hx, f', hta, he1⟩
  have ma := made_of_tree ha hta
  obtain ⟨k1, _, k3⟩ := after_header f'.syntax' b
  have htb := k3 e3.symm h2
  obtain ⟨db, hb⟩ := (parse_accepts (name := name)).2 ⟨by
      simp only [joinLines, List.length_append]
      have : (header (some f'.syntax'.display)).length ≤ 20 := by cases f'.syntax' <;> decide
      have : b!"\n".length = 1 := rfl
      omega, by rw [k1, ← c1]; exact hxd, _, htb, he2⟩
  have hsyn : da.syntax' = if f'.syntax' = .proto2 then none else some f'.syntax'.display := congrArg FileDescriptorProto.syntax' ma.desc
  exact ⟨da, db, ha, by rw [hsyn, header_of]; exact hb, joined_more h3 ma.desc (made_of_tree hb htb).desc (made_of_tree hd hg).desc⟩

end

/-! ## The hypotheses hold -/
namespace ConcatDemo
open Demo

/-- An aggregate value, an import and a comment that is not closed by a line break. -/
def a : Bytes := b!"syntax = \"proto3\";\nimport \"x.proto\";\noption (o) = { f: [1.5f] }; # ..."
/-- The same without what is only allowed in the aggregate value. -/
def a' : Bytes := b!"syntax = \"proto3\";\nimport \"x.proto\";\noption (o) = { f: [1.5f] # ...\n }; message A { } // ..."
def b : Bytes := b!"package p;\nimport public \"y.proto\";\nenum E { Z = 0; }"

theorem a'_ok : (match parse b!"a.proto" a' with | some (.ok d) => decide (d.syntax' = some b!"proto3" ∧ d.package = none) | _ => false) = true := by decide +kernel

/-- The hypotheses of `C70_append` hold. -/
example : ∃ da db d, parse b!"a.proto" a' = some (.ok da) ∧ parse b!"a.proto" (joinLines a' b) = some (.ok d) ∧ Joined da db d := by
  have h := a'_ok
  split at h
  · rename_i da ha
    obtain ⟨h1, h2⟩ := of_decide_eq_true h
    have hb : accepts (joinLines (header (some b!"proto3")) b) = true := by decide +kernel
    unfold accepts at hb
    split at hb
    · rename_i db hdb
      obtain ⟨d, k1, k2⟩ := C70_append (b := b) ha (by rw [h1]; exact hdb) (.inl h2) (by decide +kernel)
      exact ⟨da, db, d, ha, k1, k2⟩
    · cases hb
  · cases h

/-- The hypotheses of `C70_split` hold. -/
example : ∃ da db, parse b!"a.proto" a' = some (.ok da) ∧ parse b!"a.proto" (joinLines (header da.syntax') b) = some (.ok db) := by
  have h : accepts (joinLines a' b) = true := by decide +kernel
  unfold accepts at h
  split at h
  · rename_i d hd
    have h2 : (match Parse.parseFile a' with | .ok (.ok _) => true | _ => false) = true := by decide +kernel
    split at h2
    · rename_i f hf
      obtain ⟨hx, hp⟩ := Pos.parseFile_iff.1 hf
      obtain ⟨da, db, h3, h4, _⟩ := C70_split hd hx (Pos.treeOf_placed hp) (by decide +kernel) (by decide)
      exact ⟨da, db, h3, h4⟩
    · cases h2
  · cases h

/-- Outside of the aggregate value, `#` is an error, in the first text as well as in both together. -/
example : accepts a = false ∧ accepts (joinLines a b) = false := by decide +kernel

end ConcatDemo
end Verif
