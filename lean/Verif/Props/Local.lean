import Verif.Props.Rules
import Verif.Proofs.ErDesc
import Verif.Proofs.Demo
/-!
C68: the top-level declarations of a file are treated independently of each other: the diagnostics are those of each
declaration by itself, in the order of the declarations, and then those of the options of the file; the descriptor is put
together from what each declaration gives by itself; the name of the file is only copied.
-/
namespace Verif
open Verif.Spec Verif.Ast Verif.Gen Verif.Places

/-- The file with only one declaration left: same syntax, no options. -/
def Spec.only (f : Ast.File) (x : FileItem) : Ast.File := { f with items := [x], options := [] }

/-- The file with no declaration left, only its options. -/
def Spec.bareFile (f : Ast.File) : Ast.File := { f with items := [] }

section
variable {f g : Ast.File}

theorem msgWritten_mono (hi : ∀ x ∈ g.items, x ∈ f.items) {s} (h : MsgWritten g s) : MsgWritten f s := by
  induction h with
  | top h =>
    obtain ⟨x, hx, h⟩ := List.mem_flatMap.1 h
    exact .top (List.mem_flatMap.2 ⟨x, hi x hx, h⟩)
  | nested _ hb hs ih => exact .nested ih hb hs

theorem fieldWritten_mono (hi : ∀ x ∈ g.items, x ∈ f.items) {pl x} (h : FieldWritten g pl x) : FieldWritten f pl x := by
  cases h with
  | field hb h => obtain ⟨s, h1, h2⟩ := hb; exact .field ⟨s, msgWritten_mono hi h1, h2⟩ h
  | ext hb h => obtain ⟨s, h1, h2⟩ := hb; exact .ext ⟨s, msgWritten_mono hi h1, h2⟩ h
  | fileExt h =>
    obtain ⟨y, hy, h⟩ := List.mem_flatMap.1 h
    exact .fileExt (List.mem_flatMap.2 ⟨y, hi y hy, h⟩)

theorem sub_violations [FloatFmt] {src : Bytes} (ht : TreeOf src f) (hin : f.In src.length)
    (hs : g.syntax' = f.syntax') (hi : ∀ x ∈ g.items, x ∈ f.items) {k} : k ∈ fileErrs g ↔ Violation g k := by
  refine file_violation ?_
  intro pl x k hf
  obtain ⟨p, d, hat⟩ := fieldWritten_at (fieldWritten_mono hi hf)
  have hx := (fieldAt_in hin hat).2
  have ho : optListIn 0 src.length x.options := by
    rcases x with ⟨l, n, kd, nu, o, c, sp⟩; exact hx.2.2.2.2.1
  rw [hs]
  exact mem_ownErrs ho fun o ho i hi => default_int_lt ht hat ho hi

end

section
variable [FloatFmt] [LocSort]

/-- C68: the diagnostics for a source that has a syntax tree are, in this order, those of the first top-level declaration,
of the second, and so on, and then those of the options of the file; and those of a declaration are the violations in a
file that has nothing but this declaration (and the same syntax). -/
theorem C68_diagnostics {name src : Bytes} {e : ParseError} (h : parse name src = some (.error e))
    (hl : src.length ≤ 2147483647) (hx : lexOk src = true) {f : Ast.File} (hp : PlacedTree src f) :
    ∃ (parts : List (List ParseErrorKind)) (last : List ParseErrorKind),
      e.kinds = parts.flatten ++ last ∧ parts.length = f.items.length ∧
      (∀ (i : Nat) x part, f.items[i]? = some x → parts[i]? = some part → ∀ k, k ∈ part ↔ Violation (only f x) k) ∧
      ∀ k, k ∈ last ↔ Violation (bareFile f) k := by
  have hf := Pos.parseFile_iff.2 ⟨hx, hp⟩
  have ht := Pos.treeOf_placed hp
  have hin := placed_in hx hp
  have hk : e.kinds = fileErrs f := by
    cases he : fileErrs f with
    | nil =>
      obtain ⟨fd, h'⟩ := (parse_of_file (name := name) hl hf).1 he
      rw [h] at h'
      cases h'
    | cons k ks =>
      have := (parse_of_file (name := name) hl hf).2 k ks he
      rw [h] at this
      cases this
      rfl
  refine ⟨f.items.map (fileItemErrs f.syntax'), optsErrs f.options, ?_, by simp, ?_, ?_⟩
  · rw [hk, fileErrs, List.flatMap_def]
  · intro i x part h1 h2 k
    rw [List.getElem?_map, h1] at h2
    cases h2
    have hmem : x ∈ f.items := List.mem_of_getElem? h1
    have := sub_violations (g := only f x) ht hin rfl (fun y hy => by rw [List.mem_singleton.1 hy]; exact hmem) (k := k)
    rw [← this]
    simp [fileErrs, only, optsErrs]
  · intro k
    have := sub_violations (g := bareFile f) ht hin rfl (fun y hy => nomatch hy) (k := k)
    rw [← this]
    simp [fileErrs, bareFile]

theorem itemsMsgs_flatMap (s) : ∀ xs : List FileItem, itemsMsgs s xs = xs.flatMap fun x => itemsMsgs s [x]
  | [] => rfl
  | x :: xs => by
    rw [List.flatMap_cons, ← itemsMsgs_flatMap s xs]
    cases x <;> simp [itemsMsgs]

theorem fileEnums_flatMap : ∀ xs : List FileItem, Gen.fileEnums xs = xs.flatMap fun x => Gen.fileEnums [x]
  | [] => rfl
  | x :: xs => by
    rw [List.flatMap_cons, ← fileEnums_flatMap xs]
    cases x <;> simp [Gen.fileEnums]

theorem fileServices_flatMap : ∀ xs : List FileItem, Gen.fileServices xs = xs.flatMap fun x => Gen.fileServices [x]
  | [] => rfl
  | x :: xs => by
    rw [List.flatMap_cons, ← fileServices_flatMap xs]
    cases x <;> simp [Gen.fileServices]

theorem fileExts_flatMap (s) : ∀ xs : List FileItem, Gen.fileExts s xs = xs.flatMap fun x => Gen.fileExts s [x]
  | [] => rfl
  | x :: xs => by
    rw [List.flatMap_cons, ← fileExts_flatMap s xs]
    cases x <;> simp [Gen.fileExts]

/-- C68: the messages, enums, services and extensions of a file are what its declarations give one by one, in their
order, where what a declaration gives depends on the declaration (without its positions and comments) and the syntax of
the file and on nothing else — not on its neighbours, the package, the imports, the options or the name of the file. The
options of the file depend on the option statements, in their order, and on nothing else. -/
theorem C68_assembled :
    ∃ (msgs : Syntax' → FileItem → List DescriptorProto) (enums : FileItem → List EnumDescriptorProto)
      (servs : FileItem → List ServiceDescriptorProto) (exts : Syntax' → FileItem → List FieldDescriptorProto)
      (opt : Opt → UninterpretedOption),
      ∀ {name src : Bytes} {fd : FileDescriptorProto} {f : Ast.File}, parse name src = some (.ok fd) → TreeOf src f →
        fd.messageType = f.items.flatMap (fun x => msgs f.syntax' (er x)) ∧
        fd.enumType = f.items.flatMap (fun x => enums (er x)) ∧
        fd.service = f.items.flatMap (fun x => servs (er x)) ∧
        fd.extension = f.items.flatMap (fun x => exts f.syntax' (er x)) ∧
        fd.options = (match f.options with | [] => none | o :: os => some ((o :: os).map (fun o => opt (er o)))) := by
  refine ⟨fun s x => itemsMsgs s [x], fun x => Gen.fileEnums [x], fun x => Gen.fileServices [x],
    fun s x => Gen.fileExts s [x], fun o => optionDesc o.body, ?_⟩
  intro name src fd f h ht
  have hm := (made_of_tree h ht).desc
  have e1 : ∀ x : FileItem, [er x] = er [x] := fun _ => rfl
  simp only [e1, itemsMsgs_er, fileEnums_er, fileServices_er, fileExts_er]
  refine ⟨?_, ?_, ?_, ?_, ?_⟩
  · rw [← itemsMsgs_flatMap]; exact congrArg FileDescriptorProto.messageType hm
  · rw [← fileEnums_flatMap]; exact congrArg FileDescriptorProto.enumType hm
  · rw [← fileServices_flatMap]; exact congrArg FileDescriptorProto.service hm
  · rw [← fileExts_flatMap]; exact congrArg FileDescriptorProto.extension hm
  · have := congrArg FileDescriptorProto.options hm
    refine this.trans ?_
    show nonEmpty (optsDesc f.options) = _
    have e2 : ∀ o : Opt, optionDesc (er o).body = optionDesc o.body := fun o => option_er o.body
    cases f.options with
    | nil => rfl
    | cons o os =>
      simp only [e2]
      rfl

/-- C68: a file that consists of declarations and options of an accepted file, with the same syntax, is accepted. -/
theorem C68_subset {name name' src src' : Bytes} {fd : FileDescriptorProto} {f g : Ast.File}
    (h : parse name src = some (.ok fd)) (hf : TreeOf src f) (hl : src'.length ≤ 2147483647) (hx : lexOk src' = true)
    (hg : TreeOf src' g) (hs : g.syntax' = f.syntax') (hi : ∀ x ∈ g.items, ∃ y ∈ f.items, er x = er y)
    (ho : ∀ x ∈ g.options, ∃ y ∈ f.options, er x = er y) : ∃ fd', parse name' src' = some (.ok fd') := by
  refine parse_accepts.2 ⟨hl, hx, g, hg, ?_⟩
  have hn := (made_of_tree h hf).noErrs
  have key : ∀ (s : Syntax') {x y : FileItem}, er x = er y → fileItemErrs s y = [] → fileItemErrs s x = [] := by
    intro s x y e hy
    have h1 := fileErrs_er { g with syntax' := s, items := [x], options := [] }
    have h2 := fileErrs_er { g with syntax' := s, items := [y], options := [] }
    have e' : er ({ g with syntax' := s, items := [x], options := [] } : Ast.File)
        = er ({ g with syntax' := s, items := [y], options := [] } : Ast.File) := by
      show ({ er g with syntax' := s, items := [er x], options := [] } : Ast.File) = { er g with syntax' := s, items := [er y], options := [] }
      rw [e]
    rw [e', h2] at h1
    simp only [fileErrs, optsErrs, List.flatMap_cons, List.flatMap_nil, List.append_nil] at h1
    exact h1.1 hy
  have hn' := List.append_eq_nil_iff.1 hn
  refine List.append_eq_nil_iff.2 ⟨List.flatMap_eq_nil_iff.2 fun x hx => ?_, List.flatMap_eq_nil_iff.2 fun x hx => ?_⟩
  · obtain ⟨y, hy, e⟩ := hi x hx
    rw [hs]
    exact key _ e (List.flatMap_eq_nil_iff.1 hn'.1 y hy)
  · obtain ⟨y, hy, e⟩ := ho x hx
    have h1 := optionErrs_er x.body
    have h2 := optionErrs_er y.body
    have e' : er x.body = er y.body := congrArg Opt.body e
    rw [e', h2] at h1
    exact h1.1 (List.flatMap_eq_nil_iff.1 hn'.2 y hy)

theorem flatMap_perm {α β : Type} (F : α → List β) {xs ys : List α} (h : xs.Perm ys) : (xs.flatMap F).Perm (ys.flatMap F) := by
  induction h with
  | nil => exact .refl _
  | cons x _ ih => rw [List.flatMap_cons, List.flatMap_cons]; exact .append_left _ ih
  | swap x y l =>
    simp only [List.flatMap_cons, ← List.append_assoc]
    exact .append_right _ List.perm_append_comm
  | trans _ _ h1 h2 => exact h1.trans h2

/-- C68: writing the same declarations in another order gives the same descriptors in another order. -/
theorem C68_reorder {name name' src src' : Bytes} {fd : FileDescriptorProto} {f g : Ast.File}
    (h : parse name src = some (.ok fd)) (hf : TreeOf src f) (hl : src'.length ≤ 2147483647) (hx : lexOk src' = true)
    (hg : TreeOf src' g) (hs : g.syntax' = f.syntax') (hi : (er g.items).Perm (er f.items))
    (ho : er g.options = er f.options) :
    ∃ fd', parse name' src' = some (.ok fd') ∧ fd'.messageType.Perm fd.messageType ∧ fd'.enumType.Perm fd.enumType ∧
      fd'.service.Perm fd.service ∧ fd'.extension.Perm fd.extension ∧ fd'.options = fd.options := by
  have mem : ∀ {α : Type} [Erase α] {xs ys : List α}, (∀ z ∈ er xs, z ∈ er ys) → ∀ x ∈ xs, ∃ y ∈ ys, er x = er y := by
    intro α _ xs ys h x hx
    obtain ⟨y, hy, e⟩ := List.mem_map.1 (h (er x) (List.mem_map.2 ⟨x, hx, rfl⟩))
    exact ⟨y, hy, e.symm⟩
  obtain ⟨fd', h'⟩ := C68_subset (name' := name') h hf hl hx hg hs (mem fun z hz => hi.mem_iff.1 hz)
    (mem fun z hz => ho ▸ hz)
  obtain ⟨msgs, enums, servs, exts, opt, hall⟩ := C68_assembled
  obtain ⟨a1, a2, a3, a4, a5⟩ := hall h hf
  obtain ⟨b1, b2, b3, b4, b5⟩ := hall h' hg
  have perm : ∀ {β : Type} (F : FileItem → List β), (g.items.flatMap fun x => F (er x)).Perm (f.items.flatMap fun x => F (er x)) := by
    intro β F
    have := flatMap_perm F hi
    simpa only [er_list, List.flatMap_map] using this
  refine ⟨fd', h', ?_, ?_, ?_, ?_, ?_⟩
  · rw [a1, b1, hs]; exact perm _
  · rw [a2, b2]; exact perm _
  · rw [a3, b3]; exact perm _
  · rw [a4, b4, hs]; exact perm _
  · rw [a5, b5]
    cases hgo : g.options <;> cases hfo : f.options <;> rw [hgo, hfo] at ho
    · simp [er_list] at ho
    · simp [er_list] at ho
    · refine congrArg some ?_
      have := congrArg (List.map opt) ho
      simpa only [er_list, List.map_map, Function.comp_def] using this

/-- C68: the name under which a source is parsed is copied to the descriptor or to the error, and has no other effect. -/
theorem C68_name (name name' src : Bytes) :
    (∀ fd, parse name src = some (.ok fd) → parse name' src = some (.ok { fd with name := some name' })) ∧
    ∀ e, parse name src = some (.error e) → parse name' src = some (.error { e with file := name' }) := by
  constructor
  · intro fd h
    obtain ⟨f, ts, hp⟩ := parsed_of_ok h
    obtain ⟨fd', h'⟩ := (parse_of_file (name := name') hp.len hp.run).1 hp.noErrs
    obtain ⟨f2, ts2, hp2⟩ := parsed_of_ok h'
    have e : f2 = f := by have := hp2.run; rw [hp.run] at this; cases this; rfl
    rw [h', hp2.desc, hp.desc, e]
    rfl
  · intro e h
    by_cases hlen : src.length > maxParseLen
    · unfold parse at h ⊢
      rw [if_pos hlen] at h ⊢
      cases h
      rfl
    · have hl : src.length ≤ 2147483647 := Nat.le_of_not_lt hlen
      cases hf : Parse.parseFile src with
      | ok r =>
        cases r with
        | ok f =>
          cases he : fileErrs f with
          | nil =>
            obtain ⟨fd, h'⟩ := (parse_of_file (name := name) hl hf).1 he
            rw [h] at h'
            cases h'
          | cons k ks =>
            have h1 := (parse_of_file (name := name) hl hf).2 k ks he
            have h2 := (parse_of_file (name := name') hl hf).2 k ks he
            rw [h] at h1
            cases h1
            exact h2
        | error errs =>
          unfold parse at h ⊢
          rw [if_neg hlen, hf] at h ⊢
          cases errs with
          | nil => cases h
          | cons k ks => cases h; rfl
      | _ => unfold parse at h; rw [if_neg hlen, hf] at h; cases h

end

/-! ## A concrete case -/
namespace LocalDemo
open Demo

/-- Two bad declarations and a bad option of the file; the second declaration has two violations. -/
def bad : Bytes := b!"message A { oneof x {} } enum E { V = 0; } message B { int32 y = 0; } option o = -x;"

/-- The diagnostics are those of `A`, of `E` (none), of `B` (two), and then that of the option. -/
example : ∃ e f, ∃ parts : List (List ParseErrorKind), ∃ last, parse b!"a.proto" bad = some (.error e) ∧ PlacedTree bad f ∧ e.kinds = parts.flatten ++ last ∧
    parts.length = 3 ∧ (parts.flatten ++ last).length = 4 ∧
    (∀ (i : Nat) x part, f.items[i]? = some x → parts[i]? = some part → ∀ k, k ∈ part ↔ Violation (only f x) k) ∧
    ∀ k, k ∈ last ↔ Violation (bareFile f) k := by
  have hb : (match Parse.parseFile bad with | .ok (.ok f) => f.items.length == 3 | _ => false) = true := by decide +kernel
  split at hb
  · rename_i f hf
    obtain ⟨hx, hp⟩ := Pos.parseFile_iff.1 hf
    have hr : rejects bad = true := by decide +kernel
    unfold rejects at hr
    split at hr
    · rename_i e he
      obtain ⟨parts, last, h1, h2, h3, h4⟩ := C68_diagnostics he (by decide +kernel) hx hp
      have hk : (kindsOf bad).length = 4 := by decide +kernel
      have hk' : kindsOf bad = e.kinds := by unfold kindsOf; rw [he]
      refine ⟨e, f, parts, last, he, hp, h1, h2.trans (by simpa using hb), ?_, h3, h4⟩
      rw [← h1, ← hk', hk]
    · cases hr
  · cases hb

/-- The same declarations in another order, and in other places. -/
def one : Bytes := b!"enum A { V = 0; W = 1; } enum B { X = 5; } service S { rpc Get (A) returns (stream B); }"
def two : Bytes := b!"// moved\nservice S { rpc Get (A) returns (stream B); }\nenum B { X = 5; }  enum A { V = 0; W = 1; }"

theorem one_two : (match Parse.parseFile one, Parse.parseFile two with
    | .ok (.ok f), .ok (.ok g) =>
      (match f.items, g.items with
      | [.enum a, .enum b, .service s], [.service s', .enum b', .enum a'] =>
        decide (er a' = er a ∧ er b' = er b ∧ er s' = er s ∧ g.syntax' = f.syntax' ∧ er g.options = er f.options)
      | _, _ => false)
    | _, _ => false) = true := by decide +kernel

/-- The hypotheses of `C68_reorder` (and so of `C68_subset` and `C68_assembled`) hold. -/
example : ∃ fd fd', parse b!"a.proto" one = some (.ok fd) ∧ parse b!"b.proto" two = some (.ok fd') ∧
    fd'.enumType.Perm fd.enumType ∧ fd'.service.Perm fd.service := by
  have h := one_two
  split at h
  · rename_i f g hf hg
    split at h
    · rename_i a b s s' b' a' hi hi'
      obtain ⟨e1, e2, e3, h2, h3⟩ := of_decide_eq_true h
      have ha : accepts one = true := by decide +kernel
      unfold accepts at ha
      split at ha
      · rename_i fd hfd
        have ht := Pos.treeOf_placed (Pos.parseFile_iff.1 hf).2
        obtain ⟨hx, hp⟩ := Pos.parseFile_iff.1 hg
        have hrev : er g.items = (er f.items).reverse := by
          rw [hi, hi']
          show [FileItem.service (er s'), .enum (er b'), .enum (er a')] = [.service (er s), .enum (er b), .enum (er a)]
          rw [e1, e2, e3]
        obtain ⟨fd', h', hm, h5, h6, _⟩ := C68_reorder (name' := b!"b.proto") hfd ht (by decide +kernel) hx
          (Pos.treeOf_placed hp) h2 (hrev ▸ List.reverse_perm _) h3
        exact ⟨fd, fd', hfd, h', h5, h6⟩
      · cases ha
    · cases h
  · cases h

end LocalDemo
end Verif
