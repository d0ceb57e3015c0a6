import Verif.Proofs.Cpl5
/-! Completeness of the grammar methods: services, statements, files. -/
namespace Verif.Parse
open Lex Verif.Ast Verif.Grammar

section
variable {n fuel : Nat} {e : Bool} [FloatFmt]

/-! ## Services -/

omit [FloatFmt] in
theorem stream_b {β : Type} {Q : β → TS → Prop} {ts rest : List Token} {t : Ast.TypeName} {s : Option Span} {pk : Bool}
    {f : Option Span → Ast.TypeName → Prog β} (hf : n < fuel) (h : StreamG ts t s) (hn : (ts ++ .rightParen :: rest).length ≤ n)
    (hQ : ∀ s' t' pk', er s' = er s → er t' = er t → wpc (f s' t') Q (At' (.rightParen :: rest) pk' false)) :
    wpc (parseStreaming >>= fun s => parseTypeName fuel [.token .rightParen] >>= fun t => f s t) Q
      (At' (ts ++ .rightParen :: rest) pk false) := by
  unfold parseStreaming
  rw [wpc_bind]
  cases h with
  | no h h2 =>
    obtain ⟨c, r, rfl, hc⟩ := typeName_head h
    rw [List.cons_append]
    refine skip_b fun sp => ?_
    dsimp only
    rw [if_neg (noKw_head h2 (by simp)), if_pos hc, wpc_pure, ← List.cons_append]
    exact (parseTypeName_cpl hf).use hn h ⟨_, _, rfl, by simp, by decide⟩ fun v' pk' hv => hQ _ _ _ rfl hv
  | yes h =>
    rw [List.cons_append] at hn ⊢
    refine skip_b fun sp => ?_
    dsimp only
    rw [if_pos rfl]
    refine bump_b rfl (by simp) (by simp) fun _ => ?_
    exact (parseTypeName_cpl hf).use (by simp at hn ⊢; omega) h ⟨_, _, rfl, by simp, by decide⟩ fun v' pk' hv => hQ _ _ _ rfl hv

theorem er_method {a b : Method} (h1 : er a.name = er b.name) (h2 : er a.inputTy = er b.inputTy) (h3 : er a.outputTy = er b.outputTy)
    (h4 : er a.options = er b.options) (h5 : er a.clientStreaming = er b.clientStreaming)
    (h6 : er a.serverStreaming = er b.serverStreaming) : er a = er b := by
  show Method.mk _ _ _ _ _ _ _ _ = Method.mk _ _ _ _ _ _ _ _
  rw [h1, h2, h3, h4, h5, h6]; rfl

theorem methodElem_ne {t s s'} (h : MethodElem t s s') : t ≠ [] := by
  cases h with
  | option h => obtain ⟨_, rfl⟩ := option_head h; simp
  | empty => simp

theorem parseRpc_cpl (hf : n < fuel) : Cpl n false (parseRpc fuel) MethodG Any := by
  intro ts v rest pk Q hn hg hF hQ
  unfold parseRpc
  refine leading_b fun lead => ?_
  obtain ⟨h1, h2, h3, h4⟩ := hg
  rename_i is name ins i cs outs o ss es os c0 sp0
  simp only [List.append_assoc, List.cons_append, List.nil_append] at hn ⊢
  refine expect_b rfl (by simp) (by simp) fun sp => ?_
  refine ident_b h1 fun i' hi => ?_
  refine expect_b rfl (by simp) (by simp) fun _ => ?_
  refine stream_b hf h2 (by simp at hn ⊢; omega) fun cs' it pk' hcs hit => ?_
  refine expect_b rfl (by simp) (by simp) fun _ => ?_
  refine expect_b rfl (by simp) (by simp) fun _ => ?_
  refine expect_b rfl (by simp) (by simp) fun _ => ?_
  refine stream_b hf h3 (by simp at hn ⊢; omega) fun ss' ot pk' hss hot => ?_
  refine expect_b rfl (by simp) (by simp) fun _ => ?_
  rw [wpc_bind]
  cases h4 with
  | semi =>
    refine skip_b fun sp => ?_
    dsimp only
    rw [if_pos rfl]
    refine bump_b rfl (by simp) (by simp) fun _ => ?_
    rw [wpc_pure]
    refine trailing_b fun c => ?_
    exact hQ _ _ (er_method hi hit hot rfl hcs hss)
  | @body ts os h =>
    simp only [List.append_assoc, List.cons_append, List.nil_append] at hn ⊢
    refine skip_b fun sp => ?_
    dsimp only
    rw [if_neg (by decide), if_pos rfl]
    refine bump_b rfl (by simp) (by simp) fun _ => ?_
    refine elems_loop (n := n) ?_ (fun _ _ _ h => methodElem_ne h) h (by simp at hn ⊢; omega) hf ?_
    · intro t s s' s1 rest pk R h he hl hR
      unfold methodOptionStep
      cases h with
      | option h =>
        obtain ⟨us, hus⟩ := option_head h
        rw [show t ++ rest = kw b!"option" :: (us ++ rest) by rw [hus]; rfl]
        refine peek_b fun sp => ?_
        dsimp only
        rw [if_pos rfl, ← List.cons_append, ← hus]
        refine (parseOption_cpl hf).use hl h trivial fun o pk' ho => ?_
        exact hR _ _ (er_snoc he ho)
      | empty =>
        refine peek_b fun sp => ?_
        dsimp only
        rw [if_neg (by decide), if_neg (by decide), if_pos rfl]
        exact bump_b rfl (by simp) (by simp) fun _ => hR _ _ he
    · intro s2 pk he
      unfold methodOptionStep
      refine peek_b fun sp => ?_
      dsimp only
      rw [if_neg (by decide), if_pos rfl]
      refine bump_b rfl (by simp) (by simp) fun _ => ?_
      show wpc (Prog.trailing lead >>= _) _ _
      refine trailing_b fun c => ?_
      exact hQ _ _ (er_method hi hit hot he hcs hss)

theorem method_head {ts : List Token} {r : Method} (h : MethodG ts r) : ∃ us, ts = kw b!"rpc" :: us := by
  cases h; exact ⟨_, rfl⟩

theorem serviceElem_ne {t s s'} (h : ServiceElem t s s') : t ≠ [] := by
  cases h with
  | option h => obtain ⟨_, rfl⟩ := option_head h; simp
  | method h => obtain ⟨_, rfl⟩ := method_head h; simp
  | empty => simp

theorem parseService_cpl (hf : n < fuel) : Cpl n false (parseService fuel) ServiceG Any := by
  intro ts v rest pk Q hn hg hF hQ
  unfold parseService
  refine leading_b fun lead => ?_
  obtain ⟨h1, h2⟩ := hg
  rename_i is name ts os ms c0 sp0
  simp only [List.append_assoc, List.cons_append, List.nil_append] at hn ⊢
  refine expect_b rfl (by simp) (by simp) fun sp => ?_
  refine ident_b h1 fun i hi => ?_
  refine expect_b rfl (by simp) (by simp) fun sp2 => ?_
  refine trailing_b fun c => ?_
  rw [wpc_bind]
  refine elems_loop (n := n) ?_ (fun _ _ _ h => serviceElem_ne h) h2 (by simp at hn ⊢; omega) hf ?_
  · intro t s s' s1 rest pk R h he hl hR
    unfold serviceStep
    have e1 := er_fst he
    have e2 := er_snd he
    cases h with
    | option h =>
      obtain ⟨us, hus⟩ := option_head h
      rw [show t ++ rest = kw b!"option" :: (us ++ rest) by rw [hus]; rfl]
      refine peek_b fun sp => ?_
      dsimp only
      rw [if_neg (by decide), if_pos rfl, ← List.cons_append, ← hus]
      refine (parseOption_cpl hf).use hl h trivial fun o pk' ho => ?_
      exact hR _ _ (er_pair (er_snoc e1 ho) e2)
    | method h =>
      obtain ⟨us, hus⟩ := method_head h
      rw [show t ++ rest = kw b!"rpc" :: (us ++ rest) by rw [hus]; rfl]
      refine peek_b fun sp => ?_
      dsimp only
      rw [if_pos rfl, ← List.cons_append, ← hus]
      refine (parseRpc_cpl hf).use hl h trivial fun o pk' ho => ?_
      exact hR _ _ (er_pair e1 (er_snoc e2 ho))
    | empty =>
      refine peek_b fun sp => ?_
      dsimp only
      rw [if_neg (by decide), if_neg (by decide), if_pos rfl]
      exact bump_b rfl (by simp) (by simp) fun _ => hR _ _ he
  · intro s2 pk he
    unfold serviceStep
    refine peek_b fun sp => ?_
    dsimp only
    rw [if_neg (by decide), if_neg (by decide), if_neg (by decide), if_pos rfl]
    refine bump_b rfl (by simp) (by simp) fun _ => ?_
    refine hQ _ _ ?_
    show Service.mk _ _ _ _ _ = Service.mk _ _ _ _ _
    rw [hi, er_fst he, er_snd he]; rfl

/-! ## Packages, imports, syntax -/

omit [FloatFmt] in
theorem parsePackage_cpl (hf : n < fuel) : Cpl n false (parsePackage fuel) PackageG Any := by
  intro ts v rest pk Q hn hg hF hQ
  unfold parsePackage
  refine leading_b fun lead => ?_
  obtain ⟨h1⟩ := hg
  simp only [List.append_assoc, List.cons_append, List.nil_append] at hn ⊢
  refine expect_b rfl (by simp) (by simp) fun sp => ?_
  refine (parseFullIdent_cpl hf).use (by simp at hn ⊢; omega) h1 ⟨_, _, rfl, by simp, by decide⟩ fun i pk' hi => ?_
  refine expect_b rfl (by simp) (by simp) fun sp => ?_
  refine trailing_b fun c => ?_
  refine hQ _ _ ?_
  show Package.mk _ _ _ = Package.mk _ _ _
  rw [hi]; rfl

omit [FloatFmt] in
theorem isValidImport_of {v : Bytes} (h : ImportPath v) : isValidImport v = true := by
  obtain ⟨cs, hne, rfl, h⟩ := h
  unfold isValidImport
  rw [splitAt_joinWith 47 cs hne (fun p hp => (h p hp).2.2.2.2)]
  simp only [Bool.and_eq_true, List.all_eq_true]
  refine ⟨fun c hc => ?_, ?_⟩
  · obtain ⟨h1, h2, h3, h4, _⟩ := h c hc
    simp [h1, h2, h3, h4]
  · cases cs with
    | nil => exact absurd rfl hne
    | cons c cs =>
      obtain ⟨h1, _, _, _, h5⟩ := h c (by simp)
      cases c with
      | nil => exact absurd rfl h1
      | cons x xs =>
        have h6 : x ≠ 47 := by intro hx; exact h5 (by simp [hx])
        have : (joinWith 47 ((x :: xs) :: cs)).head? = some x := by
          cases cs <;> simp [joinWith]
        rw [this]
        simpa using h6

omit [FloatFmt] in
theorem utf8_head {ts : List Token} {v : Bytes} (h : Utf8G ts v) : ∃ w r, ts = .string w :: r := by
  obtain ⟨⟨_, ps, hne, rfl, _⟩, _⟩ := h
  cases ps with
  | nil => exact absurd rfl hne
  | cons p ps => exact ⟨_, _, rfl⟩

omit [FloatFmt] in
theorem parseImport_cpl (hf : n < fuel) : Cpl n false (parseImport fuel) ImportG Any := by
  intro ts v rest pk Q hn hg hF hQ
  unfold parseImport
  refine leading_b fun lead => ?_
  obtain ⟨h1, h2, h3⟩ := hg
  rename_i ks k ts v vsp c0 sp0
  simp only [List.append_assoc, List.cons_append, List.nil_append] at hn ⊢
  refine expect_b rfl (by simp) (by simp) fun start => ?_
  have key : ∀ (k' : Option (ImportKind × Span)) pk, er k' = er k → wpc (parseUtf8String fuel >>= fun x =>
      match x with
      | (value, valueSpan) => (if isValidImport value then pure () else Prog.addError (.invalidImport valueSpan)) >>= fun _ =>
        expectEq .semicolon >>= fun stop => Prog.trailing lead >>= fun comments =>
        pure { kind := k', value := value, valueSpan := valueSpan, comments := comments, span := joinSpan start stop }) Q
      (At' (ts ++ .semicolon :: rest) pk false) := by
    intro k' pk hk
    refine utf8_b hf (by simp at hn ⊢; omega) h2 (noStr_cons (by simp)) fun sp pk' => ?_
    dsimp only
    rw [if_pos (isValidImport_of h3)]
    refine pure_b ?_
    refine expect_b rfl (by simp) (by simp) fun sp => ?_
    refine trailing_b fun c => ?_
    refine hQ _ _ ?_
    show Import.mk _ _ _ _ _ = Import.mk _ _ _ _ _
    rw [hk]; rfl
  rw [wpc_bind]
  obtain ⟨w, r, hts⟩ := utf8_head h2
  cases h1 with
  | none =>
    rw [hts] at key ⊢
    refine skip_b fun sp => ?_
    dsimp only
    rw [if_neg (by simp), if_neg (by simp)]
    exact key none _ rfl
  | weak =>
    refine skip_b fun sp => ?_
    dsimp only
    rw [if_pos rfl]
    refine bump_b rfl (by simp) (by simp) fun _ => ?_
    exact key (some (.weak, _)) _ rfl
  | publ =>
    refine skip_b fun sp => ?_
    dsimp only
    rw [if_neg (by decide), if_pos rfl]
    refine bump_b rfl (by simp) (by simp) fun _ => ?_
    exact key (some (.publ, _)) _ rfl

omit [FloatFmt] in
theorem syntax_b {β : Type} {f : Syntax' × Span × Comments → Prog β} {Q : β → TS → Prop} {ts rest : List Token} {s : Syntax'} {pk : Bool}
    (hf : n < fuel) (hg : SyntaxG ts s) (hn : (ts ++ rest).length ≤ n) (hQ : ∀ sp c pk', wpc (f (s, sp, c)) Q (At' rest pk' false)) :
    wpc (parseSyntax fuel >>= f) Q (At' (ts ++ rest) pk false) := by
  unfold parseSyntax
  rw [wpc_bind]
  refine leading_b fun lead => ?_
  cases hg with
  | @proto2 ts sp0 h =>
    simp only [List.append_assoc, List.cons_append, List.nil_append] at hn ⊢
    refine expect_b rfl (by simp) (by simp) fun start => ?_
    refine equals_b fun _ => ?_
    obtain ⟨w, r, hts⟩ := utf8_head ⟨⟨_, h⟩, by decide⟩
    rw [show ts ++ Token.semicolon :: rest = .string w :: (r ++ .semicolon :: rest) by rw [hts]; rfl]
    refine peek_b fun sp => ?_
    dsimp only
    rw [← List.cons_append, ← hts]
    refine (parseString_cpl hf).use (by simp at hn ⊢; omega) h (noStr_cons (by simp)) fun v pk' hv => ?_
    have hv := er_str.1 hv
    simp only at hv
    rw [if_pos hv]
    refine expect_b rfl (by simp) (by simp) fun sp => ?_
    refine trailing_b fun c => ?_
    exact hQ _ _ _
  | @proto3 ts sp0 h =>
    simp only [List.append_assoc, List.cons_append, List.nil_append] at hn ⊢
    refine expect_b rfl (by simp) (by simp) fun start => ?_
    refine equals_b fun _ => ?_
    obtain ⟨w, r, hts⟩ := utf8_head ⟨⟨_, h⟩, by decide⟩
    rw [show ts ++ Token.semicolon :: rest = .string w :: (r ++ .semicolon :: rest) by rw [hts]; rfl]
    refine peek_b fun sp => ?_
    dsimp only
    rw [← List.cons_append, ← hts]
    refine (parseString_cpl hf).use (by simp at hn ⊢; omega) h (noStr_cons (by simp)) fun v pk' hv => ?_
    have hv := er_str.1 hv
    simp only at hv
    rw [if_neg (by rw [hv]; decide), if_pos hv]
    refine expect_b rfl (by simp) (by simp) fun sp => ?_
    refine trailing_b fun c => ?_
    exact hQ _ _ _

/-! ## Statements -/

/-- The same tree so far. -/
structure SameParts (a : Acc) (p : Parts) : Prop where
  package : er a.package = er p.package
  imports : er a.imports = er p.imports
  options : er a.options = er p.options
  items : er a.items = er p.items

theorem service_head {ts : List Token} {r : Service} (h : ServiceG ts r) : ∃ us, ts = kw b!"service" :: us := by
  cases h; exact ⟨_, rfl⟩
omit [FloatFmt] in
theorem package_head {ts : List Token} {r : Package} (h : PackageG ts r) : ∃ us, ts = kw b!"package" :: us := by
  cases h; exact ⟨_, rfl⟩
omit [FloatFmt] in
theorem import_head {ts : List Token} {r : Import} (h : ImportG ts r) : ∃ us, ts = kw b!"import" :: us := by
  cases h; exact ⟨_, rfl⟩

theorem statement_cpl (hf : n + 1 < fuel) {t rest : List Token} {p p' : Parts} {acc : Acc} {pk : Bool} (h : StatementG t p p')
    (hs : SameParts acc p) (hl : (t ++ rest).length ≤ n + 1) :
    wpc (parseStatement fuel) (fun r st => ∃ st' pk', r = some st' ∧ (acc.add st').2 = none ∧ SameParts (acc.add st').1 p' ∧
      st = At' rest pk' false) (At' (t ++ rest) pk false) := by
  unfold parseStatement
  cases h with
  | package h hp =>
    obtain ⟨us, hus⟩ := package_head h
    rw [show t ++ rest = kw b!"package" :: (us ++ rest) by rw [hus]; rfl]
    refine peek_b fun sp => ?_
    dsimp only
    rw [if_neg (by decide), if_neg (by decide), if_pos rfl, ← List.cons_append, ← hus]
    refine (parsePackage_cpl hf).use hl h trivial fun x pk' hx => ?_
    have ha : acc.package = none := by
      have h1 := hs.package
      rw [hp] at h1
      cases hap : acc.package with
      | none => rfl
      | some q => rw [hap] at h1; cases h1
    refine ⟨_, _, rfl, ?_, ?_, rfl⟩
    · simp only [Acc.add, ha]
    · simp only [Acc.add, ha]
      exact ⟨congrArg some hx, hs.imports, hs.options, hs.items⟩
  | import' h =>
    obtain ⟨us, hus⟩ := import_head h
    rw [show t ++ rest = kw b!"import" :: (us ++ rest) by rw [hus]; rfl]
    refine peek_b fun sp => ?_
    dsimp only
    rw [if_neg (by decide), if_pos rfl, ← List.cons_append, ← hus]
    refine (parseImport_cpl hf).use hl h trivial fun x pk' hx => ?_
    exact ⟨_, _, rfl, rfl, ⟨hs.package, er_snoc hs.imports hx, hs.options, hs.items⟩, rfl⟩
  | option h =>
    obtain ⟨us, hus⟩ := option_head h
    rw [show t ++ rest = kw b!"option" :: (us ++ rest) by rw [hus]; rfl]
    refine peek_b fun sp => ?_
    dsimp only
    rw [if_neg (by decide), if_neg (by decide), if_neg (by decide), if_pos rfl, ← List.cons_append, ← hus]
    refine (parseOption_cpl hf).use hl h trivial fun x pk' hx => ?_
    exact ⟨_, _, rfl, rfl, ⟨hs.package, hs.imports, er_snoc hs.options hx, hs.items⟩, rfl⟩
  | extend h =>
    obtain ⟨us, hus⟩ := extend_head h
    rw [show t ++ rest = kw b!"extend" :: (us ++ rest) by rw [hus]; rfl]
    refine peek_b fun sp => ?_
    dsimp only
    rw [if_neg (by decide), if_neg (by decide), if_neg (by decide), if_neg (by decide), if_pos rfl, ← List.cons_append, ← hus]
    refine (parseExtend_cpl (parseAnyBody_cpl (by omega) (by omega)) hf).use hl h trivial fun x pk' hx => ?_
    exact ⟨_, _, rfl, rfl, ⟨hs.package, hs.imports, hs.options, er_snoc hs.items (congrArg FileItem.extend hx)⟩, rfl⟩
  | message h =>
    obtain ⟨us, hus⟩ := message_head h
    rw [show t ++ rest = kw b!"message" :: (us ++ rest) by rw [hus]; rfl]
    refine peek_b fun sp => ?_
    dsimp only
    rw [if_neg (by decide), if_neg (by decide), if_neg (by decide), if_neg (by decide), if_neg (by decide), if_pos rfl,
      ← List.cons_append, ← hus]
    refine (parseMessage_cpl (parseAnyBody_cpl (by omega) (by omega))).use hl h trivial fun x pk' hx => ?_
    exact ⟨_, _, rfl, rfl, ⟨hs.package, hs.imports, hs.options, er_snoc hs.items (congrArg FileItem.message hx)⟩, rfl⟩
  | enum h =>
    obtain ⟨us, hus⟩ := enum_head h
    rw [show t ++ rest = kw b!"enum" :: (us ++ rest) by rw [hus]; rfl]
    refine peek_b fun sp => ?_
    dsimp only
    rw [if_neg (by decide), if_neg (by decide), if_neg (by decide), if_neg (by decide), if_neg (by decide), if_neg (by decide), if_pos rfl,
      ← List.cons_append, ← hus]
    refine (parseEnum_cpl hf).use hl h trivial fun x pk' hx => ?_
    exact ⟨_, _, rfl, rfl, ⟨hs.package, hs.imports, hs.options, er_snoc hs.items (congrArg FileItem.enum hx)⟩, rfl⟩
  | service h =>
    obtain ⟨us, hus⟩ := service_head h
    rw [show t ++ rest = kw b!"service" :: (us ++ rest) by rw [hus]; rfl]
    refine peek_b fun sp => ?_
    dsimp only
    rw [if_neg (by decide), if_neg (by decide), if_neg (by decide), if_neg (by decide), if_neg (by decide), if_neg (by decide),
      if_neg (by decide), if_pos rfl, ← List.cons_append, ← hus]
    refine (parseService_cpl hf).use hl h trivial fun x pk' hx => ?_
    exact ⟨_, _, rfl, rfl, ⟨hs.package, hs.imports, hs.options, er_snoc hs.items (congrArg FileItem.service hx)⟩, rfl⟩
  | empty =>
    refine peek_b fun sp => ?_
    dsimp only
    rw [if_pos rfl]
    refine bump_b rfl (by simp) (by simp) fun _ => ?_
    exact ⟨_, _, rfl, rfl, ⟨hs.package, hs.imports, hs.options, hs.items⟩, rfl⟩

theorem statement_ne {t : List Token} {p p' : Parts} (h : StatementG t p p') : t ≠ [] := by
  cases h with
  | package h => obtain ⟨_, rfl⟩ := package_head h; simp
  | import' h => obtain ⟨_, rfl⟩ := import_head h; simp
  | option h => obtain ⟨_, rfl⟩ := option_head h; simp
  | extend h => obtain ⟨_, rfl⟩ := extend_head h; simp
  | message h => obtain ⟨_, rfl⟩ := message_head h; simp
  | enum h => obtain ⟨_, rfl⟩ := enum_head h; simp
  | service h => obtain ⟨_, rfl⟩ := service_head h; simp
  | empty => simp

theorem statement_end {pk : Bool} :
    wpc (parseStatement fuel) (fun r st => r = none ∧ st = At' [] false false) (At' [] pk false) := by
  unfold parseStatement
  rw [wpc_bind, wpc_peek_nil]
  exact ⟨rfl, rfl⟩

/-- The loop over the statements of a file. -/
theorem fileLoop_cpl {L : Nat} {K : Prop} (hf : n + 1 < fuel) : ∀ (ts : List Token) (p p' : Parts), Many StatementG ts p p' →
    ∀ (acc : Acc) (s : PState) (pk : Bool) (k : Nat), SameParts acc p → ts.length ≤ n + 1 → ts.length < k → Rc L K s (At' ts pk false) →
    ∃ acc' s', P.fileLoop fuel k acc s = (.ok acc', s') ∧ SameParts acc' p' ∧ Rc L K s' (At' [] false false) := by
  intro ts p p' hm
  induction hm with
  | nil =>
    intro acc s pk k hs hl hk hR
    cases k with
    | zero => omega
    | succ k =>
      obtain ⟨r, s', st', e1, hR', rfl, rfl⟩ := run_complete _ hR (statement_end (fuel := fuel))
      refine ⟨acc, s', ?_, hs, hR'⟩
      unfold P.fileLoop
      rw [e1]
  | @cons t ts p p1 p' h1 h2 ih =>
    intro acc s pk k hs hl hk hR
    cases k with
    | zero => omega
    | succ k =>
      obtain ⟨r, s', st', e1, hR', st'', pk', rfl, hadd, hs', rfl⟩ := run_complete _ hR (statement_cpl hf h1 hs hl)
      have hne : 0 < t.length := List.length_pos_iff.2 (statement_ne h1)
      rw [List.length_append] at hl hk
      obtain ⟨acc', s2, e2, hs2, hR2⟩ := ih (acc.add st'').1 s' pk' k hs' (by omega) (by omega) hR'
      refine ⟨acc', s2, ?_, hs2, hR2⟩
      unfold P.fileLoop
      rw [e1]
      dsimp only
      rcases ha : acc.add st'' with ⟨a1, a2⟩
      rw [ha] at hadd e2
      simp only at hadd
      subst hadd
      exact e2

end
end Verif.Parse
