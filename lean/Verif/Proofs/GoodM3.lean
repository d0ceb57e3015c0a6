import Verif.Proofs.GoodM2
/-! Every grammar method takes what its messages ask for: the rest of the methods. -/
namespace Verif.Exec
open Parse Prog Spec

section
variable [FloatFmt]

/-- Then a result is returned, or the parser panics. -/
theorem GoodT.pass {α β : Type} {T} {p : Prog α} {f : α → Prog β} (h : GoodT T p) (hf : ∀ a, (∃ b, f a = pure b) ∨ f a = .panicked) :
    GoodT T (p >>= f) := by
  refine ⟨fun {γ} K hK hT => ?_⟩
  rw [bind_assoc']
  refine h.run _ (fun a => ?_) fun a t ht => ?_
  · rcases hf a with ⟨b, hb⟩ | hb <;> rw [hb]
    · exact hK b
    · exact ⟨⟨nofun, nofun⟩, trivial⟩
  · rcases hf a with ⟨b, hb⟩ | hb <;> rw [hb]
    · exact hT b t ht
    · exact .inr rfl

/-- A name and the token after it, then the rest. -/
theorem terms_tok {c : Token} (x : Bytes) (hx : spelling c = some x) (h : alternatives (Expect.render (.oneOf [.token .dot, .token c])) = [b!"'.'", b!"'" ++ x ++ b!"'"]) :
    MeansTerms .dot [.token c] :=
  means_of h fun w hw => by
    simp only [List.mem_cons, List.not_mem_nil, or_false] at hw
    rcases hw with rfl | rfl
    · exact meansW_tok .dot b!"." rfl (.inl rfl)
    · refine meansW_tok c x hx (.inr ?_)
      show (c == c || false) = true
      simp

theorem terms_comma : MeansTerms .dot [.token .comma] := terms_tok b!"," rfl rfl
theorem terms_rightAngle : MeansTerms .dot [.token .rightAngle] := terms_tok b!">" rfl rfl
theorem terms_leftBrace : MeansTerms .dot [.token .leftBrace] := terms_tok b!"{" rfl rfl
theorem terms_semicolon : MeansTerms .dot [.token .semicolon] := terms_tok b!";" rfl rfl
theorem terms_identT {t : Token} (h : Terms [.ident] t) : ∃ s, t = .ident s := by
  cases t <;> first | exact ⟨_, rfl⟩ | cases h
theorem terms_ident : MeansTerms .dot [.ident] :=
  means_of (ws := [b!"'.'", b!"an identifier"]) (by rfl) fun w hw => by
    simp only [List.mem_cons, List.not_mem_nil, or_false] at hw
    rcases hw with rfl | rfl
    · exact meansW_tok .dot b!"." rfl (.inl rfl)
    · exact meansW_ident.mono fun _ ⟨s, h⟩ => by subst h; exact .inr rfl

theorem good_parseFieldType {n terms} (m : MeansTerms .dot terms) (hd : ¬ Terms terms .dot) : GoodT (Terms terms) (parseFieldType n terms) := by
  unfold parseFieldType
  refine good_peek says_fieldType (fun x => ?_) (.inr rfl)
  dsimp only
  split
  · exact br_take (good_bump.bind fun _ => good_pure) (.inl rfl)
  · split
    · rename_i h
      refine br_take (GoodT.pass (good_parseTypeName m hd) fun a => ?_) (takes_parseTypeName h).bind
      cases a.span with
      | none => exact .inr rfl
      | some sp => exact .inl ⟨_, rfl⟩
    · exact br_blame (by assumption)

theorem takes_parseFieldType {n terms t} (h : IsTy t) : Takes t (parseFieldType n terms) := by
  unfold parseFieldType Takes
  have e : ∀ {α : Type} (f : Option (Token × Span) → Prog α), fate t (peek >>= f) = fate t (f (some (t, sp0))) := fun _ => rfl
  rw [e]
  dsimp only
  cases scalarTy t with
  | some ty => exact .inl rfl
  | none =>
    dsimp only
    rw [if_pos h]
    exact (takes_parseTypeName h).bind

theorem blame_parseFieldType {n terms t} (h : ¬ IsTy t) : fate t (parseFieldType n terms) = .blamed Says.fieldType t := by
  unfold parseFieldType
  have e : ∀ {α : Type} (f : Option (Token × Span) → Prog α), fate t (peek >>= f) = fate t (f (some (t, sp0))) := fun _ => rfl
  have hs : scalarTy t = none := by
    cases t <;> first | exact absurd rfl h | rfl
  rw [e]
  dsimp only
  rw [hs]
  dsimp only
  rw [if_neg h]
  rfl

/-- `= number [options] ;` and the rest. -/
theorem GoodT.num {α : Type} {T} {f : Ast.Int' → Prog α} (hf : ∀ a, GoodT T (f a)) : GoodT T (expectEq .equals >>= fun _ => parseInt >>= f) :=
  GoodT.eq one_equals fun _ => good_parseInt.bind hf

theorem good_parseMap {n lead start label} : GoodM (parseMap n lead start label) := by
  unfold parseMap
  refine GoodT.eq one_map fun _ => GoodT.eq one_leftAngle fun _ => ?_
  refine GoodT.bind (good_parseFieldType terms_comma (by decide)) (fun _ => ?_) fun a t ht => ?_
  · refine GoodT.eq one_comma fun _ => ?_
    refine GoodT.bind (good_parseFieldType terms_rightAngle (by decide)) (fun _ => ?_) fun a t ht => ?_
    · refine GoodT.eq one_rightAngle fun _ => good_parseIdent.bind fun _ => GoodT.num fun _ => ?_
      exact GoodT.opts term_semicolon one_semicolon fun _ _ => GoodT.trail fun _ => good_pure
    · cases terms_one ht
      exact takes_expectEq.bind
  · cases terms_one ht
    exact takes_expectEq.bind

theorem good_parseGroup {body : Prog (Ast.MessageBody × Span)} {n lead start label} (hb : GoodM body) : GoodM (parseGroup body n lead start label) := by
  unfold parseGroup
  refine GoodT.eq one_group fun _ => good_parseIdent.bind fun a => ?_
  refine GoodM.bind (f := fun _ => _) ?_ fun _ => GoodT.num fun _ => ?_
  · split
    · exact good_pure
    · exact good_addError rfl rfl
  · exact GoodT.opts term_leftBrace one_leftBrace fun _ _ => GoodT.trail fun _ => hb.bind fun _ => good_pure

theorem good_parseNormalField {n lead start label} : GoodM (parseNormalField n lead start label) := by
  unfold parseNormalField
  refine GoodT.bind (good_parseFieldType terms_ident (by decide)) (fun _ => ?_) fun a t ht => ?_
  · refine good_parseIdent.bind fun _ => GoodT.num fun _ => ?_
    exact GoodT.opts term_semicolon one_semicolon fun _ _ => GoodT.trail fun _ => good_pure
  · obtain ⟨s, rfl⟩ := terms_identT ht
    exact takes_parseIdent.bind

theorem good_parseLabel : GoodT IsTy parseLabel := by
  unfold parseLabel
  refine good_peek says_field (fun x => ?_) (.inr rfl)
  dsimp only
  (repeat' split) <;> first
    | exact br_take (good_bump.bind fun _ => good_pure) (.inl rfl)
    | exact br_pure (by assumption)
    | exact br_blame (by assumption)

theorem good_parseField {body : Prog (Ast.MessageBody × Span)} {n} (hb : GoodM body) : GoodM (parseField body n) := by
  unfold parseField
  refine GoodT.lead fun _ => GoodT.bind good_parseLabel (fun a => ?_) fun a t ht => ?_
  · refine good_peek says_fieldType (fun x => ?_) (.inl ⟨good_parseNormalField, rfl⟩)
    dsimp only
    split
    · rename_i h
      exact br_take good_parseMap (h ▸ takes_expectEq.bind)
    · split
      · rename_i h
        exact br_take (good_parseGroup hb) (h ▸ takes_expectEq.bind)
      · by_cases h : IsTy x
        · exact br_take good_parseNormalField (takes_parseFieldType h).bind
        · refine br_blame' h good_parseNormalField ?_
          show fate x (parseFieldType n _ >>= _) = _
          rw [fate_bind, blame_parseFieldType h]
          rfl
  · unfold Takes
    have e : ∀ {α : Type} (f : Option (Token × Span) → Prog α), fate t (peek >>= f) = fate t (f (some (t, sp0))) := fun _ => rfl
    show fate t (peek >>= _) = _ ∨ fate t (peek >>= _) = _
    rw [e]
    dsimp only
    split
    · rename_i h
      exact h ▸ takes_expectEq.bind
    · split
      · rename_i h
        exact h ▸ takes_expectEq.bind
      · exact (takes_parseFieldType ht).bind

theorem takes_parseField {body : Prog (Ast.MessageBody × Span)} {n t} (h : IsTy t) : Takes t (parseField body n) := by
  unfold parseField
  refine takes_leading ?_
  unfold Takes
  rw [fate_bind]
  have hl : fate t parseLabel = .took ∨ ∃ a, fate t parseLabel = .rets a := by
    have e : ∀ {α : Type} (f : Option (Token × Span) → Prog α), fate t (peek >>= f) = fate t (f (some (t, sp0))) := fun _ => rfl
    unfold parseLabel
    rw [e]
    dsimp only
    (repeat' split) <;> first
      | exact .inl rfl
      | exact .inr ⟨_, rfl⟩
      | contradiction
  rcases hl with hl | ⟨a, hl⟩ <;> rw [hl]
  · exact .inl rfl
  · show Takes t _
    unfold Takes
    have e : ∀ {α : Type} (f : Option (Token × Span) → Prog α), fate t (peek >>= f) = fate t (f (some (t, sp0))) := fun _ => rfl
    show fate t (peek >>= _) = _ ∨ fate t (peek >>= _) = _
    rw [e]
    dsimp only
    split
    · rename_i h
      exact h ▸ takes_expectEq.bind
    · split
      · rename_i h
        exact h ▸ takes_expectEq.bind
      · exact (takes_parseFieldType h).bind

theorem good_parseEnumValue {n} : GoodM (parseEnumValue n) := by
  unfold parseEnumValue
  refine GoodT.lead fun _ => good_parseIdent.bind fun _ => GoodT.num fun _ => ?_
  exact GoodT.opts term_semicolon one_semicolon fun _ _ => GoodT.trail fun _ => good_pure

theorem takes_parseEnumValue {n s} : Takes (.ident s) (parseEnumValue n) := takes_leading takes_parseIdent.bind

theorem good_enumStep {n acc} : GoodM (enumStep n acc) := by
  unfold enumStep
  refine good_peek says_enumItem (fun x => ?_) (.inr rfl)
  dsimp only
  split
  · rename_i h
    exact br_take (good_parseOption.bind fun _ => good_pure) (h ▸ takes_parseOption.bind)
  · split
    · rename_i h
      exact br_take (good_parseReserved.bind fun _ => good_pure) (h ▸ takes_parseReserved.bind)
    · split
      · exact br_take (good_bump.bind fun _ => good_pure) (.inl rfl)
      · exact br_take (good_parseEnumValue.bind fun _ => good_pure) takes_parseEnumValue.bind
      · exact br_take (good_bump.bind fun _ => good_pure) (.inl rfl)
      · rename_i h1 h2 h3
        exact br_blame fun h => h.elim (fun ⟨s, h⟩ => h2 s h) h3

theorem good_parseEnum {n} : GoodM (parseEnum n) := by
  unfold parseEnum
  refine GoodT.lead fun _ => GoodT.eq one_enum fun _ => good_parseIdent.bind fun _ => GoodT.eq one_leftBrace fun _ => GoodT.trail fun _ => ?_
  exact GoodM.bind (good_loopM (fun _ => good_enumStep) _ _) fun _ => good_pure
theorem takes_parseEnum {n} : Takes (kw b!"enum") (parseEnum n) := takes_leading takes_expectEq.bind

theorem not_isTy {t : Token} (h1 : t = .dot → False) (h2 : ∀ s, t = .ident s → False) : ¬ IsTy t := by
  intro h
  cases t <;> first | cases h; done | exact h1 rfl | exact h2 _ rfl

theorem good_oneofStep {body : Prog (Ast.MessageBody × Span)} {n acc} (hb : GoodM body) : GoodM (oneofStep body n acc) := by
  unfold oneofStep
  refine good_peek says_oneofItem (fun x => ?_) (.inr rfl)
  dsimp only
  split
  · rename_i h
    exact br_take (good_parseOption.bind fun _ => good_pure) (h ▸ takes_parseOption.bind)
  · split
    · exact br_take (good_bump.bind fun _ => good_pure) (.inl rfl)
    · exact br_take (good_bump.bind fun _ => good_pure) (.inl rfl)
    · exact br_take ((good_parseField hb).bind fun _ => good_pure) (takes_parseField rfl).bind
    · exact br_take ((good_parseField hb).bind fun _ => good_pure) (takes_parseField rfl).bind
    · rename_i h1 h2 h3 h4
      exact br_blame fun h => h.elim (not_isTy h3 h4) h2

theorem good_parseOneof {body : Prog (Ast.MessageBody × Span)} {n} (hb : GoodM body) : GoodM (parseOneof body n) := by
  unfold parseOneof
  refine GoodT.lead fun _ => GoodT.eq one_oneof fun _ => good_parseIdent.bind fun _ => GoodT.eq one_leftBrace fun _ => GoodT.trail fun _ => ?_
  exact GoodM.bind (good_loopM (fun _ => good_oneofStep hb) _ _) fun _ => good_pure
theorem takes_parseOneof {body n} : Takes (kw b!"oneof") (parseOneof body n) := takes_leading takes_expectEq.bind

theorem good_extendStep {body : Prog (Ast.MessageBody × Span)} {n acc} (hb : GoodM body) : GoodM (extendStep body n acc) := by
  unfold extendStep
  refine good_peek says_extendItem (fun x => ?_) (.inr rfl)
  dsimp only
  split
  · exact br_take (good_bump.bind fun _ => good_pure) (.inl rfl)
  · exact br_take (good_bump.bind fun _ => good_pure) (.inl rfl)
  · exact br_take ((good_parseField hb).bind fun _ => good_pure) (takes_parseField rfl).bind
  · exact br_take ((good_parseField hb).bind fun _ => good_pure) (takes_parseField rfl).bind
  · rename_i h1 h2 h3 h4
    refine br_blame ?_
    rintro (h | h | h)
    · exact not_isTy h3 h4 h
    · exact h2 h
    · exact h1 h

theorem good_parseExtend {body : Prog (Ast.MessageBody × Span)} {n} (hb : GoodM body) : GoodM (parseExtend body n) := by
  unfold parseExtend
  refine GoodT.lead fun _ => GoodT.eq one_extend fun _ => ?_
  refine GoodT.bind (good_parseTypeName terms_leftBrace (by decide)) (fun _ => ?_) fun a t ht => ?_
  · refine GoodT.eq one_leftBrace fun _ => GoodT.trail fun _ => ?_
    exact GoodM.bind (good_loopM (fun _ => good_extendStep hb) _ _) fun _ => good_pure
  · cases terms_one ht
    exact takes_expectEq.bind
theorem takes_parseExtend {body n} : Takes (kw b!"extend") (parseExtend body n) := takes_leading takes_expectEq.bind

theorem good_parseMessage {body : Prog (Ast.MessageBody × Span)} (hb : GoodM body) : GoodM (parseMessage body) := by
  unfold parseMessage
  refine GoodT.lead fun _ => GoodT.eq one_message fun _ => good_parseIdent.bind fun _ => GoodT.eq one_leftBrace fun _ => GoodT.trail fun _ => ?_
  exact hb.bind fun _ => good_pure
theorem takes_parseMessage {body} : Takes (kw b!"message") (parseMessage body) := takes_leading takes_expectEq.bind

theorem good_bodyStep {body : Prog (Ast.MessageBody × Span)} {n acc} (hb : GoodM body) : GoodM (bodyStep body n acc) := by
  unfold bodyStep
  refine good_peek says_bodyItem (fun x => ?_) (.inr rfl)
  dsimp only
  split
  · rename_i h
    exact br_take ((good_parseOneof hb).bind fun _ => good_pure) (h ▸ takes_parseOneof.bind)
  split
  · rename_i h
    exact br_take (good_parseEnum.bind fun _ => good_pure) (h ▸ takes_parseEnum.bind)
  split
  · rename_i h
    exact br_take ((good_parseMessage hb).bind fun _ => good_pure) (h ▸ takes_parseMessage.bind)
  split
  · rename_i h
    exact br_take ((good_parseExtend hb).bind fun _ => good_pure) (h ▸ takes_parseExtend.bind)
  split
  · rename_i h
    exact br_take (good_parseOption.bind fun _ => good_pure) (h ▸ takes_parseOption.bind)
  split
  · rename_i h
    exact br_take (good_parseReserved.bind fun _ => good_pure) (h ▸ takes_parseReserved.bind)
  split
  · rename_i h
    exact br_take (good_parseExtensions.bind fun _ => good_pure) (h ▸ takes_parseExtensions.bind)
  split
  · exact br_take ((good_parseField hb).bind fun _ => good_pure) (takes_parseField rfl).bind
  · exact br_take ((good_parseField hb).bind fun _ => good_pure) (takes_parseField rfl).bind
  · exact br_take (good_bump.bind fun _ => good_pure) (.inl rfl)
  · exact br_take (good_bump.bind fun _ => good_pure) (.inl rfl)
  · rename_i h1 h2 h3 h4
    exact br_blame fun h => h.elim (not_isTy h1 h2) h4

theorem good_parseMessageBody {n} : ∀ d, GoodM (parseMessageBody n d)
  | 0 => good_oof
  | d + 1 => good_loopM (fun _ => good_bodyStep (good_parseMessageBody d)) _ _

theorem good_parseStreaming : GoodT IsTy parseStreaming := by
  unfold parseStreaming
  refine good_peekSkip says_streaming (fun x => ?_) (.inr rfl)
  dsimp only
  (repeat' split) <;> first
    | exact br_take (good_bump.bind fun _ => good_pure) (.inl rfl)
    | exact br_pure (by assumption)
    | exact br_blame (by assumption)

theorem good_methodOptionStep {n acc} : GoodM (methodOptionStep n acc) := by
  unfold methodOptionStep
  refine good_peek says_methodItem (fun x => ?_) (.inr rfl)
  dsimp only
  split
  · rename_i h
    exact br_take (good_parseOption.bind fun _ => good_pure) (h ▸ takes_parseOption.bind)
  split
  · exact br_take (good_bump.bind fun _ => good_pure) (.inl rfl)
  split
  · exact br_take (good_bump.bind fun _ => good_pure) (.inl rfl)
  · rename_i h1 h2 h3
    refine br_blame ?_
    rintro (h | h | h)
    · exact h1 h
    · exact h2 h
    · exact h3 h

/-- A method type with its parentheses, and the rest. -/
theorem GoodT.methodTy {α : Type} {T} {n} {f : Option Span → Ast.TypeName → Prog α} (hf : ∀ a b, GoodT T (f a b)) :
    GoodT T (expectEq .leftParen >>= fun _ => parseStreaming >>= fun s => parseTypeName n [.token .rightParen] >>= fun ty =>
      expectEq .rightParen >>= fun _ => f s ty) := by
  refine GoodT.eq one_leftParen fun _ => GoodT.bind good_parseStreaming (fun _ => ?_) fun a t ht => (takes_parseTypeName ht).bind
  refine GoodT.bind (good_parseTypeName terms_rightParen (by decide)) (fun _ => GoodT.eq one_rightParen fun _ => hf _ _) fun a t ht => ?_
  cases terms_one ht
  exact takes_expectEq.bind

theorem good_parseRpc {n} : GoodM (parseRpc n) := by
  unfold parseRpc
  refine GoodT.lead fun _ => GoodT.eq one_rpc fun _ => good_parseIdent.bind fun _ => GoodT.methodTy fun _ _ => ?_
  refine GoodT.eq one_returns fun _ => GoodT.methodTy fun _ _ => ?_
  refine GoodM.bind (p := peekSkip >>= _) (f := fun _ => _) ?_ fun _ => GoodT.trail fun _ => good_pure
  refine good_peekSkip says_methodEnd (fun x => ?_) (.inr rfl)
  dsimp only
  split
  · exact br_take (good_bump.bind fun _ => good_pure) (.inl rfl)
  split
  · exact br_take (good_bump.bind fun _ => good_loopM (fun _ => good_methodOptionStep) _ _) (.inl rfl)
  · rename_i h1 h2
    exact br_blame fun h => h.elim h1 h2
theorem takes_parseRpc {n} : Takes (kw b!"rpc") (parseRpc n) := takes_leading takes_expectEq.bind

theorem good_serviceStep {n acc} : GoodM (serviceStep n acc) := by
  unfold serviceStep
  refine good_peek says_serviceItem (fun x => ?_) (.inr rfl)
  dsimp only
  split
  · rename_i h
    exact br_take (good_parseRpc.bind fun _ => good_pure) (h ▸ takes_parseRpc.bind)
  split
  · rename_i h
    exact br_take (good_parseOption.bind fun _ => good_pure) (h ▸ takes_parseOption.bind)
  split
  · exact br_take (good_bump.bind fun _ => good_pure) (.inl rfl)
  split
  · exact br_take (good_bump.bind fun _ => good_pure) (.inl rfl)
  · rename_i h1 h2 h3 h4
    refine br_blame ?_
    rintro (h | h | h | h)
    · exact h1 h
    · exact h2 h
    · exact h4 h
    · exact h3 h

theorem good_parseService {n} : GoodM (parseService n) := by
  unfold parseService
  refine GoodT.lead fun _ => GoodT.eq one_service fun _ => good_parseIdent.bind fun _ => GoodT.eq one_leftBrace fun _ => GoodT.trail fun _ => ?_
  exact GoodM.bind (good_loopM (fun _ => good_serviceStep) _ _) fun _ => good_pure
theorem takes_parseService {n} : Takes (kw b!"service") (parseService n) := takes_leading takes_expectEq.bind

theorem good_parsePackage {n} : GoodM (parsePackage n) := by
  unfold parsePackage
  refine GoodT.lead fun _ => GoodT.eq one_package fun _ => ?_
  refine GoodT.bind (good_parseFullIdent terms_semicolon (by decide)) (fun _ => ?_) fun a t ht => ?_
  · exact GoodT.eq one_semicolon fun _ => GoodT.trail fun _ => good_pure
  · cases terms_one ht
    exact takes_expectEq.bind
theorem takes_parsePackage {n} : Takes (kw b!"package") (parsePackage n) := takes_leading takes_expectEq.bind

theorem good_parseImport {n} : GoodM (parseImport n) := by
  unfold parseImport
  refine GoodT.lead fun _ => GoodT.eq one_import fun _ => ?_
  refine GoodT.bind (T := fun t => ∃ s, t = .string s) (p := peekSkip >>= _) (f := fun _ => _) ?_ (fun _ => ?_) ?_
  · refine good_peekSkip says_importKind (fun x => ?_) (.inr rfl)
    dsimp only
    split
    · exact br_take (good_bump.bind fun _ => good_pure) (.inl rfl)
    split
    · exact br_take (good_bump.bind fun _ => good_pure) (.inl rfl)
    split
    · exact br_pure ⟨_, rfl⟩
    · rename_i h1 h2 _ h3
      refine br_blame ?_
      rintro (⟨s, h⟩ | h | h)
      · exact h3 s h
      · exact h2 h
      · exact h1 h
  · refine good_parseUtf8String.bind fun a => ?_
    refine GoodM.bind (f := fun _ => _) ?_ fun _ => GoodT.eq one_semicolon fun _ => GoodT.trail fun _ => good_pure
    split
    · exact good_pure
    · exact good_addError rfl rfl
  · rintro a t ⟨s, rfl⟩
    exact takes_parseUtf8String.bind
theorem takes_parseImport {n} : Takes (kw b!"import") (parseImport n) := takes_leading takes_expectEq.bind

theorem good_parseSyntax {n} : GoodM (parseSyntax n) := by
  unfold parseSyntax
  refine GoodT.lead fun _ => GoodT.eq one_syntax fun _ => GoodT.eq one_equals fun _ => ?_
  refine good_peek says_syntaxString (fun x => ?_) (.inr rfl)
  dsimp only
  split
  · refine br_take (good_parseString.bind fun a => ?_) takes_parseString.bind
    split
    · exact GoodT.eq one_semicolon fun _ => GoodT.trail fun _ => good_pure
    split
    · exact GoodT.eq one_semicolon fun _ => GoodT.trail fun _ => good_pure
    · exact GoodM.bind (good_addError rfl rfl) fun _ => good_failed
  · rename_i h1
    exact br_blame fun ⟨s, h⟩ => h1 s h
theorem takes_parseSyntax {n} : Takes (kw b!"syntax") (parseSyntax n) := takes_leading takes_expectEq.bind

/-- A statement and what is after it; the end of the file is not reported here. -/
theorem good_parseStatement {n} {γ : Type} {K : Option Parse.Statement → Prog γ} (hK : ∀ a, Good (K a)) (he : ∀ ex, efate (K none) ≠ .ended ex) :
    Good (parseStatement n >>= K) := by
  unfold parseStatement
  refine (good_look_then (T := fun _ => False) says_statement (fun x => ?_) hK (fun _ _ h => h.elim) (hK none).after fun ex' hx => absurd hx (he ex')).2
  dsimp only
  split
  · exact br_take (good_bump.bind fun _ => good_pure) (.inl rfl)
  split
  · rename_i h
    exact br_take (good_parseImport.bind fun _ => good_pure) (h ▸ takes_parseImport.bind)
  split
  · rename_i h
    exact br_take (good_parsePackage.bind fun _ => good_pure) (h ▸ takes_parsePackage.bind)
  split
  · rename_i h
    exact br_take (good_parseOption.bind fun _ => good_pure) (h ▸ takes_parseOption.bind)
  split
  · rename_i h
    exact br_take ((good_parseExtend (good_parseMessageBody _)).bind fun _ => good_pure) (h ▸ takes_parseExtend.bind)
  split
  · rename_i h
    exact br_take ((good_parseMessage (good_parseMessageBody _)).bind fun _ => good_pure) (h ▸ takes_parseMessage.bind)
  split
  · rename_i h
    exact br_take (good_parseEnum.bind fun _ => good_pure) (h ▸ takes_parseEnum.bind)
  split
  · rename_i h
    exact br_take (good_parseService.bind fun _ => good_pure) (h ▸ takes_parseService.bind)
  · rename_i h1 h2 h3 h4 h5 h6 h7 h8
    refine br_blame ?_
    rintro (h | h | h | h | h | h | h | h)
    · exact h7 h
    · exact h5 h
    · exact h2 h
    · exact h6 h
    · exact h4 h
    · exact h8 h
    · exact h3 h
    · exact h1 h

theorem good_parseHeader {n} : GoodM (parseHeader n 0) := by
  unfold parseHeader
  refine good_optPeek (.proto2, none, sp0) (fun t => ?_) rfl
  dsimp only
  split
  · rename_i h
    exact ⟨good_parseSyntax.bind fun _ => good_pure, .inl (h ▸ takes_parseSyntax.bind)⟩
  · exact ⟨good_pure, .inr rfl⟩

end
end Verif.Exec
