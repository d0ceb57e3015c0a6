import Verif.Proofs.GoodM
/-! Every grammar method takes what its messages ask for. -/
namespace Verif.Exec
open Parse Prog Spec

section
variable [FloatFmt]

/-! ### What the messages say -/

theorem meansW_tok (t : Token) (x : Bytes) (h : spelling t = some x) {S : Token → Prop} (hS : S t) : MeansW (b!"'" ++ x ++ b!"'") S :=
  (meansW_quote h).mono fun _ h => h ▸ hS

/-- A message with one quoted token. -/
theorem means_one {t : Token} (x : Bytes) (h : spelling t = some x) (hd : alternatives (Expect.render (.oneOf [.token t])) = [b!"'" ++ x ++ b!"'"]) :
    Means (.oneOf [.token t]) (· = t) :=
  means_of hd fun w hw => by
    cases List.mem_singleton.1 hw
    exact meansW_tok t x h rfl

theorem says_ident : Means Says.ident (fun t => (∃ s, t = .ident s)) :=
  means_of (ws := [b!"an identifier"]) (by rfl) fun w hw => by
    simp only [List.mem_cons, List.not_mem_nil, or_false] at hw
    rcases hw with rfl
    · exact meansW_ident.mono fun _ h => by simp [h]
theorem says_integer : Means Says.integer (fun t => (∃ n, t = .int n)) :=
  means_of (ws := [b!"an integer"]) (by rfl) fun w hw => by
    simp only [List.mem_cons, List.not_mem_nil, or_false] at hw
    rcases hw with rfl
    · exact (meansW_int (by simp)).mono fun _ h => by simp [h]
theorem says_stringLit : Means Says.stringLit (fun t => (∃ s, t = .string s)) :=
  means_of (ws := [b!"a string literal"]) (by rfl) fun w hw => by
    simp only [List.mem_cons, List.not_mem_nil, or_false] at hw
    rcases hw with rfl
    · exact (meansW_string (by simp)).mono fun _ h => by simp [h]
theorem says_typeName : Means Says.typeName (IsTy) :=
  means_of (ws := [b!"a type name"]) (by rfl) fun w hw => by
    simp only [List.mem_cons, List.not_mem_nil, or_false] at hw
    rcases hw with rfl
    · exact (meansW_type (by simp)).mono fun _ h => by first | exact h | exact .inl h
theorem says_optionName : Means Says.optionName (fun t => (∃ s, t = .ident s) ∨ t = .leftParen) :=
  means_of (ws := [b!"an identifier", b!"'('"]) (by rfl) fun w hw => by
    simp only [List.mem_cons, List.not_mem_nil, or_false] at hw
    rcases hw with rfl | rfl
    · exact meansW_ident.mono fun _ h => by simp [h]
    · exact meansW_tok .leftParen b!"(" rfl (by first | simp | rfl)
theorem says_equalsOrDot : Means Says.equalsOrDot (fun t => t = .equals ∨ t = .dot) :=
  means_of (ws := [b!"'='", b!"'.'"]) (by rfl) fun w hw => by
    simp only [List.mem_cons, List.not_mem_nil, or_false] at hw
    rcases hw with rfl | rfl
    · exact meansW_tok .equals b!"=" rfl (by first | simp | rfl)
    · exact meansW_tok .dot b!"." rfl (by first | simp | rfl)
theorem says_numeric : Means Says.numeric (fun t => (∃ n, t = .int n) ∨ ∃ x, t = .float x) :=
  means_of (ws := [b!"a numeric literal"]) (by rfl) fun w hw => by
    simp only [List.mem_cons, List.not_mem_nil, or_false] at hw
    rcases hw with rfl
    · exact meansW_numeric
theorem says_constant : Means Says.constant (fun t => t = .minus ∨ t = .leftBrace ∨ (∃ s, t = .ident s) ∨ (∃ n, t = .int n) ∨ (∃ x, t = .float x) ∨ ∃ s, t = .string s) :=
  means_of (ws := [b!"a constant"]) (by rfl) fun w hw => by
    simp only [List.mem_cons, List.not_mem_nil, or_false] at hw
    rcases hw with rfl
    · exact meansW_constant
theorem says_commaOrBracket : Means Says.commaOrBracket (fun t => t = .comma ∨ t = .rightBracket) :=
  means_of (ws := [b!"','", b!"']'"]) (by rfl) fun w hw => by
    simp only [List.mem_cons, List.not_mem_nil, or_false] at hw
    rcases hw with rfl | rfl
    · exact meansW_tok .comma b!"," rfl (by first | simp | rfl)
    · exact meansW_tok .rightBracket b!"]" rfl (by first | simp | rfl)
theorem says_rangeEnd : Means Says.rangeEnd (fun t => (∃ n, t = .int n) ∨ t = kw b!"max") :=
  means_of (ws := [b!"an integer", b!"'max'"]) (by rfl) fun w hw => by
    simp only [List.mem_cons, List.not_mem_nil, or_false] at hw
    rcases hw with rfl | rfl
    · exact (meansW_int (by simp)).mono fun _ h => by simp [h]
    · exact meansW_tok (.ident b!"max") b!"max" rfl (by first | simp | rfl)
theorem says_rangeTo : Means Says.rangeTo (fun t => t = kw b!"to" ∨ t = .comma ∨ t = .semicolon) :=
  means_of (ws := [b!"'to'", b!"','", b!"';'"]) (by rfl) fun w hw => by
    simp only [List.mem_cons, List.not_mem_nil, or_false] at hw
    rcases hw with rfl | rfl | rfl
    · exact meansW_tok (.ident b!"to") b!"to" rfl (by first | simp | rfl)
    · exact meansW_tok .comma b!"," rfl (by first | simp | rfl)
    · exact meansW_tok .semicolon b!";" rfl (by first | simp | rfl)
theorem says_commaOrSemi : Means Says.commaOrSemi (fun t => t = .comma ∨ t = .semicolon) :=
  means_of (ws := [b!"','", b!"';'"]) (by rfl) fun w hw => by
    simp only [List.mem_cons, List.not_mem_nil, or_false] at hw
    rcases hw with rfl | rfl
    · exact meansW_tok .comma b!"," rfl (by first | simp | rfl)
    · exact meansW_tok .semicolon b!";" rfl (by first | simp | rfl)
theorem says_reserved : Means Says.reserved (fun t => (∃ n, t = .int n) ∨ (∃ s, t = .string s)) :=
  means_of (ws := [b!"a positive integer", b!"string"]) (by rfl) fun w hw => by
    simp only [List.mem_cons, List.not_mem_nil, or_false] at hw
    rcases hw with rfl | rfl
    · exact (meansW_int (by simp)).mono fun _ h => by simp [h]
    · exact (meansW_string (by simp)).mono fun _ h => by simp [h]
theorem says_fieldType : Means Says.fieldType (IsTy) :=
  means_of (ws := [b!"a field type"]) (by rfl) fun w hw => by
    simp only [List.mem_cons, List.not_mem_nil, or_false] at hw
    rcases hw with rfl
    · exact (meansW_type (by simp)).mono fun _ h => by first | exact h | exact .inl h
theorem says_field : Means Says.field (IsTy) :=
  means_of (ws := [b!"a message field"]) (by rfl) fun w hw => by
    simp only [List.mem_cons, List.not_mem_nil, or_false] at hw
    rcases hw with rfl
    · exact (meansW_type (by simp)).mono fun _ h => by first | exact h | exact .inl h
theorem says_enumItem : Means Says.enumItem (fun t => (∃ s, t = .ident s) ∨ t = .rightBrace) :=
  means_of (ws := [b!"an identifier", b!"'}'", b!"'reserved'", b!"'option'"]) (by rfl) fun w hw => by
    simp only [List.mem_cons, List.not_mem_nil, or_false] at hw
    rcases hw with rfl | rfl | rfl | rfl
    · exact meansW_ident.mono fun _ h => by simp [h]
    · exact meansW_tok .rightBrace b!"}" rfl (by first | simp | rfl)
    · exact meansW_tok (.ident b!"reserved") b!"reserved" rfl (by first | simp | rfl)
    · exact meansW_tok (.ident b!"option") b!"option" rfl (by first | simp | rfl)
theorem says_oneofItem : Means Says.oneofItem (fun t => IsTy t ∨ t = .rightBrace) :=
  means_of (ws := [b!"a message field", b!"option", b!"'}'"]) (by rfl) fun w hw => by
    simp only [List.mem_cons, List.not_mem_nil, or_false] at hw
    rcases hw with rfl | rfl | rfl
    · exact (meansW_type (by simp)).mono fun _ h => by first | exact h | exact .inl h
    · exact (meansW_word (by simp)).mono fun _ h => by subst h; exact .inl rfl
    · exact meansW_tok .rightBrace b!"}" rfl (by first | simp | rfl)
theorem says_extendItem : Means Says.extendItem (fun t => IsTy t ∨ t = .rightBrace ∨ t = .semicolon) :=
  means_of (ws := [b!"a message field", b!"'}'", b!"';'"]) (by rfl) fun w hw => by
    simp only [List.mem_cons, List.not_mem_nil, or_false] at hw
    rcases hw with rfl | rfl | rfl
    · exact (meansW_type (by simp)).mono fun _ h => by first | exact h | exact .inl h
    · exact meansW_tok .rightBrace b!"}" rfl (by first | simp | rfl)
    · exact meansW_tok .semicolon b!";" rfl (by first | simp | rfl)
theorem says_bodyItem : Means Says.bodyItem (fun t => IsTy t ∨ t = .rightBrace) :=
  means_of (ws := [b!"a message field", b!"oneof", b!"reserved range", b!"enum", b!"message", b!"option", b!"'}'"]) (by rfl) fun w hw => by
    simp only [List.mem_cons, List.not_mem_nil, or_false] at hw
    rcases hw with rfl | rfl | rfl | rfl | rfl | rfl | rfl
    · exact (meansW_type (by simp)).mono fun _ h => by first | exact h | exact .inl h
    · exact (meansW_word (by simp)).mono fun _ h => by subst h; exact .inl rfl
    · exact meansW_range.mono fun _ h => by subst h; exact .inl rfl
    · exact (meansW_word (by simp)).mono fun _ h => by subst h; exact .inl rfl
    · exact (meansW_word (by simp)).mono fun _ h => by subst h; exact .inl rfl
    · exact (meansW_word (by simp)).mono fun _ h => by subst h; exact .inl rfl
    · exact meansW_tok .rightBrace b!"}" rfl (by first | simp | rfl)
theorem says_streaming : Means Says.streaming (IsTy) :=
  means_of (ws := [b!"'stream'", b!"a type name"]) (by rfl) fun w hw => by
    simp only [List.mem_cons, List.not_mem_nil, or_false] at hw
    rcases hw with rfl | rfl
    · exact meansW_tok (.ident b!"stream") b!"stream" rfl (by first | simp | rfl)
    · exact (meansW_type (by simp)).mono fun _ h => by first | exact h | exact .inl h
theorem says_methodItem : Means Says.methodItem (fun t => t = kw b!"option" ∨ t = .rightBrace ∨ t = .semicolon) :=
  means_of (ws := [b!"'option'", b!"'}'", b!"';'"]) (by rfl) fun w hw => by
    simp only [List.mem_cons, List.not_mem_nil, or_false] at hw
    rcases hw with rfl | rfl | rfl
    · exact meansW_tok (.ident b!"option") b!"option" rfl (by first | simp | rfl)
    · exact meansW_tok .rightBrace b!"}" rfl (by first | simp | rfl)
    · exact meansW_tok .semicolon b!";" rfl (by first | simp | rfl)
theorem says_methodEnd : Means Says.methodEnd (fun t => t = .semicolon ∨ t = .leftBrace) :=
  means_of (ws := [b!"';'", b!"'{'"]) (by rfl) fun w hw => by
    simp only [List.mem_cons, List.not_mem_nil, or_false] at hw
    rcases hw with rfl | rfl
    · exact meansW_tok .semicolon b!";" rfl (by first | simp | rfl)
    · exact meansW_tok .leftBrace b!"{" rfl (by first | simp | rfl)
theorem says_serviceItem : Means Says.serviceItem (fun t => t = kw b!"rpc" ∨ t = kw b!"option" ∨ t = .rightBrace ∨ t = .semicolon) :=
  means_of (ws := [b!"'rpc'", b!"'}'", b!"'option'", b!"';'"]) (by rfl) fun w hw => by
    simp only [List.mem_cons, List.not_mem_nil, or_false] at hw
    rcases hw with rfl | rfl | rfl | rfl
    · exact meansW_tok (.ident b!"rpc") b!"rpc" rfl (by first | simp | rfl)
    · exact meansW_tok .rightBrace b!"}" rfl (by first | simp | rfl)
    · exact meansW_tok (.ident b!"option") b!"option" rfl (by first | simp | rfl)
    · exact meansW_tok .semicolon b!";" rfl (by first | simp | rfl)
theorem says_importKind : Means Says.importKind (fun t => (∃ s, t = .string s) ∨ t = kw b!"public" ∨ t = kw b!"weak") :=
  means_of (ws := [b!"a string literal", b!"'public'", b!"'weak'"]) (by rfl) fun w hw => by
    simp only [List.mem_cons, List.not_mem_nil, or_false] at hw
    rcases hw with rfl | rfl | rfl
    · exact (meansW_string (by simp)).mono fun _ h => by simp [h]
    · exact meansW_tok (.ident b!"public") b!"public" rfl (by first | simp | rfl)
    · exact meansW_tok (.ident b!"weak") b!"weak" rfl (by first | simp | rfl)
theorem says_syntaxString : Means Says.syntaxString (fun t => (∃ s, t = .string s)) :=
  means_of (ws := [b!"a string"]) (by rfl) fun w hw => by
    simp only [List.mem_cons, List.not_mem_nil, or_false] at hw
    rcases hw with rfl
    · exact (meansW_string (by simp)).mono fun _ h => by simp [h]
theorem says_statement : Means Says.statement (fun t => t = kw b!"enum" ∨ t = kw b!"extend" ∨ t = kw b!"import" ∨ t = kw b!"message" ∨ t = kw b!"option" ∨ t = kw b!"service" ∨ t = kw b!"package" ∨ t = .semicolon) :=
  means_of (ws := [b!"'enum'", b!"'extend'", b!"'import'", b!"'message'", b!"'option'", b!"'service'", b!"'package'", b!"';'"]) (by rfl) fun w hw => by
    simp only [List.mem_cons, List.not_mem_nil, or_false] at hw
    rcases hw with rfl | rfl | rfl | rfl | rfl | rfl | rfl | rfl
    · exact meansW_tok (.ident b!"enum") b!"enum" rfl (by first | simp | rfl)
    · exact meansW_tok (.ident b!"extend") b!"extend" rfl (by first | simp | rfl)
    · exact meansW_tok (.ident b!"import") b!"import" rfl (by first | simp | rfl)
    · exact meansW_tok (.ident b!"message") b!"message" rfl (by first | simp | rfl)
    · exact meansW_tok (.ident b!"option") b!"option" rfl (by first | simp | rfl)
    · exact meansW_tok (.ident b!"service") b!"service" rfl (by first | simp | rfl)
    · exact meansW_tok (.ident b!"package") b!"package" rfl (by first | simp | rfl)
    · exact meansW_tok .semicolon b!";" rfl (by first | simp | rfl)
theorem one_dot : Means (.oneOf [.token .dot]) (· = .dot) := means_one b!"." rfl rfl
theorem one_equals : Means (.oneOf [.token .equals]) (· = .equals) := means_one b!"=" rfl rfl
theorem one_leftParen : Means (.oneOf [.token .leftParen]) (· = .leftParen) := means_one b!"(" rfl rfl
theorem one_rightParen : Means (.oneOf [.token .rightParen]) (· = .rightParen) := means_one b!")" rfl rfl
theorem one_rightBrace : Means (.oneOf [.token .rightBrace]) (· = .rightBrace) := means_one b!"}" rfl rfl
theorem one_leftBrace : Means (.oneOf [.token .leftBrace]) (· = .leftBrace) := means_one b!"{" rfl rfl
theorem one_leftBracket : Means (.oneOf [.token .leftBracket]) (· = .leftBracket) := means_one b!"[" rfl rfl
theorem one_comma : Means (.oneOf [.token .comma]) (· = .comma) := means_one b!"," rfl rfl
theorem one_semicolon : Means (.oneOf [.token .semicolon]) (· = .semicolon) := means_one b!";" rfl rfl
theorem one_leftAngle : Means (.oneOf [.token .leftAngle]) (· = .leftAngle) := means_one b!"<" rfl rfl
theorem one_rightAngle : Means (.oneOf [.token .rightAngle]) (· = .rightAngle) := means_one b!">" rfl rfl
theorem one_option : Means (.oneOf [.token (kw b!"option")]) (· = kw b!"option") := means_one b!"option" rfl rfl
theorem one_reserved : Means (.oneOf [.token (kw b!"reserved")]) (· = kw b!"reserved") := means_one b!"reserved" rfl rfl
theorem one_extensions : Means (.oneOf [.token (kw b!"extensions")]) (· = kw b!"extensions") := means_one b!"extensions" rfl rfl
theorem one_map : Means (.oneOf [.token (kw b!"map")]) (· = kw b!"map") := means_one b!"map" rfl rfl
theorem one_group : Means (.oneOf [.token (kw b!"group")]) (· = kw b!"group") := means_one b!"group" rfl rfl
theorem one_enum : Means (.oneOf [.token (kw b!"enum")]) (· = kw b!"enum") := means_one b!"enum" rfl rfl
theorem one_oneof : Means (.oneOf [.token (kw b!"oneof")]) (· = kw b!"oneof") := means_one b!"oneof" rfl rfl
theorem one_extend : Means (.oneOf [.token (kw b!"extend")]) (· = kw b!"extend") := means_one b!"extend" rfl rfl
theorem one_message : Means (.oneOf [.token (kw b!"message")]) (· = kw b!"message") := means_one b!"message" rfl rfl
theorem one_rpc : Means (.oneOf [.token (kw b!"rpc")]) (· = kw b!"rpc") := means_one b!"rpc" rfl rfl
theorem one_returns : Means (.oneOf [.token (kw b!"returns")]) (· = kw b!"returns") := means_one b!"returns" rfl rfl
theorem one_service : Means (.oneOf [.token (kw b!"service")]) (· = kw b!"service") := means_one b!"service" rfl rfl
theorem one_package : Means (.oneOf [.token (kw b!"package")]) (· = kw b!"package") := means_one b!"package" rfl rfl
theorem one_import : Means (.oneOf [.token (kw b!"import")]) (· = kw b!"import") := means_one b!"import" rfl rfl
theorem one_syntax : Means (.oneOf [.token (kw b!"syntax")]) (· = kw b!"syntax") := means_one b!"syntax" rfl rfl

/-! ### Methods -/

theorem good_expectEq {t : Token} (m : Means (.oneOf [.token t]) (· = t)) : GoodM (expectEq t) := by
  unfold expectEq
  refine good_peekSkip m (fun x => ?_) (.inr rfl)
  dsimp only
  split
  · exact br_take good_bump takes_bump
  · exact br_blame (by assumption)

theorem takes_expectEq {t : Token} : Takes t (expectEq t) := by
  refine .inl ?_
  show fate t (if t = t then bump else unexpected _) = _
  rw [if_pos rfl]
  rfl

theorem good_parseIdent : GoodM parseIdent := by
  unfold parseIdent
  refine good_peekSkip says_ident (fun x => ?_) (.inr rfl)
  dsimp only
  split
  · exact br_take (good_bump.bind fun _ => good_pure) (.inl rfl)
  · rename_i h
    exact br_blame fun ⟨s, hs⟩ => h s hs

theorem takes_parseIdent {s} : Takes (.ident s) parseIdent := .inl rfl

theorem good_parseInt : GoodM parseInt := by
  unfold parseInt
  refine GoodM.bind ?_ fun start => ?_
  · refine good_optSkip none (fun t => ?_) rfl
    dsimp only
    split
    · exact ⟨good_bump.bind fun _ => good_pure, .inl (.inl rfl)⟩
    · exact ⟨good_pure, .inr rfl⟩
  · refine good_peekSkip says_integer (fun x => ?_) (.inr rfl)
    dsimp only
    split
    · refine br_take (good_bump.bind fun _ => ?_) (.inl rfl)
      split <;> exact good_pure
    · rename_i h
      exact br_blame fun ⟨n, hn⟩ => h n hn

theorem takes_parseInt {n} : Takes (.int n) parseInt := .inl rfl
theorem takes_parseInt' : Takes .minus parseInt := .inl rfl

theorem good_stringStep {acc} : GoodM (stringStep acc) := by
  unfold stringStep
  refine good_optSkip (.done acc) (fun t => ?_) rfl
  dsimp only
  split
  · exact ⟨good_bump.bind fun _ => good_pure, .inl (.inl rfl)⟩
  · exact ⟨good_pure, .inr rfl⟩

theorem good_parseString {n} : GoodM (parseString n) := by
  unfold parseString
  refine good_peekSkip says_stringLit (fun x => ?_) (.inr rfl)
  dsimp only
  split
  · exact br_take (good_bump.bind fun _ => good_loopM (fun _ => good_stringStep) _ _) (.inl rfl)
  · rename_i h
    exact br_blame fun ⟨n, hn⟩ => h n hn

theorem takes_parseString {n s} : Takes (.string s) (parseString n) := .inl rfl

theorem good_parseUtf8String {n} : GoodM (parseUtf8String n) := by
  unfold parseUtf8String
  refine good_parseString.bind fun s => ?_
  split
  · exact good_pure
  · exact GoodM.bind (good_addError rfl rfl) fun _ => good_pure

theorem takes_parseUtf8String {n s} : Takes (.string s) (parseUtf8String n) := takes_parseString.bind

/-- The tokens that end a name. -/
abbrev Terms (terms : List Expected) (t : Token) : Prop := terms.any (·.matches t) = true

/-- What the message about a name says, given the tokens that may end it. -/
abbrev MeansTerms (c : Token) (terms : List Expected) : Prop := Means (.oneOf (.token c :: terms)) (fun t => t = c ∨ Terms terms t)

theorem good_fullIdentStep {terms acc} (m : MeansTerms .dot terms) : GoodT (Terms terms) (fullIdentStep terms acc) := by
  unfold fullIdentStep
  refine good_peekSkip m (fun x => ?_) (.inr rfl)
  dsimp only
  split
  · exact br_take (good_bump.bind fun _ => good_parseIdent.bind fun _ => good_pure) (.inl rfl)
  · split
    · exact br_pure (by assumption)
    · rename_i h1 h2
      exact br_blame fun h => h.elim h1 h2

theorem good_parseFullIdent {n terms} (m : MeansTerms .dot terms) (hd : ¬ Terms terms .dot) : GoodT (Terms terms) (parseFullIdent n terms) := by
  unfold parseFullIdent
  refine good_parseIdent.bind fun i => good_loopT (fun _ => good_fullIdentStep m) (fun s t ht => ⟨⟨s⟩, ?_⟩) _ _
  have h : fate t (fullIdentStep terms s) = fate t (if t = .dot then (do
      let _ ← bump
      let i ← parseIdent
      pure (.next (s ++ [i])))
    else if terms.any (·.matches t) then pure (.done ⟨s⟩)
    else unexpected (.oneOf (.token .dot :: terms))) := rfl
  rw [h, if_neg (fun e => hd (by rw [← e]; exact ht)), if_pos ht]
  rfl

theorem takes_parseFullIdent {n terms s} : Takes (.ident s) (parseFullIdent n terms) := takes_parseIdent.bind

theorem good_parseTypeName {n terms} (m : MeansTerms .dot terms) (hd : ¬ Terms terms .dot) : GoodT (Terms terms) (parseTypeName n terms) := by
  unfold parseTypeName
  refine GoodT.bind (T := fun t => ∃ s, t = .ident s) ?_ (fun _ => ?_) ?_
  · refine good_peek says_typeName (fun x => ?_) (.inr rfl)
    dsimp only
    split
    · exact br_take (good_bump.bind fun _ => good_pure) (.inl rfl)
    · split
      · rename_i h1 h2
        refine br_pure ?_
        cases x <;> first | cases h2; done | exact absurd rfl h1 | exact ⟨_, rfl⟩
      · exact br_blame (by assumption)
  · refine ⟨fun {γ} K hK hT => ?_⟩
    rw [bind_assoc']
    exact (good_parseFullIdent m hd).run _ (fun a => hK _) fun a t ht => hT _ t ht
  · rintro a t ⟨s, rfl⟩
    exact takes_parseFullIdent.bind

theorem takes_parseTypeName {n terms t} (h : IsTy t) : Takes t (parseTypeName n terms) := by
  cases t <;> first | cases h; done | exact .inl rfl

theorem good_textFormatStep {st} : GoodM (textFormatStep st) := by
  unfold textFormatStep
  refine good_optPeek (.done st.1) (fun t => ?_) rfl
  dsimp only
  split
  · exact ⟨good_pure, .inr rfl⟩
  · exact ⟨good_bump.bind fun _ => good_pure, .inl (.inl rfl)⟩

theorem good_parseTextFormat {n} : GoodM (parseTextFormat n) := by
  unfold parseTextFormat
  refine GoodM.bind good_assertNoPeek fun _ => ?_
  refine GoodM.bind good_setTextMode fun _ => ?_
  refine GoodM.bind (good_loopM (fun _ => good_textFormatStep) _ _) fun _ => ?_
  refine GoodM.bind good_setTextMode fun _ => ?_
  exact good_pure

theorem terms_rightParen : MeansTerms .dot [.token .rightParen] :=
  means_of (ws := [b!"'.'", b!"')'"]) (by rfl) fun w hw => by
    simp only [List.mem_cons, List.not_mem_nil, or_false] at hw
    rcases hw with rfl | rfl
    · exact meansW_tok .dot b!"." rfl (.inl rfl)
    · exact meansW_tok .rightParen b!")" rfl (.inr rfl)

theorem terms_one {c t : Token} (h : Terms [.token c] t) : t = c := by
  have h : (c == t || false) = true := h
  rw [Bool.or_false] at h
  exact (beq_iff_eq.1 h).symm

theorem good_parseOptionNamePart {n} : GoodM (parseOptionNamePart n) := by
  unfold parseOptionNamePart
  refine good_peek says_optionName (fun x => ?_) (.inr rfl)
  dsimp only
  split
  · refine br_take (good_bump.bind fun _ => ?_) (.inl rfl)
    refine GoodT.bind (good_parseTypeName terms_rightParen (by decide)) (fun _ => ?_) fun a t ht => ?_
    · exact (good_expectEq one_rightParen).bind fun _ => good_pure
    · cases terms_one ht
      exact takes_expectEq.bind
  · split
    · exact br_take (good_parseIdent.bind fun _ => good_pure) takes_parseIdent.bind
    · rename_i h1 _ h2
      exact br_blame fun h => h.elim (fun ⟨s, hs⟩ => h2 s hs) h1

theorem takes_parseOptionNamePart {n t} (h : (∃ s, t = .ident s) ∨ t = .leftParen) : Takes t (parseOptionNamePart n) := by
  rcases h with ⟨s, rfl⟩ | rfl <;> exact .inl rfl

theorem good_optionNameStep {n acc} : GoodM (optionNameStep n acc) := by
  unfold optionNameStep
  refine good_peekSkip says_equalsOrDot (fun x => ?_) (.inr rfl)
  dsimp only
  split
  · exact br_take (good_bump.bind fun _ => good_parseOptionNamePart.bind fun _ => good_pure) (.inl rfl)
  · split
    · exact br_take (good_bump.bind fun _ => good_pure) (.inl rfl)
    · rename_i h1 h2
      exact br_blame fun h => h.elim h2 h1

theorem good_parseOptionValue {n} : GoodM (parseOptionValue n) := by
  unfold parseOptionValue
  refine good_peekSkip says_constant (fun x => ?_) (.inr rfl)
  dsimp only
  split
  · refine br_take (good_bump.bind fun _ => ?_) (.inl rfl)
    refine good_peekSkip says_numeric (fun x => ?_) (.inr rfl)
    dsimp only
    split
    · exact br_take (good_parseIdent.bind fun _ => good_pure) takes_parseIdent.bind
    · exact br_take (good_bump.bind fun _ => good_pure) (.inl rfl)
    · exact br_take (good_bump.bind fun _ => good_pure) (.inl rfl)
    · rename_i h1 h2 h3
      exact br_blame fun h => h.elim (fun ⟨s, hs⟩ => h2 s hs) fun ⟨s, hs⟩ => h3 s hs
  · exact br_take (good_parseIdent.bind fun _ => good_pure) takes_parseIdent.bind
  · exact br_take (good_bump.bind fun _ => good_pure) (.inl rfl)
  · exact br_take (good_bump.bind fun _ => good_pure) (.inl rfl)
  · exact br_take (good_parseString.bind fun _ => good_pure) takes_parseString.bind
  · refine br_take (good_bump.bind fun _ => good_parseTextFormat.bind fun _ => ?_) (.inl rfl)
    exact (good_expectEq one_rightBrace).bind fun _ => good_pure
  · rename_i h1 h2 h3 h4 h5 h6
    refine br_blame ?_
    rintro (h | h | ⟨s, h⟩ | ⟨s, h⟩ | ⟨s, h⟩ | ⟨s, h⟩)
    · exact h1 h
    · exact h6 h
    · exact h2 _ h
    · exact h3 _ h
    · exact h4 _ h
    · exact h5 _ h

theorem good_parseOptionBody {n} : GoodM (parseOptionBody n) := by
  unfold parseOptionBody
  refine good_parseOptionNamePart.bind fun _ => ?_
  refine GoodM.bind (good_loopM (fun _ => good_optionNameStep) _ _) fun _ => ?_
  exact good_parseOptionValue.bind fun _ => good_pure

/-- The keyword or punctuation, then the rest. -/
theorem GoodT.eq {α : Type} {T} {t : Token} {f : Span → Prog α} (m : Means (.oneOf [.token t]) (· = t)) (hf : ∀ a, GoodT T (f a)) :
    GoodT T (expectEq t >>= f) := (good_expectEq m).bind hf
theorem GoodT.lead {α : Type} {T} {f} (hf : ∀ a, GoodT T (f a : Prog α)) : GoodT T (leading >>= f) := good_leading.bind hf
theorem GoodT.trail {α : Type} {T l} {f} (hf : ∀ a, GoodT T (f a : Prog α)) : GoodT T (trailing l >>= f) := good_trailing.bind hf

theorem good_parseOption {n} : GoodM (parseOption n) := by
  unfold parseOption
  refine GoodT.lead fun _ => GoodT.eq one_option fun _ => ?_
  refine good_parseOptionBody.bind fun _ => ?_
  exact GoodT.eq one_semicolon fun _ => GoodT.trail fun _ => good_pure
theorem takes_parseOption {n} : Takes (kw b!"option") (parseOption n) := takes_leading takes_expectEq.bind

theorem good_optionsListStep {n acc} : GoodM (optionsListStep n acc) := by
  unfold optionsListStep
  refine good_peekSkip says_commaOrBracket (fun x => ?_) (.inr rfl)
  dsimp only
  split
  · exact br_take (good_bump.bind fun _ => good_parseOptionBody.bind fun _ => good_pure) (.inl rfl)
  · split
    · exact br_take (good_bump.bind fun _ => good_pure) (.inl rfl)
    · rename_i h1 h2
      exact br_blame fun h => h.elim h1 h2

theorem good_parseOptionsList {n} : GoodM (parseOptionsList n) := by
  unfold parseOptionsList
  refine GoodT.eq one_leftBracket fun _ => good_parseOptionBody.bind fun _ => ?_
  exact GoodM.bind (good_loopM (fun _ => good_optionsListStep) _ _) fun _ => good_pure
theorem takes_parseOptionsList {n} : Takes .leftBracket (parseOptionsList n) := takes_expectEq.bind

/-- What the message about a missing terminator says. -/
abbrev MeansTerm (c : Token) : Prop := Means (.oneOf [.token c, .token .leftBracket]) (fun t => t = c ∨ t = .leftBracket)

theorem term_semicolon : MeansTerm .semicolon :=
  means_of (ws := [b!"';'", b!"'['"]) (by rfl) fun w hw => by
    simp only [List.mem_cons, List.not_mem_nil, or_false] at hw
    rcases hw with rfl | rfl
    · exact meansW_tok .semicolon b!";" rfl (.inl rfl)
    · exact meansW_tok .leftBracket b!"[" rfl (.inr rfl)
theorem term_leftBrace : MeansTerm .leftBrace :=
  means_of (ws := [b!"'{'", b!"'['"]) (by rfl) fun w hw => by
    simp only [List.mem_cons, List.not_mem_nil, or_false] at hw
    rcases hw with rfl | rfl
    · exact meansW_tok .leftBrace b!"{" rfl (.inl rfl)
    · exact meansW_tok .leftBracket b!"[" rfl (.inr rfl)

theorem good_parseOptOptions {n t} (m : MeansTerm t) : GoodT (· = t) (parseOptOptions n t) := by
  unfold parseOptOptions
  refine good_peekSkip m (fun x => ?_) (.inr rfl)
  dsimp only
  split
  · rename_i h
    exact br_take (good_parseOptionsList.bind fun _ => good_pure) (h ▸ takes_parseOptionsList.bind)
  · split
    · exact br_pure (by assumption)
    · rename_i h1 h2
      exact br_blame fun h => h.elim h2 h1

/-- The options, the terminator, then the rest. -/
theorem GoodT.opts {α : Type} {T} {n t} {f : Option Ast.OptionList → Span → Prog α} (m : MeansTerm t) (m' : Means (.oneOf [.token t]) (· = t))
    (hf : ∀ a b, GoodT T (f a b)) : GoodT T (parseOptOptions n t >>= fun a => expectEq t >>= fun b => f a b) :=
  GoodT.bind (good_parseOptOptions m) (fun a => GoodT.eq m' (hf a)) fun _ _ h => by subst h; exact takes_expectEq.bind

theorem good_parseReservedRange : GoodT (fun t => t = .comma ∨ t = .semicolon) parseReservedRange := by
  unfold parseReservedRange
  refine good_parseInt.bind fun _ => ?_
  refine good_peekSkip says_rangeTo (fun x => ?_) (.inr rfl)
  dsimp only
  split
  · refine br_take (good_bump.bind fun _ => ?_) (.inl rfl)
    refine good_peekSkip says_rangeEnd (fun x => ?_) (.inr rfl)
    dsimp only
    split
    · exact br_take (good_bump.bind fun _ => good_pure) (.inl rfl)
    · split
      · exact br_take (good_parseInt.bind fun _ => good_pure) takes_parseInt.bind
      · exact br_take (good_parseInt.bind fun _ => good_pure) takes_parseInt'.bind
      · rename_i h1 _ h2 _
        exact br_blame fun h => h.elim (fun ⟨n, hn⟩ => h2 n hn) h1
  · split
    · exact br_pure (by assumption)
    · rename_i h1 h2
      exact br_blame fun h => h.elim h1 h2

theorem takes_parseReservedRange {t} (h : (∃ n, t = .int n) ∨ t = .minus) : Takes t parseReservedRange := by
  rcases h with ⟨s, rfl⟩ | rfl <;> exact .inl rfl

/-- A look at the next token in a whole program. -/
theorem good_look {γ : Type} {ex S} {f : Option (Token × Span) → Prog γ} (m : Means ex S)
    (h : ∀ t, After (f (some (t, sp0))) ∧ (Takes t (f (some (t, sp0))) ∨ (¬ S t ∧ fate t (f (some (t, sp0))) = .blamed ex t)))
    (hn : After (f none)) (he : ∀ ex', efate (f none) = .ended ex' → ex' = ex) : Good (peekSkip >>= f) := by
  have takes : ∀ y, S y → Takes y (peekSkip >>= f) := by
    intro y hy
    rcases (h y).2 with h3 | ⟨h3, _⟩
    · exact h3
    · exact absurd hy h3
  refine ⟨⟨fun x ex' t hx => ?_, fun ex' hx => ?_⟩, fun t => (h t).1, hn⟩
  · have hx : fate x (f (some (x, sp0))) = .blamed ex' t := hx
    rcases (h x).2 with (h' | h') | ⟨h', h''⟩
    · rw [h'] at hx; cases hx
    · rw [h'] at hx; cases hx
    · rw [h''] at hx
      cases hx
      exact ⟨rfl, S, m, takes⟩
  · cases he ex' hx
    exact ⟨S, m, takes⟩

theorem good_parseReservedRanges {n terms} (m : MeansTerms .comma terms) (hs : Terms terms .semicolon) (hc : ¬ Terms terms .comma) :
    GoodT (Terms terms) (parseReservedRanges n terms) := by
  unfold parseReservedRanges
  refine ⟨fun {γ} K hK hT => ?_⟩
  rw [bind_assoc']
  have key : ∀ n acc, Good (loopM (reservedRangesStep terms) n acc >>= K) ∧
      ∀ t, t = .comma ∨ Terms terms t → Takes t (loopM (reservedRangesStep terms) n acc >>= K) := by
    intro n
    induction n with
    | zero => exact fun s => ⟨⟨⟨nofun, nofun⟩, trivial⟩, fun _ _ => .inr rfl⟩
    | succ n ih =>
      intro acc
      have e : loopM (reservedRangesStep terms) (n + 1) acc >>= K = peekSkip >>= fun o => (match o with
          | some (tok, _) =>
            if tok = .comma then do
              let _ ← bump
              let r ← parseReservedRange
              loopM (reservedRangesStep terms) n (acc ++ [r]) >>= K
            else if terms.any (·.matches tok) then K acc
            else unexpected (.oneOf (.token .comma :: terms))
          | none => unexpected (.oneOf (.token .comma :: terms))) := by
        refine congrArg peekSkipThen (funext fun o => ?_)
        match o with
        | none => exact (congrArg (Prog.bind · K) unexpected_bind).trans unexpected_bind
        | some (tok, sp) =>
          show Prog.bind (Prog.bind (if tok = .comma then _ else _) _) K = (if tok = .comma then _ else _)
          split
          · refine congrArg bumpThen (funext fun o => ?_)
            exact (congrArg (Prog.bind · K) (bind_assoc' parseReservedRange _ _)).trans (bind_assoc' parseReservedRange _ _)
          · split
            · rfl
            · exact (congrArg (Prog.bind · K) unexpected_bind).trans unexpected_bind
      rw [e]
      refine ⟨good_look m (fun t => ?_) ⟨fun _ h => (nomatch h), fun _ => trivial⟩ (fun _ hx => by cases hx; rfl), ?_⟩
      · dsimp only
        split
        · refine ⟨?_, .inl (.inl rfl)⟩
          have := good_parseReservedRange.run (fun r => loopM (reservedRangesStep terms) n (acc ++ [r]) >>= K) (fun r => (ih _).1)
            fun r t ht => (ih _).2 t (ht.imp id fun h => by rw [h]; exact hs)
          exact ⟨this.g, this.after⟩
        · split
          · exact ⟨(hK acc).after, .inl (hT acc t (by assumption))⟩
          · rename_i h1 h2
            exact ⟨⟨fun _ h => (nomatch h), fun _ => trivial⟩, .inr ⟨fun h => h.elim h1 h2, rfl⟩⟩
      · rintro t (rfl | ht)
        · exact .inl rfl
        · have h : ∀ f : Option (Token × Span) → Prog γ, fate t (peekSkip >>= f) = fate t (f (some (t, sp0))) := fun _ => rfl
          unfold Takes
          rw [h]
          dsimp only
          rw [if_neg (fun e => hc (by rw [← e]; exact ht)), if_pos ht]
          exact hT acc t ht
  exact good_parseReservedRange.run _ (fun r => (key n [r]).1) fun r t ht => (key n [r]).2 t (ht.imp id fun h => by rw [h]; exact hs)

theorem takes_parseReservedRanges {n terms t} (h : (∃ n, t = .int n) ∨ t = .minus) : Takes t (parseReservedRanges n terms) :=
  (takes_parseReservedRange h).bind

theorem good_parseIdentString {n} : GoodM (parseIdentString n) := by
  unfold parseIdentString
  refine good_parseUtf8String.bind fun s => ?_
  dsimp only
  split
  · exact good_pure
  · exact GoodM.bind (good_addError rfl rfl) fun _ => good_pure

theorem takes_parseIdentString {n s} : Takes (.string s) (parseIdentString n) := takes_parseUtf8String.bind

theorem good_reservedNamesStep {n acc} : GoodM (reservedNamesStep n acc) := by
  unfold reservedNamesStep
  refine good_peekSkip says_commaOrSemi (fun x => ?_) (.inr rfl)
  dsimp only
  split
  · exact br_take (good_bump.bind fun _ => good_parseIdentString.bind fun _ => good_pure) (.inl rfl)
  · split
    · exact br_take (good_bump.bind fun _ => good_pure) (.inl rfl)
    · rename_i h1 h2
      exact br_blame fun h => h.elim h1 h2

theorem good_parseReservedNames {n} : GoodM (parseReservedNames n) := by
  unfold parseReservedNames
  exact good_parseIdentString.bind fun _ => good_loopM (fun _ => good_reservedNamesStep) _ _

theorem terms_semi : MeansTerms .comma [.token .semicolon] :=
  means_of (ws := [b!"','", b!"';'"]) (by rfl) fun w hw => by
    simp only [List.mem_cons, List.not_mem_nil, or_false] at hw
    rcases hw with rfl | rfl
    · exact meansW_tok .comma b!"," rfl (.inl rfl)
    · exact meansW_tok .semicolon b!";" rfl (.inr rfl)
theorem terms_semiBracket : MeansTerms .comma [.token .semicolon, .token .leftBracket] :=
  means_of (ws := [b!"','", b!"';'", b!"'['"]) (by rfl) fun w hw => by
    simp only [List.mem_cons, List.not_mem_nil, or_false] at hw
    rcases hw with rfl | rfl | rfl
    · exact meansW_tok .comma b!"," rfl (.inl rfl)
    · exact meansW_tok .semicolon b!";" rfl (.inr rfl)
    · exact meansW_tok .leftBracket b!"[" rfl (.inr rfl)

theorem good_parseReserved {n} : GoodM (parseReserved n) := by
  unfold parseReserved
  refine GoodT.lead fun _ => GoodT.eq one_reserved fun _ => ?_
  refine good_peekSkip says_reserved (fun x => ?_) (.inr rfl)
  dsimp only
  have h1 : ∀ {start lead}, GoodM (parseReservedRanges n [.token .semicolon] >>= fun ranges => expectEq .semicolon >>= fun stop =>
      trailing lead >>= fun comments => (pure ⟨.ranges ranges, comments, joinSpan start stop⟩ : Prog Ast.Reserved)) := by
    intro start lead
    refine GoodT.bind (good_parseReservedRanges terms_semi rfl (by decide)) (fun _ => GoodT.eq one_semicolon fun _ => ?_) fun a t ht => ?_
    · exact GoodT.trail fun _ => good_pure
    · cases terms_one ht
      exact takes_expectEq.bind
  split
  · exact br_take h1 (takes_parseReservedRanges (.inl ⟨_, rfl⟩)).bind
  · exact br_take h1 (takes_parseReservedRanges (.inr rfl)).bind
  · exact br_take (good_parseReservedNames.bind fun _ => GoodT.trail fun _ => good_pure) takes_parseIdentString.bind.bind
  · rename_i h1 h2 h3
    refine br_blame ?_
    rintro (⟨n, hn⟩ | ⟨n, hn⟩)
    · exact h1 _ hn
    · exact h3 _ hn
theorem takes_parseReserved {n} : Takes (kw b!"reserved") (parseReserved n) := takes_leading takes_expectEq.bind

theorem good_parseExtensions {n} : GoodM (parseExtensions n) := by
  unfold parseExtensions
  refine GoodT.lead fun _ => GoodT.eq one_extensions fun _ => ?_
  refine GoodT.bind (good_parseReservedRanges terms_semiBracket rfl (by decide)) (fun _ => ?_) fun a t ht => ?_
  · exact GoodT.opts term_semicolon one_semicolon fun _ _ => GoodT.trail fun _ => good_pure
  · have h : (Token.semicolon == t || (Token.leftBracket == t || false)) = true := ht
    simp only [Bool.or_false, Bool.or_eq_true, beq_iff_eq] at h
    rcases h with rfl | rfl
    · exact .inl rfl
    · exact .inl rfl
theorem takes_parseExtensions {n} : Takes (kw b!"extensions") (parseExtensions n) := takes_leading takes_expectEq.bind

end
end Verif.Exec
