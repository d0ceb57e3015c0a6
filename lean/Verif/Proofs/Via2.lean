import Verif.Proofs.Via
/-! The grammar methods up to options: what they have begun can be finished. -/
namespace Verif.Exec
open Parse Prog Spec

/-! ### Tokens that can be written -/

theorem plain_kw {v : Bytes} (h : (match v with
    | [] => false
    | b :: r => (isAlpha b || b == 95) && r.all (fun c => isAlnum c || c == 95)) = true) : Plain (.ident v) := by
  refine ⟨rfl, v, .ident ?_⟩
  cases v with
  | nil => cases h
  | cons b r =>
    simp only [Bool.and_eq_true, Bool.or_eq_true, beq_iff_eq, List.all_eq_true] at h
    exact ⟨b, r, rfl, h.1, h.2⟩

theorem plain_string : Plain (.string []) := ⟨rfl, _, .string (q := 34) (.inl rfl) .nil⟩
theorem plain_int : Plain (.int 1) :=
  ⟨rfl, [49], .int (.decimal (.one (b := 49) (d := 1) (by decide) (by decide)) (by decide)) (by decide)⟩

macro "plain" : tactic => `(tactic| first
  | exact plain_string
  | exact plain_int
  | exact plain_kw (by decide)
  | exact ⟨rfl, _, .semicolon⟩ | exact ⟨rfl, _, .leftParen⟩ | exact ⟨rfl, _, .rightParen⟩ | exact ⟨rfl, _, .leftBrace⟩
  | exact ⟨rfl, _, .rightBrace⟩ | exact ⟨rfl, _, .leftBracket⟩ | exact ⟨rfl, _, .rightBracket⟩ | exact ⟨rfl, _, .leftAngle⟩
  | exact ⟨rfl, _, .rightAngle⟩ | exact ⟨rfl, _, .comma⟩ | exact ⟨rfl, _, .equals⟩ | exact ⟨rfl, _, .dot⟩)

/-- The name that completions use. -/
abbrev idA : Token := .ident b!"A"

/-- The completion does not begin with a string. -/
abbrev NotStr : Pred := fun o => ∀ v, o ≠ some (.string v)

/-- The completion begins with a token that may end a dotted name. -/
abbrev TermP (terms : List Expected) : Pred := fun o => ∃ t, o = some t ∧ t ≠ .dot ∧ terms.any (·.matches t) = true

macro "pp" : tactic => `(tactic| first
  | exact fun _ _ => trivial
  | exact fun _ h => h
  | (intro _ h; cases h; exact ⟨_, rfl, by decide, rfl⟩)
  | (intro _ h _ h'; cases h; cases h'; done)
  | (intro _ h; cases h; simp; done))

/-- The next step of a method: tokens left, how the rest can begin, and the step. -/
macro "sq " n:term ", " p:term ", " h:term : tactic =>
  `(tactic| refine Fin.seq (n2 := $n) (P2 := $p) $h (by omega) (by pp) fun _ => ?_)

section
variable {b : Bool} {n : Nat}

theorem fin_expectEq {t : Token} (ht : Plain t) : Fin b n (Is t) (expectEq t) (Then b (n - 1) Top) := by
  unfold expectEq
  refine fin_peekSkip t ?_ fun x => ?_
  · dsimp only
    rw [if_pos rfl]
    exact fin_bump (f := pure) ht (fin_ret (by omega) (by pp))
  · dsimp only
    split
    · exact br_bump (f := pure) fun _ => fin_ret (by omega) (by pp)
    · exact br_unexpected

theorem fin_parseIdent : Fin b n (Is idA) parseIdent (Then b (n - 1) Top) := by
  unfold parseIdent
  refine fin_peekSkip idA ?_ fun x => ?_
  · exact fin_bump (by plain) (fin_ret (by omega) (by pp))
  · dsimp only
    split
    · exact br_bump fun _ => fin_ret (by omega) (by pp)
    · exact br_unexpected

theorem fin_parseInt : Fin b n (Is (.int 1)) parseInt (Then b (n - 1) Top) := by
  unfold parseInt
  refine Fin.seq (n1 := n) (n2 := n) (P1 := Is (.int 1)) (P2 := Is (.int 1)) ?_ (by omega) (by pp) fun st => ?_
  · refine fin_peekSkip (.int 1) ?_ fun x => ?_
    · exact fin_ret (by omega) (by pp)
    · dsimp only
      split
      · exact br_bump fun _ => fin_ret (by omega) (by pp)
      · exact (fin_ret (Q' := Top) (by omega) (by pp)).br
  · refine fin_peekSkip (.int 1) ?_ fun x => ?_
    · dsimp only
      refine fin_bump (by plain) ?_
      cases st <;> exact fin_ret (by omega) (by pp)
    · dsimp only
      split
      · refine br_bump fun _ => ?_
        cases st <;> exact fin_ret (by omega) (by pp)
      · exact br_unexpected

theorem fin_stringLoop {P : Pred} (hP : ∀ o, P o → NotStr o) {c s} (hc : n < c) : Fin b n P (loopM stringStep c s) (Then b n P) := by
  refine fin_loopT (fun m _ s => ?_) hc
  refine fin_thru s trivial (fun z hz => ?_) ?_
  · have := hP _ hz
    cases z with
    | nil => rfl
    | cons t z =>
      cases t <;> first | rfl | exact absurd rfl (this _)
  · unfold stringStep
    refine br_peekSkip fun t => ?_
    dsimp only
    split
    · exact br_bump fun h => (fin_next (by omega) h).mono (by pp) fun _ _ h => h
    · exact (fin_done (by omega) (by pp)).br

theorem fin_parseString {P : Pred} (hP : ∀ o, P o → NotStr o) {F} (hF : 2 * n + 2 ≤ F) :
    Fin b n (Is (.string [])) (parseString F) (Then b (n - 1) P) := by
  unfold parseString
  refine fin_peekSkip (.string []) ?_ fun x => ?_
  · exact fin_bump (by plain) ((fin_stringLoop hP (by omega)).mono (by pp) fun _ _ h => h)
  · dsimp only
    split
    · exact br_bump fun _ => (fin_stringLoop hP (by omega)).mono (by pp) fun _ _ h => h
    · exact br_unexpected

theorem fin_parseUtf8String {P : Pred} (hP : ∀ o, P o → NotStr o) {F} (hF : 2 * n + 2 ≤ F) :
    Fin b n (Is (.string [])) (parseUtf8String F) (Then b (n - 1) P) := by
  unfold parseUtf8String
  sq n - 1, P, fin_parseString hP hF
  split
  · exact fin_ret (by omega) (by pp)
  · exact fin_addError rfl rfl fun _ => fin_ret (by omega) (by pp)

theorem fin_parseFullIdent {terms F} (hF : 2 * n + 2 ≤ F) :
    Fin b n (Is idA) (parseFullIdent F terms) (ThenIf b (n - 1) (TermP terms) fun a => a.parts ≠ []) := by
  unfold parseFullIdent
  refine Fin.seq (n2 := n - 1) (P2 := TermP terms) fin_parseIdent (by omega) (by pp) fun i => ?_
  refine fin_loop (I := fun a => a ≠ []) (n - 1) F [i] (fun m _ s hs => ?_) (by omega) (by simp)
  refine fin_thru ⟨s⟩ hs (fun z hz => ?_) ?_
  · obtain ⟨t, h1, h2, h3⟩ := hz
    cases z with
    | nil => cases h1
    | cons x z =>
      cases h1
      show exec (if t = Token.dot then _ else if terms.any (·.matches t) = true then pure (Step.done (⟨s⟩ : Ast.FullIdent)) else _) _ = _
      rw [if_neg h2, if_pos h3]
      rfl
  · unfold fullIdentStep
    refine br_peekSkip fun t => ?_
    dsimp only
    split
    · refine br_bump fun h => ?_
      refine Fin.mono (Q := Is idA) ?_ (by pp) fun _ _ h => h
      sq m - 1, TermP terms, fin_parseIdent
      exact fin_pure fun _ h' => (h' (by simp) h).mono (by omega) (by pp)
    · split
      · exact (fin_pure (Q := TermP terms) fun _ h' => h' hs).br
      · exact br_unexpected

theorem fin_parseTypeName {terms F} (hF : 2 * n + 2 ≤ F) :
    Fin b n (Is idA) (parseTypeName F terms) (ThenIf b (n - 1) (TermP terms) fun a => a.name.parts ≠ []) := by
  unfold parseTypeName
  refine Fin.seq (n1 := n) (n2 := n) (P1 := Is idA) (P2 := Is idA) ?_ (by omega) (by pp) fun d => ?_
  · refine fin_peek idA ?_ fun x => ?_
    · exact fin_ret (by omega) (by pp)
    · dsimp only
      split
      · exact br_bump fun _ => fin_ret (by omega) (by pp)
      · split
        · exact (fin_ret (Q' := Top) (by omega) (by pp)).br
        · exact br_unexpected
  · refine Fin.seqIf (n2 := n - 1) (P2 := TermP terms) (fin_parseFullIdent hF) (by omega) (by pp) fun a ha => ?_
    exact fin_pure fun _ h => h ha

variable [FloatFmt]

theorem textLoop_can {K : Bytes → Prog Unit} (hK : ∀ a, Can b (Is .rightBrace) (K a)) : ∀ l c text, l < c →
    Can b (Is .rightBrace) (loopM textFormatStep c (text, l) >>= K)
  | _, 0, _, h => absurd h (Nat.not_lt_zero _)
  | 0, c + 1, text, _ => by
    obtain ⟨z, h1, h2, h3⟩ := hK text
    refine ⟨z, h1, h2, ?_⟩
    cases z with
    | nil => cases h2
    | cons x z => cases h2; exact h3
  | l + 1, c + 1, text, h => by
    obtain ⟨z, h1, h2, h3⟩ := textLoop_can hK l c ((if text = [] then text else text ++ [32]) ++ Token.rightBrace.display) (by omega)
    refine ⟨.rightBrace :: z, ?_, rfl, h3⟩
    intro t ht
    rcases List.mem_cons.1 ht with rfl | ht
    · plain
    · exact h1 t ht

theorem br_textFormatStep {text : Bytes} {l : Nat} :
    Br' b n (textFormatStep (text, l)) (LoopR b n (Is .rightBrace) (Is .rightBrace) (fun s : Bytes × Nat => s.2 ≤ l + 1) fun _ : Bytes => True) := by
  unfold textFormatStep
  refine br_peek fun t => ?_
  dsimp only
  split
  · exact br_ret fun _ h => (h trivial).ac
  · refine br_bump fun h => fin_pure fun _ h' => (h' ?_ h).mono (by omega) (by pp)
    show (if t = Token.leftBrace then l + 1 else if t = Token.rightBrace then l - 1 else l) ≤ l + 1
    split
    · omega
    · split <;> omega

theorem textLoop_ac {K : Bytes → Prog Unit} (hK : ∀ a, Can b (Is .rightBrace) (K a)) : ∀ n c text l, 2 * n + l < c →
    (∀ a, AC b (K a) n) → AC b (loopM textFormatStep c (text, l) >>= K) n
  | _, 0, _, _, h, _ => absurd h (Nat.not_lt_zero _)
  | n, c + 1, text, l, h, hA => by
    rw [loopM, bind_assoc']
    refine br_textFormatStep.run _ fun x => ?_
    cases x with
    | next s' =>
      intro hs hn
      exact ⟨textLoop_can hK _ c _ (by omega), textLoop_ac hK (n - 1) c _ _ (by omega) fun a => ac_mono _ (by omega) (hA a)⟩
    | done a => exact fun _ => ⟨hK a, hA a⟩

theorem fin_parseTextFormat {F} (hF : 2 * n + 2 ≤ F) : Fin b n (Is .rightBrace) (parseTextFormat F) (Then b n (Is .rightBrace)) := by
  unfold parseTextFormat
  refine fin_assertNoPeek fun _ => fin_setTextMode fun _ => ?_
  refine Fin.seq (n1 := n) (n2 := n) (P1 := Is .rightBrace) (P2 := Is .rightBrace) ?_ (by omega) (by pp) fun _ => ?_
  · exact ⟨fun K hK => ⟨textLoop_can (fun a => (hK a).can) _ _ _ (by omega), textLoop_ac (fun a => (hK a).can) _ _ _ _ (by omega) fun a => (hK a).ac⟩⟩
  · exact fin_setTextMode fun _ => fin_ret (by omega) (by pp)

omit [FloatFmt] in
theorem fin_parseOptionNamePart {F} (hF : 2 * n + 2 ≤ F) : Fin b n (Is idA) (parseOptionNamePart F) (Then b (n - 1) Top) := by
  unfold parseOptionNamePart
  refine fin_peek idA ?_ fun x => ?_
  · show Fin b n (Is idA) (parseIdent >>= fun i => pure (Ast.OptionNamePart.ident i)) _
    sq n - 1, Top, fin_parseIdent
    exact fin_ret (by omega) (by pp)
  · dsimp only
    split
    · refine br_bump fun _ => ?_
      refine Fin.mono (Q := Is idA) ?_ (by pp) fun _ _ h => h
      refine Fin.seqIf (n2 := n - 1) (P2 := Is .rightParen) (fin_parseTypeName (by omega)) (by omega) (by pp) fun a _ => ?_
      sq n - 1, Top, fin_expectEq (by plain)
      exact fin_ret (by omega) (by pp)
    · split
      · refine Fin.br (Q := Is idA) ?_
        sq n - 1, Top, fin_parseIdent
        exact fin_ret (by omega) (by pp)
      · exact br_unexpected

omit [FloatFmt] in
theorem fin_optionNameLoop {F s} (hF : 2 * n + 2 ≤ F) : Fin b n (Is .equals) (loopM (optionNameStep F) F s) (Then b n Top) := by
  refine fin_loopT (fun m hm s => ?_) (by omega)
  unfold optionNameStep
  refine fin_peekSkip .equals ?_ fun x => ?_
  · exact fin_bump (by plain) (fin_done (by omega) (by pp))
  · dsimp only
    split
    · refine br_bump fun h => ?_
      refine Fin.mono (Q := Is idA) ?_ (by pp) fun _ _ h => h
      sq m - 1, Is .equals, fin_parseOptionNamePart (by omega)
      exact fin_next (by omega) h
    · split
      · exact br_bump fun h => fin_done (by omega) (by pp)
      · exact br_unexpected

theorem fin_parseOptionValue {P : Pred} (hP : ∀ o, P o → NotStr o) {F} (hF : 2 * n + 2 ≤ F) :
    Fin b n (Is idA) (parseOptionValue F) (Then b (n - 1) P) := by
  have hid : ∀ {n : Nat} {γ : Type} {g : Ast.Ident → γ}, Fin b n (Is idA) (parseIdent >>= fun i => pure (g i)) (Then b (n - 1) P) := by
    intro n γ g
    sq n - 1, P, fin_parseIdent
    exact fin_ret (by omega) (by pp)
  unfold parseOptionValue
  refine fin_peekSkip idA hid fun x => ?_
  dsimp only
  split
  · refine br_bump fun h => ?_
    refine Fin.mono (Q := Is idA) ?_ (by pp) fun _ _ h => h
    refine fin_peekSkip idA (hid.mono (by pp) fun _ _ h => h.mono (by omega) (by pp)) fun y => ?_
    dsimp only
    split
    · exact (hid.mono (Q' := Top) (by pp) fun _ _ h => h.mono (by omega) (by pp)).br
    · exact br_bump fun _ => fin_ret (by omega) (by pp)
    · exact br_bump fun _ => fin_ret (by omega) (by pp)
    · exact br_unexpected
  · exact hid.br
  · exact br_bump fun _ => fin_ret (by omega) (by pp)
  · exact br_bump fun _ => fin_ret (by omega) (by pp)
  · refine Fin.br (Q := Is (.string [])) ?_
    sq n - 1, P, fin_parseString hP hF
    exact fin_ret (by omega) (by pp)
  · refine br_bump fun _ => ?_
    refine Fin.mono (Q := Is .rightBrace) ?_ (by pp) fun _ _ h => h
    sq n - 1, Is .rightBrace, fin_parseTextFormat (by omega)
    sq n - 1, P, fin_expectEq (by plain)
    exact fin_ret (by omega) (by pp)
  · exact br_unexpected

theorem fin_parseOptionBody {P : Pred} (hP : ∀ o, P o → NotStr o) {F} (hF : 2 * n + 2 ≤ F) :
    Fin b n (Is idA) (parseOptionBody F) (Then b (n - 1) P) := by
  unfold parseOptionBody
  sq n - 1, Is .equals, fin_parseOptionNamePart hF
  sq n - 1, Is idA, fin_optionNameLoop (by omega)
  sq n - 1, P, fin_parseOptionValue hP (by omega)
  exact fin_ret (by omega) (by pp)

theorem fin_parseOption {F} (hF : 2 * n + 2 ≤ F) : Fin b n (Is (kw b!"option")) (parseOption F) (Then b (n - 1) Top) := by
  unfold parseOption
  refine fin_leading fun _ => ?_
  sq n - 1, Is idA, fin_expectEq (by plain)
  sq n - 1, Is .semicolon, fin_parseOptionBody (P := NotStr) (by pp) (by omega)
  sq n - 1, Top, fin_expectEq (by plain)
  exact fin_trailing fun _ => fin_ret (by omega) (by pp)

theorem fin_parseOptionsList {F} (hF : 2 * n + 2 ≤ F) : Fin b n (Is .leftBracket) (parseOptionsList F) (Then b (n - 1) Top) := by
  unfold parseOptionsList
  sq n - 1, Is idA, fin_expectEq (by plain)
  sq n - 1, Is .rightBracket, fin_parseOptionBody (P := NotStr) (by pp) (by omega)
  refine Fin.seq (n1 := n - 1) (n2 := n - 1) (P1 := Top) (P2 := Top) ?_ (by omega) (by pp) fun _ => fin_ret (by omega) (by pp)
  refine fin_loopT (fun m hm s => ?_) (by omega)
  unfold optionsListStep
  refine fin_peekSkip .rightBracket ?_ fun x => ?_
  · exact fin_bump (by plain) (fin_done (by omega) (by pp))
  · dsimp only
    split
    · refine br_bump fun h => ?_
      refine Fin.mono (Q := Is idA) ?_ (by pp) fun _ _ h => h
      sq m - 1, Is .rightBracket, fin_parseOptionBody (P := NotStr) (by pp) (by omega)
      exact fin_next (by omega) h
    · split
      · exact br_bump fun h => fin_done (by omega) (by pp)
      · exact br_unexpected

theorem fin_parseOptOptions {t : Token} (ht : t ≠ .leftBracket) {F} (hF : 2 * n + 2 ≤ F) :
    Fin b n (Is t) (parseOptOptions F t) (Then b n (Is t)) := by
  unfold parseOptOptions
  refine fin_peekSkip t ?_ fun x => ?_
  · dsimp only
    rw [if_neg ht, if_pos rfl]
    exact fin_ret (by omega) (by pp)
  · dsimp only
    split
    · refine Fin.br (Q := Is .leftBracket) ?_
      sq n - 1, Is t, fin_parseOptionsList hF
      exact fin_ret (by omega) (by pp)
    · split
      · exact (fin_ret (Q' := Top) (by omega) (by pp)).br
      · exact br_unexpected

end
end Verif.Exec
