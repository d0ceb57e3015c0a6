import Verif.Proofs.Via2
/-! The other grammar methods: what they have begun can be finished. -/
namespace Verif.Exec
open Parse Prog Spec

section
variable {b : Bool} {n : Nat}

/-- Leaving a method by its first token: the rest of a branch. -/
macro "top " q:term : tactic => `(tactic| refine Fin.mono (Q := $q) ?_ (by pp) fun _ _ h => h)

abbrev RangeP : Pred := fun o => o = some .comma ∨ o = some .semicolon

theorem fin_parseReservedRange : Fin b n (Is (.int 1)) parseReservedRange (Then b (n - 1) RangeP) := by
  unfold parseReservedRange
  refine Fin.seq (n2 := n - 1) (P2 := RangeP) fin_parseInt (by omega) (by pp) fun st => ?_
  have hb : Br' b (n - 1) (peekSkip >>= fun o => match o with
      | some (tok, _) =>
        if tok = kw b!"to" then do
          let _ ← bump
          match ← peekSkip with
          | some (tok2, span) =>
            if tok2 = kw b!"max" then do
              let _ ← bump
              pure (⟨st, .max span⟩ : Ast.ReservedRange)
            else match tok2 with
              | .int _ | .minus => do
                let i ← parseInt
                pure ⟨st, .int i⟩
              | _ => unexpected Says.rangeEnd
          | none => unexpected Says.rangeEnd
        else if tok = .comma ∨ tok = .semicolon then pure ⟨st, .none⟩
        else unexpected Says.rangeTo
      | none => unexpected Says.rangeTo) (Then b (n - 1) RangeP) := by
    refine br_peekSkip fun x => ?_
    dsimp only
    split
    · refine br_bump fun _ => ?_
      top Is (.ident b!"max")
      refine fin_peekSkip (.ident b!"max") ?_ fun y => ?_
      · exact fin_bump (by plain) (fin_ret (by omega) (by pp))
      · dsimp only
        split
        · exact br_bump fun _ => fin_ret (by omega) (by pp)
        · have hi : Br' b (n - 1 - 1) (parseInt >>= fun i => pure (⟨st, .int i⟩ : Ast.ReservedRange)) (Then b (n - 1) RangeP) := by
            refine Fin.br (Q := Is (.int 1)) ?_
            sq n - 1 - 1, RangeP, fin_parseInt
            exact fin_ret (by omega) (by pp)
          split
          · exact hi
          · exact hi
          · exact br_unexpected
    · split
      · exact (fin_ret (Q' := RangeP) (by omega) (by pp)).br
      · exact br_unexpected
  refine ⟨fun K hK => ⟨?_, hb.run K hK⟩⟩
  obtain ⟨z, h1, h2, h3⟩ := (hK ⟨st, .none⟩).can
  refine ⟨z, h1, h2, ?_⟩
  cases z with
  | nil => rcases h2 with h2 | h2 <;> cases h2
  | cons t z => rcases h2 with h2 | h2 <;> (cases h2; exact h3)

theorem fin_parseReservedRanges {terms : List Expected} {P : Pred} (hP : ∀ o, P o → o = some .semicolon)
    (ht : terms.any (·.matches .semicolon) = true) {F} (hF : 2 * n + 2 ≤ F) :
    Fin b n (Is (.int 1)) (parseReservedRanges F terms) (Then b (n - 1) P) := by
  unfold parseReservedRanges
  refine Fin.seq (n2 := n - 1) (P2 := P) fin_parseReservedRange (by omega) (fun o h => .inr (hP o h)) fun r => ?_
  refine fin_loopT (fun m hm s => ?_) (by omega)
  refine fin_thru s trivial (fun z hz => ?_) ?_
  · have := hP _ hz
    cases z with
    | nil => cases this
    | cons t z =>
      cases this
      show exec (if terms.any (·.matches .semicolon) = true then pure (Step.done s) else unexpected _) _ = _
      rw [if_pos ht]
      rfl
  · unfold reservedRangesStep
    refine br_peekSkip fun t => ?_
    dsimp only
    split
    · refine br_bump fun h => ?_
      top Is (.int 1)
      refine Fin.seq (n2 := m - 1) (P2 := P) fin_parseReservedRange (by omega) (fun o h => .inr (hP o h)) fun r => ?_
      exact fin_next (by omega) h
    · split
      · exact (fin_done (Q' := P) (by omega) (by pp)).br
      · exact br_unexpected

theorem fin_parseIdentString {P : Pred} (hP : ∀ o, P o → NotStr o) {F} (hF : 2 * n + 2 ≤ F) :
    Fin b n (Is (.string [])) (parseIdentString F) (Then b (n - 1) P) := by
  unfold parseIdentString
  sq n - 1, P, fin_parseUtf8String hP hF
  dsimp only
  split
  · exact fin_ret (by omega) (by pp)
  · exact fin_addError rfl rfl fun _ => fin_ret (by omega) (by pp)

theorem fin_parseReservedNames {F} (hF : 2 * n + 2 ≤ F) : Fin b n (Is (.string [])) (parseReservedNames F) (Then b (n - 1) Top) := by
  unfold parseReservedNames
  sq n - 1, Is .semicolon, fin_parseIdentString (P := NotStr) (by pp) hF
  refine fin_loopT (fun m hm s => ?_) (by omega)
  unfold reservedNamesStep
  refine fin_peekSkip .semicolon ?_ fun x => ?_
  · exact fin_bump (by plain) (fin_done (by omega) (by pp))
  · dsimp only
    split
    · refine br_bump fun h => ?_
      top Is (.string [])
      sq m - 1, Is .semicolon, fin_parseIdentString (P := NotStr) (by pp) (by omega)
      exact fin_next (by omega) h
    · split
      · exact br_bump fun h => fin_done (by omega) (by pp)
      · exact br_unexpected

theorem fin_parseReserved {F} (hF : 2 * n + 2 ≤ F) : Fin b n (Is (kw b!"reserved")) (parseReserved F) (Then b (n - 1) Top) := by
  unfold parseReserved
  refine fin_leading fun l => ?_
  refine Fin.seq (n2 := n - 1) (P2 := Is (.int 1)) (fin_expectEq (by plain)) (by omega) (by pp) fun st => ?_
  have hr : Fin b (n - 1) (Is (.int 1)) (do
      let ranges ← parseReservedRanges F [.token .semicolon]
      let stop ← expectEq .semicolon
      let comments ← trailing l
      pure (⟨.ranges ranges, comments, joinSpan st stop⟩ : Ast.Reserved)) (Then b (n - 1) Top) := by
    sq n - 1, Is .semicolon, fin_parseReservedRanges (P := Is .semicolon) (by pp) rfl (by omega)
    sq n - 1, Top, fin_expectEq (by plain)
    exact fin_trailing fun _ => fin_ret (by omega) (by pp)
  refine fin_peekSkip (.int 1) hr fun x => ?_
  dsimp only
  split
  · exact hr.br
  · exact hr.br
  · refine Fin.br (Q := Is (.string [])) ?_
    sq n - 1, Top, fin_parseReservedNames (by omega)
    exact fin_trailing fun _ => fin_ret (by omega) (by pp)
  · exact br_unexpected

variable [FloatFmt]

theorem fin_parseExtensions {F} (hF : 2 * n + 2 ≤ F) : Fin b n (Is (kw b!"extensions")) (parseExtensions F) (Then b (n - 1) Top) := by
  unfold parseExtensions
  refine fin_leading fun l => ?_
  sq n - 1, Is (.int 1), fin_expectEq (by plain)
  sq n - 1, Is .semicolon, fin_parseReservedRanges (P := Is .semicolon) (by pp) rfl (by omega)
  sq n - 1, Is .semicolon, fin_parseOptOptions (by decide) (by omega)
  sq n - 1, Top, fin_expectEq (by plain)
  exact fin_trailing fun _ => fin_ret (by omega) (by pp)

omit [FloatFmt] in
theorem fin_parseFieldType {terms F} (hF : 2 * n + 2 ≤ F) : Fin b n (Is idA) (parseFieldType F terms) (Then b (n - 1) (TermP terms)) := by
  have hn : Fin b n (Is idA) (do
      let t ← parseTypeName F terms
      match t.span with
      | some sp => pure ((.named t : Ast.Ty), sp)
      | none => .panicked) (Then b (n - 1) (TermP terms)) := by
    refine Fin.seqIf (n2 := n - 1) (P2 := TermP terms) (fin_parseTypeName hF) (by omega) (by pp) fun a ha => ?_
    obtain ⟨d, ⟨ps⟩⟩ := a
    have : ∃ sp, Ast.TypeName.span ⟨d, ⟨ps⟩⟩ = some sp := by
      cases ps with
      | nil => exact absurd rfl ha
      | cons p ps => cases d <;> exact ⟨_, rfl⟩
    obtain ⟨sp, hsp⟩ := this
    rw [hsp]
    exact fin_ret (by omega) (by pp)
  unfold parseFieldType
  refine fin_peek idA hn fun x => ?_
  dsimp only
  split
  · exact br_bump fun _ => fin_ret (by omega) (by pp)
  · split
    · exact hn.br
    · exact br_unexpected

theorem fin_parseMap {F a s l} (hF : 2 * n + 2 ≤ F) : Fin b n (Is (kw b!"map")) (parseMap F a s l) (Then b (n - 1) Top) := by
  unfold parseMap
  sq n - 1, Is .leftAngle, fin_expectEq (by plain)
  sq n - 1, Is idA, fin_expectEq (by plain)
  sq n - 1, Is .comma, fin_parseFieldType (by omega)
  sq n - 1, Is idA, fin_expectEq (by plain)
  sq n - 1, Is .rightAngle, fin_parseFieldType (by omega)
  sq n - 1, Is idA, fin_expectEq (by plain)
  sq n - 1, Is .equals, fin_parseIdent
  sq n - 1, Is (.int 1), fin_expectEq (by plain)
  sq n - 1, Is .semicolon, fin_parseInt
  sq n - 1, Is .semicolon, fin_parseOptOptions (by decide) (by omega)
  sq n - 1, Top, fin_expectEq (by plain)
  exact fin_trailing fun _ => fin_ret (by omega) (by pp)

/-- What a nested body must satisfy. -/
abbrev FinBody (b : Bool) (n : Nat) (body : Prog (Ast.MessageBody × Span)) : Prop := Fin b n (Is .rightBrace) body (Then b n Top)

theorem fin_parseGroup {body} (hb : FinBody b (n - 1) body) {F a s l} (hF : 2 * n + 2 ≤ F) :
    Fin b n (Is (kw b!"group")) (parseGroup body F a s l) (Then b (n - 1) Top) := by
  unfold parseGroup
  sq n - 1, Is idA, fin_expectEq (by plain)
  refine Fin.seq (n2 := n - 1) (P2 := Is .equals) fin_parseIdent (by omega) (by pp) fun i => ?_
  refine Fin.seq (n1 := n - 1) (n2 := n - 1) (P1 := Is .equals) (P2 := Is .equals) ?_ (by omega) (by pp) fun _ => ?_
  · split
    · exact fin_ret (by omega) (by pp)
    · exact fin_addError (f := pure) rfl rfl fun _ => fin_ret (by omega) (by pp)
  sq n - 1, Is (.int 1), fin_expectEq (by plain)
  sq n - 1, Is .leftBrace, fin_parseInt
  sq n - 1, Is .leftBrace, fin_parseOptOptions (by decide) (by omega)
  sq n - 1, Is .rightBrace, fin_expectEq (by plain)
  refine fin_trailing fun _ => ?_
  sq n - 1, Top, hb
  exact fin_ret (by omega) (by pp)

theorem fin_parseNormalField {F a s l} (hF : 2 * n + 2 ≤ F) : Fin b n (Is idA) (parseNormalField F a s l) (Then b (n - 1) Top) := by
  unfold parseNormalField
  sq n - 1, Is idA, fin_parseFieldType hF
  sq n - 1, Is .equals, fin_parseIdent
  sq n - 1, Is (.int 1), fin_expectEq (by plain)
  sq n - 1, Is .semicolon, fin_parseInt
  sq n - 1, Is .semicolon, fin_parseOptOptions (by decide) (by omega)
  sq n - 1, Top, fin_expectEq (by plain)
  exact fin_trailing fun _ => fin_ret (by omega) (by pp)

omit [FloatFmt] in
theorem fin_parseLabel : Fin b n (Is idA) parseLabel (Then b n (Is idA)) := by
  unfold parseLabel
  refine fin_peek idA ?_ fun x => ?_
  · exact fin_ret (by omega) (by pp)
  · dsimp only
    (repeat' split) <;> first
      | exact br_bump fun _ => fin_ret (by omega) (by pp)
      | exact br_unexpected
      | exact (fin_ret (Q' := Top) (by omega) (by pp)).br

theorem fin_parseField {body} (hb : 0 < n → FinBody b (n - 1) body) {F} (hF : 2 * n + 2 ≤ F) :
    Fin b n (Is idA) (parseField body F) (Then b (n - 1) Top) := by
  unfold parseField
  refine fin_leading fun l => ?_
  refine Fin.seq (n2 := n) (P2 := Is idA) fin_parseLabel (by omega) (by pp) fun ⟨lb, st⟩ => ?_
  refine fin_peek idA ?_ fun x => ?_
  · exact fin_parseNormalField hF
  · dsimp only
    split
    · exact (fin_parseMap hF).br
    · split
      · exact .pos fun h => (fin_parseGroup (hb h) hF).br
      · exact (fin_parseNormalField hF).br

theorem fin_parseEnumValue {F} (hF : 2 * n + 2 ≤ F) : Fin b n (Is idA) (parseEnumValue F) (Then b (n - 1) Top) := by
  unfold parseEnumValue
  refine fin_leading fun l => ?_
  sq n - 1, Is .equals, fin_parseIdent
  sq n - 1, Is (.int 1), fin_expectEq (by plain)
  sq n - 1, Is .semicolon, fin_parseInt
  sq n - 1, Is .semicolon, fin_parseOptOptions (by decide) (by omega)
  sq n - 1, Top, fin_expectEq (by plain)
  exact fin_trailing fun _ => fin_ret (by omega) (by pp)

/-- A branch of a loop that reads one item. -/
theorem br_item {α σ β : Type} {Q Q' : Pred} {p : Prog α} {g : α → σ} (h : 0 < n → Fin b n Q p (Then b (n - 1) Top)) :
    Br' b n (p >>= fun x => pure (.next (g x))) (LoopT (β := β) b n Top Q') := by
  refine .pos fun hn => Fin.br (Q := Q) ?_
  exact Fin.seq (n2 := n - 1) (P2 := Q') (h hn) (by omega) (by pp) fun _ => fin_next (by omega) hn

theorem br_again {σ β : Type} {Q' : Pred} {s : σ} : Br' b n (bump >>= fun _ => pure (.next s)) (LoopT (β := β) b n Top Q') :=
  br_bump fun hn => Fin.mono (Q := Q') (fin_next (by omega) hn) (by pp) fun _ _ h => h

theorem br_finish {σ β : Type} {Q' : Pred} {g : Span → β} : Br' b n (bump >>= fun x => pure (.done (g x))) (LoopT (σ := σ) b n Top Q') :=
  br_bump fun _ => fin_done (by omega) (by pp)

theorem fin_enumLoop {F s} (hF : 2 * n + 2 ≤ F) : Fin b n (Is .rightBrace) (loopM (enumStep F) F s) (Then b n Top) := by
  refine fin_loopT (fun m hm s => ?_) (by omega)
  unfold enumStep
  refine fin_peek .rightBrace ?_ fun x => ?_
  · exact fin_bump (by plain) (fin_done (by omega) (by pp))
  · dsimp only
    (repeat' split) <;> first
      | exact br_unexpected
      | exact br_again
      | exact br_finish
      | exact br_item fun _ => fin_parseOption (by omega)
      | exact br_item fun _ => fin_parseReserved (by omega)
      | exact br_item fun _ => fin_parseEnumValue (by omega)

theorem fin_parseEnum {F} (hF : 2 * n + 2 ≤ F) : Fin b n (Is (kw b!"enum")) (parseEnum F) (Then b (n - 1) Top) := by
  unfold parseEnum
  refine fin_leading fun l => ?_
  sq n - 1, Is idA, fin_expectEq (by plain)
  sq n - 1, Is .leftBrace, fin_parseIdent
  sq n - 1, Is .rightBrace, fin_expectEq (by plain)
  refine fin_trailing fun _ => ?_
  sq n - 1, Top, fin_enumLoop (by omega)
  exact fin_ret (by omega) (by pp)

theorem fin_parseOneof {body} (hb : ∀ m, m < n → FinBody b m body) {F} (hF : 2 * n + 2 ≤ F) :
    Fin b n (Is (kw b!"oneof")) (parseOneof body F) (Then b (n - 1) Top) := by
  unfold parseOneof
  refine fin_leading fun l => ?_
  sq n - 1, Is idA, fin_expectEq (by plain)
  sq n - 1, Is .leftBrace, fin_parseIdent
  sq n - 1, Is .rightBrace, fin_expectEq (by plain)
  refine fin_trailing fun _ => ?_
  refine Fin.seq (n1 := n - 1) (n2 := n - 1) (P1 := Top) (P2 := Top) ?_ (by omega) (by pp) fun _ => fin_ret (by omega) (by pp)
  refine fin_loopT (fun m hm s => ?_) (by omega)
  unfold oneofStep
  refine fin_peek .rightBrace ?_ fun x => ?_
  · exact fin_bump (by plain) (fin_done (by omega) (by pp))
  · dsimp only
    (repeat' split) <;> first
      | exact br_unexpected
      | exact br_again
      | exact br_finish
      | exact br_item fun _ => fin_parseOption (by omega)
      | exact br_item fun _ => fin_parseField (fun h => hb _ (by omega)) (by omega)

theorem fin_parseExtend {body} (hb : ∀ m, m < n → FinBody b m body) {F} (hF : 2 * n + 2 ≤ F) :
    Fin b n (Is (kw b!"extend")) (parseExtend body F) (Then b (n - 1) Top) := by
  unfold parseExtend
  refine fin_leading fun l => ?_
  sq n - 1, Is idA, fin_expectEq (by plain)
  refine Fin.seqIf (n2 := n - 1) (P2 := Is .leftBrace) (fin_parseTypeName (by omega)) (by omega) (by pp) fun a _ => ?_
  sq n - 1, Is .rightBrace, fin_expectEq (by plain)
  refine fin_trailing fun _ => ?_
  refine Fin.seq (n1 := n - 1) (n2 := n - 1) (P1 := Top) (P2 := Top) ?_ (by omega) (by pp) fun _ => fin_ret (by omega) (by pp)
  refine fin_loopT (fun m hm s => ?_) (by omega)
  unfold extendStep
  refine fin_peek .rightBrace ?_ fun x => ?_
  · exact fin_bump (by plain) (fin_done (by omega) (by pp))
  · dsimp only
    (repeat' split) <;> first
      | exact br_unexpected
      | exact br_again
      | exact br_finish
      | exact br_item fun _ => fin_parseField (fun h => hb _ (by omega)) (by omega)

omit [FloatFmt] in
theorem fin_parseMessage {body} (hb : FinBody b (n - 1) body) : Fin b n (Is (kw b!"message")) (parseMessage body) (Then b (n - 1) Top) := by
  unfold parseMessage
  refine fin_leading fun l => ?_
  sq n - 1, Is idA, fin_expectEq (by plain)
  sq n - 1, Is .leftBrace, fin_parseIdent
  sq n - 1, Is .rightBrace, fin_expectEq (by plain)
  refine fin_trailing fun _ => ?_
  sq n - 1, Top, hb
  exact fin_ret (by omega) (by pp)

theorem fin_parseMessageBody {F} : ∀ d n, 2 * n + 2 ≤ F → n < d → FinBody b n (parseMessageBody F d)
  | 0, _, _, h => absurd h (Nat.not_lt_zero _)
  | d + 1, n, hF, hd => by
    unfold parseMessageBody
    have hb : ∀ m, m < n → FinBody b m (parseMessageBody F d) := fun m hm => fin_parseMessageBody d m (by omega) (by omega)
    refine fin_loopT (fun m hm s => ?_) (by omega)
    unfold bodyStep
    refine fin_peek .rightBrace ?_ fun x => ?_
    · exact fin_bump (by plain) (fin_done (by omega) (by pp))
    · dsimp only
      (repeat' split) <;> first
        | exact br_unexpected
        | exact br_again
        | exact br_finish
        | exact br_item fun _ => fin_parseOneof (fun _ h => hb _ (by omega)) (by omega)
        | exact br_item fun _ => fin_parseEnum (by omega)
        | exact br_item fun _ => fin_parseMessage (hb _ (by omega))
        | exact br_item fun _ => fin_parseExtend (fun _ h => hb _ (by omega)) (by omega)
        | exact br_item fun _ => fin_parseOption (by omega)
        | exact br_item fun _ => fin_parseReserved (by omega)
        | exact br_item fun _ => fin_parseExtensions (by omega)
        | exact br_item fun _ => fin_parseField (fun h => hb _ (by omega)) (by omega)

omit [FloatFmt] in
theorem fin_parseStreaming : Fin b n (Is idA) parseStreaming (Then b n (Is idA)) := by
  unfold parseStreaming
  refine fin_peekSkip idA ?_ fun x => ?_
  · exact fin_ret (by omega) (by pp)
  · dsimp only
    (repeat' split) <;> first
      | exact br_bump fun _ => fin_ret (by omega) (by pp)
      | exact br_unexpected
      | exact (fin_ret (Q' := Top) (by omega) (by pp)).br

theorem fin_methodLoop {F s} (hF : 2 * n + 2 ≤ F) : Fin b n (Is .rightBrace) (loopM (methodOptionStep F) F s) (Then b n Top) := by
  refine fin_loopT (fun m hm s => ?_) (by omega)
  unfold methodOptionStep
  refine fin_peek .rightBrace ?_ fun x => ?_
  · exact fin_bump (by plain) (fin_done (by omega) (by pp))
  · dsimp only
    (repeat' split) <;> first
      | exact br_unexpected
      | exact br_again
      | exact br_finish
      | exact br_item fun _ => fin_parseOption (by omega)

theorem fin_parseRpc {F} (hF : 2 * n + 2 ≤ F) : Fin b n (Is (kw b!"rpc")) (parseRpc F) (Then b (n - 1) Top) := by
  unfold parseRpc
  refine fin_leading fun l => ?_
  sq n - 1, Is idA, fin_expectEq (by plain)
  sq n - 1, Is .leftParen, fin_parseIdent
  sq n - 1, Is idA, fin_expectEq (by plain)
  sq n - 1, Is idA, fin_parseStreaming
  refine Fin.seqIf (n2 := n - 1) (P2 := Is .rightParen) (fin_parseTypeName (by omega)) (by omega) (by pp) fun _ _ => ?_
  sq n - 1, Is (kw b!"returns"), fin_expectEq (by plain)
  sq n - 1, Is .leftParen, fin_expectEq (by plain)
  sq n - 1, Is idA, fin_expectEq (by plain)
  sq n - 1, Is idA, fin_parseStreaming
  refine Fin.seqIf (n2 := n - 1) (P2 := Is .rightParen) (fin_parseTypeName (by omega)) (by omega) (by pp) fun _ _ => ?_
  sq n - 1, Is .semicolon, fin_expectEq (by plain)
  refine Fin.seq (n1 := n - 1) (n2 := n - 1) (P1 := Top) (P2 := Top) ?_ (by omega) (by pp) fun _ => ?_
  · refine fin_peekSkip .semicolon ?_ fun x => ?_
    · exact fin_bump (by plain) (fin_ret (by omega) (by pp))
    · dsimp only
      split
      · exact br_bump fun _ => fin_ret (by omega) (by pp)
      · split
        · refine br_bump fun _ => ?_
          exact (fin_methodLoop (by omega)).mono (by pp) fun _ _ h => h.mono (by omega) (by pp)
        · exact br_unexpected
  · exact fin_trailing fun _ => fin_ret (by omega) (by pp)

theorem fin_parseService {F} (hF : 2 * n + 2 ≤ F) : Fin b n (Is (kw b!"service")) (parseService F) (Then b (n - 1) Top) := by
  unfold parseService
  refine fin_leading fun l => ?_
  sq n - 1, Is idA, fin_expectEq (by plain)
  sq n - 1, Is .leftBrace, fin_parseIdent
  sq n - 1, Is .rightBrace, fin_expectEq (by plain)
  refine fin_trailing fun _ => ?_
  refine Fin.seq (n1 := n - 1) (n2 := n - 1) (P1 := Top) (P2 := Top) ?_ (by omega) (by pp) fun _ => fin_ret (by omega) (by pp)
  refine fin_loopT (fun m hm s => ?_) (by omega)
  unfold serviceStep
  refine fin_peek .rightBrace ?_ fun x => ?_
  · exact fin_bump (by plain) (fin_done (by omega) (by pp))
  · dsimp only
    (repeat' split) <;> first
      | exact br_unexpected
      | exact br_again
      | exact br_finish
      | exact br_item fun _ => fin_parseRpc (by omega)
      | exact br_item fun _ => fin_parseOption (by omega)

omit [FloatFmt] in
theorem fin_parsePackage {F} (hF : 2 * n + 2 ≤ F) : Fin b n (Is (kw b!"package")) (parsePackage F) (Then b (n - 1) Top) := by
  unfold parsePackage
  refine fin_leading fun l => ?_
  sq n - 1, Is idA, fin_expectEq (by plain)
  refine Fin.seqIf (n2 := n - 1) (P2 := Is .semicolon) (fin_parseFullIdent (by omega)) (by omega) (by pp) fun _ _ => ?_
  sq n - 1, Top, fin_expectEq (by plain)
  exact fin_trailing fun _ => fin_ret (by omega) (by pp)

omit [FloatFmt] in
theorem fin_parseImport {F} (hF : 2 * n + 2 ≤ F) : Fin b n (Is (kw b!"import")) (parseImport F) (Then b (n - 1) Top) := by
  unfold parseImport
  refine fin_leading fun l => ?_
  sq n - 1, Is (.string []), fin_expectEq (by plain)
  refine Fin.seq (n1 := n - 1) (n2 := n - 1) (P1 := Is (.string [])) (P2 := Is (.string [])) ?_ (by omega) (by pp) fun _ => ?_
  · refine fin_peekSkip (.string []) ?_ fun x => ?_
    · exact fin_ret (by omega) (by pp)
    · dsimp only
      (repeat' split) <;> first
        | exact br_bump fun _ => fin_ret (by omega) (by pp)
        | exact br_unexpected
        | exact (fin_ret (Q' := Top) (by omega) (by pp)).br
  · refine Fin.seq (n2 := n - 1) (P2 := Is .semicolon) (fin_parseUtf8String (P := NotStr) (by pp) (by omega)) (by omega) (by pp) fun ⟨v, vs⟩ => ?_
    refine Fin.seq (n1 := n - 1) (n2 := n - 1) (P1 := Is .semicolon) (P2 := Is .semicolon) ?_ (by omega) (by pp) fun _ => ?_
    · split
      · exact fin_ret (by omega) (by pp)
      · exact fin_addError (f := pure) rfl rfl fun _ => fin_ret (by omega) (by pp)
    sq n - 1, Top, fin_expectEq (by plain)
    exact fin_trailing fun _ => fin_ret (by omega) (by pp)

end
end Verif.Exec
