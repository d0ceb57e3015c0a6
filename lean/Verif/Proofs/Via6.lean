import Verif.Proofs.Via5
/-! Whatever a file begins with, its `syntax` statement can be completed to a valid one. -/
namespace Verif.Exec
open Parse Prog Spec

theorem exec_expectEq {t : Token} (w : Toks) : exec (expectEq t) w = match w with
    | [] => .stop (some (.oneOf [.token t])) []
    | some x :: w => if x = t then .done sp0 w else .blamed (.oneOf [.token t]) x (some x :: w)
    | none :: w => .stop none (none :: w) := by
  match w with
  | [] => rfl
  | some x :: w =>
    show exec (if x = t then bump else unexpected _) (some x :: w) = _
    by_cases h : x = t
    · simp only [if_pos h]; rfl
    · simp only [if_neg h]; rfl
  | none :: w => rfl

/-- A string literal ends before these tokens. -/
def NoStr (w : Toks) : Prop := (∀ v, w.head? ≠ some (some (.string v))) ∧ w.head? ≠ some none

theorem exec_stringStep {acc : Ast.Str} (w : Toks) : exec (stringStep acc) w = match w with
    | [] => .done (.done acc) []
    | some x :: w => (match x with
      | .string v => .done (.next ⟨acc.value ++ v, joinSpan acc.span sp0⟩) w
      | _ => .done (.done acc) (some x :: w))
    | none :: w => .stop none (none :: w) := by
  match w with
  | [] => rfl
  | some x :: w => cases x <;> rfl
  | none :: w => rfl

theorem exec_stringLoop : ∀ c (acc : Ast.Str) (w : Toks), w.length < c → ∃ acc' strs w3, w = strs ++ w3 ∧ none ∉ strs ∧
    (∀ y, NoStr y → exec (loopM stringStep c acc) (strs ++ y) = .done acc' y) ∧
    (NoStr w3 ∨ exec (loopM stringStep c acc) w = .stop none w3)
  | 0, _, _, h => absurd h (Nat.not_lt_zero _)
  | c + 1, acc, w, h => by
    have he : ∀ w, exec (loopM stringStep (c + 1) acc) w = (exec (stringStep acc) w).bind _ := fun w => exec_bind _ _ w
    have hstop : ∀ y, NoStr y → exec (loopM stringStep (c + 1) acc) ([] ++ y) = .done acc y := by
      intro y hy
      rw [List.nil_append, he, exec_stringStep]
      match y, hy with
      | [], _ => rfl
      | some x :: y, hy => cases x <;> first | rfl | exact absurd rfl (hy.1 _)
      | none :: y, hy => exact absurd rfl hy.2
    have hnow : NoStr w → ∃ acc' strs w3, w = strs ++ w3 ∧ none ∉ strs ∧
        (∀ y, NoStr y → exec (loopM stringStep (c + 1) acc) (strs ++ y) = .done acc' y) ∧
        (NoStr w3 ∨ exec (loopM stringStep (c + 1) acc) w = .stop none w3) :=
      fun hw => ⟨acc, [], w, rfl, nofun, hstop, .inl hw⟩
    match w, hnow with
    | [], hnow => exact hnow ⟨nofun, nofun⟩
    | none :: w, _ => exact ⟨acc, [], none :: w, rfl, nofun, hstop, .inr rfl⟩
    | some x :: w, hnow =>
      by_cases hx : ∃ v, x = .string v
      · obtain ⟨v, rfl⟩ := hx
        obtain ⟨acc', strs, w3, rfl, h1, h2, h3⟩ := exec_stringLoop c ⟨acc.value ++ v, joinSpan acc.span sp0⟩ w (by simpa using h)
        have hs : ∀ y, exec (loopM stringStep (c + 1) acc) (some (.string v) :: y) = exec (loopM stringStep c ⟨acc.value ++ v, joinSpan acc.span sp0⟩) y := by
          intro y; rw [he, exec_stringStep]; rfl
        refine ⟨acc', some (.string v) :: strs, w3, rfl, by simpa using h1, fun y hy => ?_, h3.imp_right fun h => ?_⟩
        · rw [List.cons_append, hs]; exact h2 y hy
        · rw [hs]; exact h
      · exact hnow ⟨fun v hv => hx ⟨v, by injection hv with hv; injection hv⟩, nofun⟩

theorem exec_parseString {F v} (w : Toks) : exec (parseString F) (some (.string v) :: w) = exec (loopM stringStep F ⟨v, sp0⟩) w := rfl

/-- The rest of the statement after the text of the string. -/
def synEnd (l : List Bytes × Option Bytes) (start : Span) (v : Ast.Str) : Prog (Ast.Syntax' × Span × Ast.Comments) :=
  if v.value = b!"proto2" then do
    let stop ← expectEq .semicolon
    let comments ← trailing l
    pure (Ast.Syntax'.proto2, joinSpan start stop, comments)
  else if v.value = b!"proto3" then do
    let stop ← expectEq .semicolon
    let comments ← trailing l
    pure (.proto3, joinSpan start stop, comments)
  else do
    addError (.unknownSyntax v.value v.span)
    failed

theorem exec_synEnd {l start v} : (∃ a : Span → Ast.Syntax' × Span × Ast.Comments, ∀ w, exec (synEnd l start v) w = (exec (expectEq .semicolon) w).bind fun x w => .done (a x) w) ∨
    ∀ w, exec (synEnd l start v) w = .stop none w := by
  unfold synEnd
  split
  · exact .inl ⟨fun x => (_, joinSpan start x, cm0), fun w => by rw [exec_bind]; rfl⟩
  · split
    · exact .inl ⟨fun x => (_, joinSpan start x, cm0), fun w => by rw [exec_bind]; rfl⟩
    · exact .inr fun w => rfl

theorem exec_header (F : Nat) (w : Toks) : exec (parseHeader F 0) (some (kw b!"syntax") :: some .equals :: w) = match w with
    | [] => .stop (some Says.syntaxString) []
    | some x :: w => (match x with
      | .string v => ((exec (loopM stringStep F ⟨v, sp0⟩) w).bind fun a w => exec (synEnd ld0 sp0 a) w).bind
          fun a w => .done (a.1, some (a.2.1, a.2.2), a.2.1) w
      | _ => .blamed Says.syntaxString x (some x :: w))
    | none :: w => .stop none (none :: w) := by
  match w with
  | [] => rfl
  | some x :: w =>
    cases x with
    | string v =>
      show exec (parseSyntax F >>= _) _ = _
      rw [exec_bind]
      refine congrArg (fun x : Ex _ => x.bind _) ?_
      show exec (parseString F >>= synEnd ld0 sp0) _ = _
      rw [exec_bind, exec_parseString]
    | _ => rfl
  | none :: w => rfl

/-- Where the header complains. -/
def Complains {α : Type} (x : Ex α) (w' : Toks) : Prop := (∃ ex t, x = .blamed ex t w') ∨ ∃ ex, x = .stop (some ex) w'

theorem split_eq {u w' v x : Toks} (h : u ++ w' = v ++ x) (hx : x = w') : u = v := by
  subst hx
  exact List.append_cancel_right h

theorem header_viable {F u w'} (hF : (u ++ w').length < F) (h : Complains (exec (parseHeader F 0) (u ++ w')) w') :
    ∃ z : List Token, (∀ t ∈ z, Plain t) ∧ ∃ a, exec (parseHeader F 0) (u ++ z.map some) = .done a [] := by
  have p2 : Plain (.string b!"proto2") :=
    ⟨rfl, _, .string (q := 34) (.inl rfl) (.raw (by decide) (by decide) (by decide) (by rintro (h | h) <;> revert h <;> decide) <| .raw (by decide) (by decide) (by decide) (by rintro (h | h) <;> revert h <;> decide) <|
      .raw (by decide) (by decide) (by decide) (by rintro (h | h) <;> revert h <;> decide) <| .raw (by decide) (by decide) (by decide) (by rintro (h | h) <;> revert h <;> decide) <|
      .raw (by decide) (by decide) (by decide) (by rintro (h | h) <;> revert h <;> decide) <| .raw (by decide) (by decide) (by decide) (by rintro (h | h) <;> revert h <;> decide) .nil)⟩
  have p3 : Plain .semicolon := ⟨rfl, _, .semicolon⟩
  have p4 : Plain .equals := ⟨rfl, _, .equals⟩
  obtain ⟨F, rfl⟩ : ∃ k, F = k + 1 := ⟨F - 1, by omega⟩
  generalize hw : u ++ w' = w at h hF
  match w with
  | [] => rcases h with ⟨_, _, h⟩ | ⟨_, h⟩ <;> cases h
  | none :: w => rcases h with ⟨_, _, h⟩ | ⟨_, h⟩ <;> cases h
  | some x :: w =>
    by_cases hx : x = kw b!"syntax"
    · subst hx
      have first : ∀ w, (w = [] ∨ ∃ y w2, w = some y :: w2 ∧ y ≠ .equals) → Complains (exec (parseHeader (F + 1) 0) (some (kw b!"syntax") :: w)) w' → w' = w := by
        rintro _ (rfl | ⟨y, w2, rfl, hy⟩) h
        · rcases h with ⟨_, _, h⟩ | ⟨_, h⟩ <;> cases h
          rfl
        · have he : exec (parseHeader (F + 1) 0) (some (kw b!"syntax") :: some y :: w2) =
              .blamed (.oneOf [.token .equals]) y (some y :: w2) := by
            show exec (parseSyntax (F + 1) >>= _) _ = _
            rw [exec_bind, show exec (parseSyntax (F + 1)) (some (kw b!"syntax") :: some y :: w2) = .blamed (.oneOf [.token .equals]) y (some y :: w2) from ?_]
            · rfl
            · show exec (expectEq .equals >>= _) _ = _
              rw [exec_bind, exec_expectEq]
              dsimp only
              rw [if_neg hy]
              rfl
          rw [he] at h
          rcases h with ⟨_, _, h⟩ | ⟨_, h⟩ <;> cases h
          rfl
      have doneA : u = [some (kw b!"syntax")] → ∃ z : List Token, (∀ t ∈ z, Plain t) ∧ ∃ a, exec (parseHeader (F + 1) 0) (u ++ z.map some) = .done a [] := by
        rintro rfl
        exact ⟨[.equals, .string b!"proto2", .semicolon], by simp [p2, p3, p4], _, rfl⟩
      match w with
      | [] => exact doneA (split_eq (v := [_]) hw (first _ (.inl rfl) h).symm)
      | none :: w => rcases h with ⟨_, _, h⟩ | ⟨_, h⟩ <;> cases h
      | some y :: w =>
        by_cases hy : y = .equals
        · subst hy
          have doneB : u = [some (kw b!"syntax"), some .equals] → ∃ z : List Token, (∀ t ∈ z, Plain t) ∧ ∃ a, exec (parseHeader (F + 1) 0) (u ++ z.map some) = .done a [] := by
            rintro rfl
            exact ⟨[.string b!"proto2", .semicolon], by simp [p2, p3], _, rfl⟩
          rw [exec_header] at h
          match w with
          | [] =>
            refine doneB (split_eq (v := [_, _]) hw ?_)
            rcases h with ⟨_, _, h⟩ | ⟨_, h⟩ <;> cases h
            rfl
          | none :: w => rcases h with ⟨_, _, h⟩ | ⟨_, h⟩ <;> cases h
          | some s :: w =>
            by_cases hs : ∃ v, s = .string v
            · obtain ⟨v, rfl⟩ := hs
              obtain ⟨acc, strs, w3, rfl, h1, h2, h3⟩ := exec_stringLoop (F + 1) ⟨v, sp0⟩ w (by simp at hF; omega)
              rcases h3 with h3 | h3
              · dsimp only at h
                rw [h2 _ h3] at h
                rcases exec_synEnd (l := ld0) (start := sp0) (v := acc) with ⟨a, hs⟩ | hs
                · have hend : w' = w3 := by
                    have h : Complains (((exec (synEnd ld0 sp0 acc) w3)).bind _) w' := h
                    rw [hs, exec_expectEq] at h
                    match w3 with
                    | [] => rcases h with ⟨_, _, h⟩ | ⟨_, h⟩ <;> cases h; rfl
                    | none :: w3 => rcases h with ⟨_, _, h⟩ | ⟨_, h⟩ <;> cases h
                    | some x :: w3 =>
                      dsimp only at h
                      split at h
                      · rcases h with ⟨_, _, h⟩ | ⟨_, h⟩ <;> cases h
                      · rcases h with ⟨_, _, h⟩ | ⟨_, h⟩ <;> cases h
                        rfl
                  have hu : u = some (kw b!"syntax") :: some .equals :: some (.string v) :: strs :=
                    split_eq (v := some (kw b!"syntax") :: some .equals :: some (.string v) :: strs) hw hend.symm
                  subst hu
                  refine ⟨[.semicolon], by simp [p3], ((a sp0).1, some ((a sp0).2.1, (a sp0).2.2), (a sp0).2.1), ?_⟩
                  show exec (parseHeader (F + 1) 0) (some (kw b!"syntax") :: some .equals :: some (.string v) :: (strs ++ [some .semicolon])) = _
                  rw [exec_header]
                  show ((exec (loopM stringStep (F + 1) ⟨v, sp0⟩) (strs ++ [some .semicolon])).bind _).bind _ = _
                  rw [h2 [some .semicolon] ⟨nofun, nofun⟩]
                  show (exec (synEnd ld0 sp0 acc) [some .semicolon]).bind _ = _
                  rw [hs]
                  rfl
                · have h : Complains (((exec (synEnd ld0 sp0 acc) w3)).bind _) w' := h
                  rw [hs] at h
                  rcases h with ⟨_, _, h⟩ | ⟨_, h⟩ <;> cases h
              · dsimp only at h
                rw [h3] at h
                rcases h with ⟨_, _, h⟩ | ⟨_, h⟩ <;> cases h
            · have hb : Complains (.blamed Says.syntaxString s (some s :: w) : Ex (Ast.Syntax' × Option (Span × Ast.Comments) × Span)) w' := by
                cases s <;> first | exact absurd ⟨_, rfl⟩ hs | exact h
              refine doneB (split_eq (v := [_, _]) hw ?_)
              rcases hb with ⟨_, _, h⟩ | ⟨_, h⟩ <;> cases h
              rfl
        · exact doneA (split_eq (v := [_]) hw (first _ (.inr ⟨y, w, rfl, hy⟩) h).symm)
    · have he : exec (parseHeader (F + 1) 0) (some x :: w) = .done (.proto2, none, sp0) (some x :: w) := by
        show exec (if x = kw b!"syntax" then _ else _) _ = _
        rw [if_neg hx]
        rfl
      rw [he] at h
      rcases h with ⟨_, _, h⟩ | ⟨_, h⟩ <;> cases h

end Verif.Exec
