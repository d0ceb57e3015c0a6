import Verif.Proofs.Via3
import Verif.Proofs.Quiet
/-! Whatever a file begins with, there are tokens with which it would come to an end: statements and header. -/
namespace Verif.Exec
open Parse Prog Spec

/-- What is left of the file after a statement. -/
def StmtR (b : Bool) (n : Nat) : Option Statement → Prog Unit → Prop
  | some _, q => 0 < n → C b (n - 1) Top q
  | none, _ => True

section
variable {b : Bool} {n : Nat}

theorem br_stmt {α : Type} {Q : Pred} {p : Prog α} {g : α → Statement} (h : Fin b n Q p (Then b (n - 1) Top)) :
    Br' b n (p >>= fun x => pure (some (g x))) (StmtR b n) :=
  Br'.pos fun hn => (h.bind (S := StmtR b n) fun _ _ hK => hK (some _) hn).br

variable [FloatFmt]

theorem br_parseStatement {F} (hF : 2 * n + 2 ≤ F) : Br' b n (parseStatement F) (StmtR b n) := by
  have hb : ∀ m, m < n → FinBody b m (parseMessageBody F F) := fun m hm => fin_parseMessageBody F m (by omega) (by omega)
  unfold parseStatement
  refine br_peek fun t => ?_
  refine Br'.pos fun hn => ?_
  dsimp only
  (repeat' split) <;> first
    | exact br_unexpected
    | exact br_bump fun _ => fin_pure fun _ h => h hn
    | exact br_stmt (fin_parseImport hF)
    | exact br_stmt (fin_parsePackage hF)
    | exact br_stmt (fin_parseOption hF)
    | exact br_stmt (fin_parseExtend hb hF)
    | exact br_stmt (fin_parseMessage (hb _ (by omega)))
    | exact br_stmt (fin_parseEnum hF)
    | exact br_stmt (fin_parseService hF)

theorem c_fileProg {F} : ∀ k n, n < k → 2 * n + 2 ≤ F → C b n (· = none) (fileProg F k)
  | 0, _, h, _ => absurd h (Nat.not_lt_zero _)
  | k + 1, n, hk, hF => by
    refine ⟨⟨[], nofun, rfl, rfl⟩, ?_⟩
    unfold fileProg
    refine (br_parseStatement hF).run _ fun o => ?_
    cases o with
    | none => trivial
    | some st => exact fun hn => (c_fileProg k (n - 1) (by omega) (by omega)).mono (Nat.le_refl _) fun _ _ => trivial

omit [FloatFmt] in
theorem fin_unknown {α : Type} {e} (he : blame? e = none) (he' : eof? e = none) {R : α → Prog Unit → Prop} :
    Fin true n (Is .semicolon) (addError e >>= fun _ => (failed : Prog α)) R :=
  ⟨fun K _ => ⟨⟨[.semicolon], by simp; exact ⟨rfl, _, .semicolon⟩, rfl, by
    show Ok true (exec (addErrorThen e failed) _)
    rw [exec, he, he']
    rfl⟩, fun _ _ => trivial⟩⟩

omit [FloatFmt] in
theorem fin_parseSyntax {F} (hF : 2 * n + 2 ≤ F) : Fin true n (Is (kw b!"syntax")) (parseSyntax F) (Then true (n - 1) Top) := by
  unfold parseSyntax
  refine fin_leading fun l => ?_
  sq n - 1, Is .equals, fin_expectEq (by plain)
  sq n - 1, Is (.string []), fin_expectEq (by plain)
  have hs : ∀ {m}, 2 * m + 2 ≤ F → m ≤ n - 1 → ∀ {start}, Fin true m (Is (.string [])) (parseString F >>= fun v => if v.value = b!"proto2" then do
        let stop ← expectEq .semicolon
        let comments ← trailing l
        pure (Ast.Syntax'.proto2, joinSpan start stop, comments)
      else if v.value = b!"proto3" then do
        let stop ← expectEq .semicolon
        let comments ← trailing l
        pure (.proto3, joinSpan start stop, comments)
      else do
        addError (.unknownSyntax v.value v.span)
        failed) (Then true (n - 1) Top) := by
    intro m hm hmn start
    refine Fin.seq (n2 := n - 1) (P2 := Is .semicolon) (fin_parseString (P := NotStr) (by pp) hm) (by omega) (by pp) fun v => ?_
    split
    · sq n - 1, Top, fin_expectEq (by plain)
      exact fin_trailing fun _ => fin_ret (by omega) (by pp)
    · split
      · sq n - 1, Top, fin_expectEq (by plain)
        exact fin_trailing fun _ => fin_ret (by omega) (by pp)
      · exact fin_unknown rfl rfl
  refine fin_peek (.string []) ?_ fun x => ?_
  · exact hs (by omega) (by omega)
  · dsimp only
    split
    · exact (hs (by omega) (by omega)).br
    · exact br_unexpected

omit [FloatFmt] in
theorem c_parseHeader {F len} (hF : 2 * n + 2 ≤ F) : C true n (· = none) (parseHeader F len >>= fun _ => .ret ()) := by
  refine ⟨⟨[], nofun, rfl, rfl⟩, ?_⟩
  have : Br' true n (parseHeader F len) (Then true n Top) := by
    unfold parseHeader
    refine br_peek fun t => ?_
    dsimp only
    split
    · refine (Fin.seq (n2 := n - 1) (P2 := Top) (fin_parseSyntax hF) (by omega) (by pp) fun _ => fin_ret (Nat.sub_le _ _) (by pp)).br
    · exact br_ret fun _ h => h.ac
  exact this.run _ fun _ => ⟨⟨[], nofun, trivial, rfl⟩, trivial⟩

end
end Verif.Exec
