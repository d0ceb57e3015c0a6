import Verif.Proofs.Ahead
import Verif.Props.Rules
/-! C61: the token blamed by a syntax error. C62: invalid tokens. -/
namespace Verif
open Verif.Blame Verif.Spec Verif.Gen

section
variable [FloatFmt] [LocSort]

theorem not_violation {f : Ast.File} {k} (h : Violation f k) : utSpan k = none ∧ invSpan k = none := by
  have hr : ∀ {p : Ast.Int' → Prop} {b : Span → ParseErrorKind} {r k}, (∀ s, utSpan (b s) = none ∧ invSpan (b s) = none) →
      BadRange p b r k → utSpan k = none ∧ invSpan k = none := by
    intro p b r k hb h
    cases h <;> exact hb _
  have ho : ∀ {o k}, BadOption o k → utSpan k = none ∧ invSpan k = none := by
    intro o k h
    cases h <;> exact ⟨rfl, rfl⟩
  cases h with
  | field hf h =>
    have hd : ∀ {t v k}, BadDefault t v k → utSpan k = none ∧ invSpan k = none := by
      intro t v k h
      cases h <;> exact ⟨rfl, rfl⟩
    cases h with
    | badDefault _ _ h => exact hd h
    | badJsonName _ h => exact hd h
    | badOption _ h => exact ho h
    | _ => exact ⟨rfl, rfl⟩
  | reservedRange _ _ h => exact hr (fun _ => ⟨rfl, rfl⟩) h
  | extensionRange _ _ h => exact hr (fun _ => ⟨rfl, rfl⟩) h
  | extensionOption _ _ _ h => exact ho h
  | messageOption _ _ h => exact ho h
  | emptyOneof _ _ _ => exact ⟨rfl, rfl⟩
  | oneofOption _ _ _ h => exact ho h
  | enumNumber _ _ _ => exact ⟨rfl, rfl⟩
  | enumRange _ _ h => exact hr (fun _ => ⟨rfl, rfl⟩) h
  | enumValueOption _ _ _ h => exact ho h
  | enumOption _ _ h => exact ho h
  | methodOption _ _ _ h => exact ho h
  | serviceOption _ _ h => exact ho h
  | fileOption _ h => exact ho h

/-- The diagnostics about tokens are those of the parser. -/
theorem parse_token_errors {name src : Bytes} {e : ParseError} (h : parse name src = some (.error e)) :
    (∃ errs, Parse.parseFile src = .ok (.error errs) ∧ e.kinds = errs) ∨
    (e.kinds.filterMap utSpan = [] ∧ e.kinds.filterMap invSpan = [] ∧
      (src.length ≤ 2147483647 → ∃ f, Parse.parseFile src = .ok (.ok f))) := by
  unfold parse at h
  by_cases hlen : src.length > maxParseLen
  · rw [if_pos hlen] at h
    cases h
    exact .inr ⟨rfl, rfl, fun hl => absurd hlen (Nat.not_lt.2 hl)⟩
  · have hl : src.length ≤ 2147483647 := Nat.le_of_not_lt hlen
    rw [if_neg hlen] at h
    rcases hp : Parse.parseFile src with (errs | f) | _ | _ | _
    · rw [hp] at h
      dsimp only at h
      cases errs with
      | nil => cases h
      | cons k ks => cases h; exact .inl ⟨_, rfl, rfl⟩
    · refine .inr ?_
      have hv : ∀ k ∈ e.kinds, Violation f k := by
        obtain ⟨hx, ht⟩ := Pos.parseFile_iff.1 hp
        have h' : parse name src = some (.error e) := by
          unfold parse; rw [if_neg hlen]; exact h
        exact fun k hk => (C53_justified h' hl hx ht k).1 hk
      refine ⟨List.filterMap_eq_nil_iff.2 fun k hk => (not_violation (hv k hk)).1,
        List.filterMap_eq_nil_iff.2 fun k hk => (not_violation (hv k hk)).2, fun _ => ⟨f, rfl⟩⟩
    all_goals (rw [hp] at h; cases h)

/-- The final state of a run that was rejected. -/
theorem rejected_state {src : Bytes} {errs} (h : Parse.parseFile src = .ok (.error errs)) :
    (Parse.P.parseFile (src.length + 3) src.length (Parse.PState.init src)).2.errs = errs := by
  unfold Parse.parseFile at h
  revert h
  rcases Parse.P.parseFile (src.length + 3) src.length (Parse.PState.init src) with ⟨r, s⟩
  intro h
  cases r with
  | ok a =>
    dsimp only at h
    split at h
    · cases h
    · cases h; rfl
  | err => cases h; rfl
  | panic => cases h
  | oof => cases h

/-- C61: every "unexpected token" diagnostic covers exactly one token of the source, not white space or a comment, and
the token that it says was found is the one that is there. -/
theorem C61_token {name src : Bytes} {e : ParseError} (h : parse name src = some (.error e)) {ex t sp}
    (hsp : .unexpectedToken ex t sp ∈ e.kinds) : t.isTrivia = false ∧ (some t, sp) ∈ rawToks 0 src := by
  rcases parse_token_errors h with ⟨errs, hp, he⟩ | ⟨hn, _⟩
  · have hk := (keeps_parseFile (tk_stable src) (src.length + 3) src.length) _ (tk_init src)
    have hr := rejected_state hp
    exact hk.ut (t, sp) (mem_utTok.2 ⟨ex, by rw [hr, ← he]; exact hsp⟩)
  · have := mem_ut.2 ⟨ex, t, hsp⟩
    rw [hn] at this
    cases this

/-- C61: the "unexpected token" diagnostics are in source order and no token is reported twice. -/
theorem C61_order {name src : Bytes} {e : ParseError} (h : parse name src = some (.error e)) :
    (e.kinds.filterMap utSpan).Pairwise fun x y => x.start < x.stop ∧ x.stop ≤ y.start := by
  rcases parse_token_errors h with ⟨errs, hp, he⟩ | ⟨hn, _⟩
  · have hk := inc_parseFile (src.length + 3) src.length src
    have hr := rejected_state hp
    rw [he, ← hr]
    exact hk.inc.imp_of_mem fun hx _ h => ⟨(hk.pos _ hx).1, h⟩
  · rw [hn]; exact .nil

/-- C61: when the first diagnostic blames a token (which is one of the source, see `C61_token`), no source that has the same
tokens up to and including that one is accepted, whatever follows. -/
theorem C61_first {name src : Bytes} {e : ParseError} (h : parse name src = some (.error e)) {ex t sp}
    (hk : e.kind = .unexpectedToken ex t sp) {pre rest : List (Option Token × Span)}
    (hr : rawToks 0 src = pre ++ (some t, sp) :: rest) (name' src' : Bytes) (rest' : List (Option Token × Span))
    (hr' : rawToks 0 src' = pre ++ (some t, sp) :: rest') : ∃ e', parse name' src' = some (.error e') := by
  have hm : .unexpectedToken ex t sp ∈ e.kinds := by rw [← hk]; exact .head _
  rcases parse_token_errors h with ⟨errs, hp, he⟩ | ⟨hn, _⟩
  · have hstate := rejected_state hp
    have hi := inc_parseFile (src.length + 3) src.length src
    have hpos := (hi.pos sp (mem_ut.2 ⟨ex, t, by rw [hstate, ← he]; exact hm⟩)).1
    have hnot := fun f => parseFile_blame (f := f) (src' := src') (by rw [hp, ← he]; unfold ParseError.kinds; rw [hk]) hr hr' hpos
    rcases parse_spec name' src' with ⟨_, h'⟩ | ⟨_, k, ks, h', _⟩ | ⟨fd, f, ts, _, hf⟩
    · exact ⟨_, h'⟩
    · exact ⟨_, h'⟩
    · exact absurd hf.run (hnot f)
  · have := mem_ut.2 ⟨ex, t, hm⟩
    rw [hn] at this
    cases this

/-- C62: the "invalid token" diagnostics are, in order and without repetition, the first pieces of the source that match no
token. -/
theorem C62_prefix {name src : Bytes} {e : ParseError} (h : parse name src = some (.error e)) :
    e.kinds.filterMap invSpan <+: badTokens src := by
  rcases parse_token_errors h with ⟨errs, hp, he⟩ | ⟨_, hn, _⟩
  · have hk := (keeps_parseFile (tk_stable src) (src.length + 3) src.length) _ (tk_init src)
    obtain ⟨pre, h1, h2⟩ := hk.toks
    rw [rejected_state hp, ← he] at h2
    rw [h2]
    unfold badTokens
    rw [h1, List.filterMap_append]
    exact List.prefix_append _ _
  · rw [hn]; exact List.nil_prefix

theorem badTokens_nil {src : Bytes} {ts : List STok} (h : sigToks 0 src = ts.map some) : badTokens src = [] := by
  refine List.filterMap_eq_nil_iff.2 fun x hx => ?_
  obtain ⟨o, sp⟩ := x
  cases o with
  | some t => rfl
  | none =>
    exfalso
    have : none ∈ sigToks 0 src := List.mem_filterMap.2 ⟨_, hx, rfl⟩
    rw [h] at this
    simp at this

/-- C62: a source with a piece that matches no token is rejected. -/
theorem C62_rejected (name src : Bytes) (h : badTokens src ≠ []) : ∃ e, parse name src = some (.error e) := by
  rcases parse_spec name src with ⟨_, h'⟩ | ⟨_, k, ks, h', _⟩ | ⟨fd, f, ts, _, hf⟩
  · exact ⟨_, h'⟩
  · exact ⟨_, h'⟩
  · exact absurd (badTokens_nil hf.toks) h

theorem skipUntil_ok : ∀ n s, (Parse.P.skipUntil n s).1 ≠ .err
  | 0, s => nofun
  | n + 1, s => by
    unfold Parse.P.skipUntil
    rcases Parse.P.peek s with ⟨r, s'⟩
    rcases r with (_ | t) | _ | _ | _
    · nofun
    · dsimp only
      split
      · nofun
      · have hb : (Parse.P.bump s').1 ≠ .err := by
          unfold Parse.P.bump
          split <;> nofun
        rcases hb' : Parse.P.bump s' with ⟨r2, s2⟩
        rw [hb'] at hb
        cases r2 with
        | ok _ => exact skipUntil_ok n s2
        | err => exact absurd rfl hb
        | _ => nofun
    · exact skipUntil_ok n _
    · nofun
    · nofun

theorem fileLoop_ok (fuel : Nat) : ∀ n acc s, (Parse.P.fileLoop fuel n acc s).1 ≠ .err
  | 0, _, _ => nofun
  | n + 1, acc, s => by
    unfold Parse.P.fileLoop
    rcases (Parse.parseStatement fuel).run s with ⟨r, s'⟩
    rcases r with (_ | st) | _ | _ | _
    · nofun
    · dsimp only
      split
      · exact fileLoop_ok fuel n _ _
      · exact fileLoop_ok fuel n _ _
    · dsimp only
      split
      · nofun
      · have hk := skipUntil_ok (s'.rest.length + 3) s'
        rcases hb : Parse.P.skipUntil (s'.rest.length + 3) s' with ⟨r2, s2⟩
        rw [hb] at hk
        cases r2 with
        | ok _ => exact fileLoop_ok fuel n _ s2
        | err => exact absurd rfl hk
        | _ => nofun
    · nofun
    · nofun

/-- A run that gets past the header reads the whole source. -/
theorem reads_all {fuel len : Nat} {s : Parse.PState} (h : Blame.Ok ((Parse.parseHeader fuel len).run s) fun _ _ => True)
    (h1 : (Parse.P.parseFile fuel len s).1 ≠ .panic) (h2 : (Parse.P.parseFile fuel len s).1 ≠ .oof) :
    (Parse.P.parseFile fuel len s).2.rest = [] := by
  change (Parse.P.bind (Parse.parseHeader fuel len).run _ s).1 ≠ _ at h1 h2
  show (Parse.P.bind (Parse.parseHeader fuel len).run _ s).2.rest = []
  unfold Parse.P.bind at h1 h2 ⊢
  revert h h1 h2
  rcases (Parse.parseHeader fuel len).run s with ⟨r, s'⟩
  intro h h1 h2
  cases r with
  | ok a =>
    change (Parse.P.bind (Parse.P.fileLoop fuel fuel _) _ s').1 ≠ _ at h1 h2
    show (Parse.P.bind (Parse.P.fileLoop fuel fuel _) _ s').2.rest = []
    unfold Parse.P.bind at h1 h2 ⊢
    have hok := fileLoop_ok fuel fuel { span := a.2.2 } s'
    rcases hl : Parse.P.fileLoop fuel fuel { span := a.2.2 } s' with ⟨r2, s2⟩
    rw [hl] at h1 h2 hok
    cases r2 with
    | ok b => exact Parse.fileLoop_end _ _ _ _ _ hl
    | err => exact absurd rfl hok
    | panic => exact absurd rfl h1
    | oof => exact absurd rfl h2
  | err => exact h.elim
  | panic => exact absurd rfl h1
  | oof => exact absurd rfl h2

/-- C62: if the source begins well, all of its pieces that match no token are reported. -/
theorem C62_all {name src : Bytes} {e : ParseError} (h : parse name src = some (.error e)) (hl : src.length ≤ 2147483647)
    (hg : GoodStart (sigToks 0 src)) : e.kinds.filterMap invSpan = badTokens src := by
  rcases parse_token_errors h with ⟨errs, hp, he⟩ | ⟨_, hn, hf⟩
  · have hk := (keeps_parseFile (tk_stable src) (src.length + 3) src.length) _ (tk_init src)
    obtain ⟨pre, h1, h2⟩ := hk.toks
    have hst := rejected_state hp
    have hend : (Parse.P.parseFile (src.length + 3) src.length (Parse.PState.init src)).2.rest = [] := by
      have hh := ok_header (fuel := src.length + 3) (len := src.length) (s := Parse.PState.init src) hg
      refine reads_all hh ?_ ?_
      · intro hx
        unfold Parse.parseFile at hp
        revert hp hx
        rcases Parse.P.parseFile (src.length + 3) src.length (Parse.PState.init src) with ⟨r, s⟩
        intro hp hx
        cases (show r = _ from hx)
        cases hp
      · intro hx
        unfold Parse.parseFile at hp
        revert hp hx
        rcases Parse.P.parseFile (src.length + 3) src.length (Parse.PState.init src) with ⟨r, s⟩
        intro hp hx
        cases (show r = _ from hx)
        cases hp
    rw [hst, ← he] at h2
    rw [h2]
    unfold badTokens
    have hnil : ∀ p, rawToks p [] = [] := by
      intro p; rw [rawToks_unfold p]; rfl
    rw [h1, hend, hnil, List.append_nil]
  · obtain ⟨f, hf⟩ := hf hl
    rw [hn]
    rcases Parse.parseFile_spec src with ⟨errs, h1, _⟩ | ⟨f', ts, h1, h2, _⟩
    · rw [hf] at h1; cases h1
    · exact (badTokens_nil h2).symm

end

namespace Demo
open Verif.Blame

/-- Three unexpected tokens and three invalid ones, after a good start. -/
def blameSrc : Bytes := b!"syntax = \"proto3\";\nmessage A { int32 = 1; }\n$ import 3;\nenum B { X 0; } ^ `\n"

example : kindsOf blameSrc = [.unexpectedToken (.text b!"an identifier") .equals ⟨37, 38⟩, .invalidToken ⟨44, 45⟩,
    .unexpectedToken (.text b!"a string literal, 'public' or 'weak'") (.int 3) ⟨53, 54⟩,
    .unexpectedToken (.oneOf [.token .equals]) (.int 0) ⟨67, 68⟩, .invalidToken ⟨72, 73⟩, .invalidToken ⟨74, 75⟩] := by decide +kernel

example : GoodStart (sigToks 0 blameSrc) := by
  have h : (sigToks 0 blameSrc).take 4 = [some (.ident b!"syntax", ⟨0, 6⟩), some (.equals, ⟨7, 8⟩),
    some (.string b!"proto3", ⟨9, 17⟩), some (.semicolon, ⟨17, 18⟩)] := by decide +kernel
  rw [← List.take_append_drop 4 (sigToks 0 blameSrc), h]
  exact .syntax' (.inr rfl)

example : badTokens blameSrc = [⟨44, 45⟩, ⟨72, 73⟩, ⟨74, 75⟩] := by decide +kernel

/-- `C61_first` applied: whatever follows `message A { int32 =`, the file is rejected. -/
example : ∀ (name' : Bytes), ∃ e', parse name' b!"syntax = \"proto3\";\nmessage A { int32 = 2 }" = some (.error e') := by
  intro name'
  have hr : rejects blameSrc = true := by decide +kernel
  unfold rejects at hr
  split at hr
  · rename_i e he
    have hk : kindsOf blameSrc = e.kinds := by unfold kindsOf; rw [he]
    have h1 : e.kind = .unexpectedToken (.text b!"an identifier") .equals ⟨37, 38⟩ := by
      have : e.kinds.head? = some (.unexpectedToken (.text b!"an identifier") .equals ⟨37, 38⟩) := by rw [← hk]; decide +kernel
      simpa [ParseError.kinds] using this
    have hd : (rawToks 0 blameSrc).drop 9 = (some .equals, ⟨37, 38⟩) :: (rawToks 0 blameSrc).drop 10 := by decide +kernel
    refine C61_first he h1 (pre := (rawToks 0 blameSrc).take 9) (rest := (rawToks 0 blameSrc).drop 10)
      (by rw [← hd, List.take_append_drop]) name' _ [(some (.int 2), ⟨39, 40⟩), (some .rightBrace, ⟨41, 42⟩)] ?_
    decide +kernel
  · cases hr

end Demo
end Verif
