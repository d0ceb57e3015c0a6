import Verif.Proofs.Faults6
import Verif.Proofs.FileRuns
/-! The statements of a file, and the whole file: only what is fair is reported. -/
namespace Verif
open Verif.Spec Verif.Lex Verif.Parse Verif.Exec Verif.Blame
variable [FloatFmt]

omit [FloatFmt] in
theorem splitAt_parts (s : Bytes) : ∃ p ps, splitAt 47 s = p :: ps ∧ (∃ b, s = p ++ b ∧ (b = [] ∨ b.head? = some 47)) ∧
    ∀ c ∈ ps, ∃ a b, s = a ++ c ++ b ∧ a.getLast? = some 47 ∧ (b = [] ∨ b.head? = some 47) := by
  induction s with
  | nil => exact ⟨[], [], rfl, ⟨[], rfl, .inl rfl⟩, nofun⟩
  | cons x s ih =>
    obtain ⟨p, ps, h1, ⟨b, h2, h3⟩, h4⟩ := ih
    by_cases hx : x = 47
    · refine ⟨[], p :: ps, by rw [splitAt, if_pos hx, h1], ⟨x :: s, rfl, .inr (by rw [hx]; rfl)⟩, fun c hc => ?_⟩
      rcases List.mem_cons.1 hc with rfl | hc
      · exact ⟨[x], b, by rw [h2]; rfl, by rw [hx]; rfl, h3⟩
      · obtain ⟨a, b, h5, h6, h7⟩ := h4 c hc
        refine ⟨x :: a, b, by rw [h5]; rfl, ?_, h7⟩
        cases a with
        | nil => cases h6
        | cons y a => rw [List.getLast?_cons_cons]; exact h6
    · refine ⟨x :: p, ps, by rw [splitAt, if_neg hx, h1], ⟨b, by rw [h2]; rfl, h3⟩, fun c hc => ?_⟩
      obtain ⟨a, b, h5, h6, h7⟩ := h4 c hc
      refine ⟨x :: a, b, by rw [h5]; rfl, ?_, h7⟩
      cases a with
      | nil => cases h6
      | cons y a => rw [List.getLast?_cons_cons]; exact h6

omit [FloatFmt] in
theorem pathPart {s c : Bytes} (h : c ∈ splitAt 47 s) : PathPart s c := by
  have hn := splitAt_no_sep 47 s c h
  obtain ⟨p, ps, h1, ⟨b, h2, h3⟩, h4⟩ := splitAt_parts s
  rw [h1] at h
  rcases List.mem_cons.1 h with rfl | h
  · exact ⟨[], b, h2, hn, .inl rfl, h3⟩
  · obtain ⟨a, b, h5, h6, h7⟩ := h4 c h
    exact ⟨a, b, h5, hn, .inr h6, h7⟩

omit [FloatFmt] in
theorem bad_import {s : Bytes} (h : ¬ Parse.isValidImport s = true) : ∃ c, PathPart s c ∧ (c = [] ∨ c = b!"." ∨ c = b!".." ∨ 92 ∈ c) := by
  unfold Parse.isValidImport at h
  rw [Bool.and_eq_true, Classical.not_and_iff_not_or_not] at h
  rcases h with h | h
  · rw [Bool.not_eq_true, List.all_eq_false] at h
    obtain ⟨c, hc, h⟩ := h
    refine ⟨c, pathPart hc, ?_⟩
    simp only [Bool.not_eq_true, Bool.not_eq_false', Bool.or_eq_true, List.isEmpty_iff, beq_iff_eq, List.contains_iff_mem] at h
    rcases h with ((h | h) | h) | h
    · exact .inl h
    · exact .inr (.inr (.inr h))
    · exact .inr (.inl h)
    · exact .inr (.inr (.inl h))
  · cases s with
    | nil => simp at h
    | cons x s =>
      refine ⟨[], pathPart ?_, .inl rfl⟩
      have hx : x = 47 := by simpa using h
      rw [splitAt, if_pos hx]
      exact List.mem_cons_self ..

/-- Identifiers and dots. -/
def Dotted (l : List (Option STok)) : Prop := ∀ x ∈ l, ∃ t s, x = some (t, s) ∧ (t = .dot ∨ ∃ w, t = .ident w)

theorem tells_parseFullIdent {src n ts v} (hv : v <:+ sigToks 0 src) :
    Tells src (fun _ v' => ∃ l, v = l ++ v' ∧ Dotted l) (parseFullIdent n ts) v := by
  refine tells_bind _ (tells_parseIdent hv) fun i v1 h1 => ?_
  refine tells_loopM (I := fun _ v' => ∃ l, v = l ++ v' ∧ Dotted l) ?_ _ _ _
    ⟨[some (.ident i.value, i.span)], h1, fun x hx => ⟨_, _, List.mem_singleton.1 hx, .inr ⟨_, rfl⟩⟩⟩
  rintro acc u ⟨l, h2, h3⟩
  have hu : u <:+ sigToks 0 src := (show u <:+ v from ⟨_, h2.symm⟩).trans hv
  intro x hx
  cases x with
  | none => exact tells_unexpected hu expects_oneOf
  | some y =>
    obtain ⟨tok, sp⟩ := y
    show Tells src _ (if tok = .dot then _ else _) u
    split
    · rename_i ht
      subst ht
      refine tells_bind (Q := fun _ u1 => u = some (.dot, sp) :: u1) _ (fun z u1 hz => by subst hz; cases hx; rfl) fun _ u1 hz => ?_
      subst hz
      have hu1 : u1 <:+ sigToks 0 src := (List.suffix_cons ..).trans hu
      refine tells_bind _ (tells_parseIdent hu1) fun j u2 hj => ?_
      refine ⟨l ++ [some (.dot, sp), some (.ident j.value, j.span)], by rw [h2, hj]; simp, fun x hx => ?_⟩
      rcases List.mem_append.1 hx with hx | hx
      · exact h3 x hx
      · rcases List.mem_cons.1 hx with rfl | hx
        · exact ⟨_, _, rfl, .inl rfl⟩
        · exact ⟨_, _, List.mem_singleton.1 hx, .inr ⟨_, rfl⟩⟩
    · split
      · exact ⟨l, h2, h3⟩
      · exact tells_unexpected hu expects_oneOf

theorem tells_parsePackage {src n v} (hv : v <:+ sigToks 0 src) :
    Tells src (fun p v' => ∃ l, v = l ++ v' ∧ PackageAt l p.span) (parsePackage n) v := by
  refine tells_bind (Q := fun _ v' => v' = v) _ (fun _ => rfl) fun lead v0 h0 => ?_
  rw [h0]
  refine tells_bind _ (tells_expectEq hv) fun s1 v1 h1 => ?_
  have hv1 : v1 <:+ sigToks 0 src := (show v1 <:+ v from h1 ▸ List.suffix_cons ..).trans hv
  refine tells_bind _ (tells_parseFullIdent hv1) fun i v2 ⟨l, h2, h3⟩ => ?_
  have hv2 : v2 <:+ sigToks 0 src := (show v2 <:+ v1 from ⟨_, h2.symm⟩).trans hv1
  refine tells_bind _ (tells_expectEq hv2) fun s2 v3 h4 => ?_
  intro c
  refine ⟨some (.ident b!"package", s1) :: l ++ [some (.semicolon, s2)], ?_, s1, l, s2, rfl, rfl, h3⟩
  rw [h1, h2, h4]
  simp [kw]

theorem weak_parseImport {src n} : Weak src (parseImport n) := by
  intro v hv
  refine tells_bind (Q := fun _ v' => v' = v) _ (fun _ => rfl) fun lead v0 h0 => ?_
  rw [h0]
  refine tells_bind _ (tells_expectEq hv) fun s1 v1 h1 => ?_
  have hv1 : v1 <:+ sigToks 0 src := (show v1 <:+ v from h1 ▸ List.suffix_cons ..).trans hv
  refine tells_bind (Q := fun _ v2 => ∃ kind, v1 = kind ++ v2 ∧
    (kind = [] ∨ ∃ k s2, kind = [some (.ident k, s2)] ∧ (k = b!"weak" ∨ k = b!"public"))) _ ?_ ?_
  · intro x hx
    cases x with
    | none => exact tells_unexpected hv1 (by first | exact expects_oneOf | exact expects_text (by decide) (by decide))
    | some y =>
      obtain ⟨tok, sp⟩ := y
      show Tells src _ (if tok = _ then _ else _) v1
      split
      · rename_i ht
        subst ht
        intro z u hz
        subst hz
        cases hx
        exact ⟨[some (.ident b!"weak", sp)], rfl, .inr ⟨_, _, rfl, .inl rfl⟩⟩
      · split
        · rename_i ht
          subst ht
          intro z u hz
          subst hz
          cases hx
          exact ⟨[some (.ident b!"public", sp)], rfl, .inr ⟨_, _, rfl, .inr rfl⟩⟩
        · split
          · exact ⟨[], rfl, .inl rfl⟩
          · exact tells_unexpected hv1 (by first | exact expects_oneOf | exact expects_text (by decide) (by decide))
  · rintro a v2 ⟨kind, h2, hk⟩
    have hv2 : v2 <:+ sigToks 0 src := (show v2 <:+ v1 from ⟨_, h2.symm⟩).trans hv1
    refine tells_bind _ (tells_parseUtf8String hv2) fun w v3 ⟨l, h3, h4, h5⟩ => ?_
    obtain ⟨value, sp⟩ := w
    have hv3 : v3 <:+ sigToks 0 src := (show v3 <:+ v2 from ⟨_, h3.symm⟩).trans hv2
    refine tells_bind (Q := fun _ v' => v' <:+ sigToks 0 src) _ ?_ ?_
    · split
      · exact hv3
      · rename_i hi
        refine ⟨⟨?_, nofun, nofun⟩, hv3⟩
        obtain ⟨pre, hpre⟩ := hv
        obtain ⟨c, hc, hb⟩ := bad_import hi
        refine .importPath (before := pre) (s1 := s1) hk (after := v3) ⟨⟨l, ?_, h4⟩, h5⟩ hc hb
        rw [← hpre, h1, h2, h3]
        simp [kw]
    · intro _
      show Weak src _
      wkr
macro_rules | `(tactic| wkl) => `(tactic| with_reducible exact weak_parseImport)

theorem tells_parseSyntax {src n} : Tells src (fun _ v' => v' <:+ sigToks 0 src) (parseSyntax n) (sigToks 0 src) := by
  refine tells_bind (Q := fun _ v' => v' = sigToks 0 src) _ (fun _ => rfl) fun lead v0 h0 => ?_
  rw [h0]
  refine tells_bind _ (tells_expectEq List.suffix_rfl) fun s1 v1 h1 => ?_
  have hv1 : v1 <:+ sigToks 0 src := h1 ▸ List.suffix_cons ..
  refine tells_bind _ (tells_expectEq hv1) fun s2 v2 h2 => ?_
  have hv2 : v2 <:+ sigToks 0 src := (show v2 <:+ v1 from h2 ▸ List.suffix_cons ..).trans hv1
  intro x hx
  cases x with
  | none => exact tells_unexpected hv2 (by first | exact expects_oneOf | exact expects_text (by decide) (by decide))
  | some y =>
    obtain ⟨tok, sp⟩ := y
    cases tok with
    | string w =>
      show Tells src _ (parseString n >>= _) v2
      refine tells_bind _ (tells_parseString hv2) fun s v3 ⟨l, h3, h4, h5⟩ => ?_
      have hv3 : v3 <:+ sigToks 0 src := (show v3 <:+ v2 from ⟨_, h3.symm⟩).trans hv2
      split
      · exact (show Weak src _ by wkr) v3 hv3
      · split
        · exact (show Weak src _ by wkr) v3 hv3
        · rename_i n2 n3
          refine ⟨⟨?_, nofun, nofun⟩, trivial⟩
          refine .unknownSyntax (s1 := s1) (s2 := s2) (after := v3) ⟨⟨l, ?_, h4⟩, h5⟩ n2 n3
          rw [h1, h2, h3]
          rfl
    | _ => exact tells_unexpected hv2 (by first | exact expects_oneOf | exact expects_text (by decide) (by decide))
theorem tells_parseHeader {src n len} : Tells src (fun _ v' => v' <:+ sigToks 0 src) (parseHeader n len) (sigToks 0 src) := by
  intro x hx
  cases x with
  | none => exact List.suffix_rfl
  | some y =>
    obtain ⟨tok, sp⟩ := y
    show Tells src _ (if tok = _ then _ else _) (sigToks 0 src)
    split
    · exact tells_bind _ tells_parseSyntax fun _ _ h => h
    · exact List.suffix_rfl

theorem tells_parseStatement {src n v} (hv : v <:+ sigToks 0 src) :
    Tells src (fun st v' => ∀ p, st = some (.package p) → ∃ l, v = l ++ v' ∧ PackageAt l p.span) (parseStatement n) v := by
  have key : ∀ {α : Type} {p : Prog α} {g : α → Statement}, Weak src p → (∀ x p, g x ≠ .package p) →
      Tells src (fun st v' => ∀ p, st = some (.package p) → ∃ l, v = l ++ v' ∧ PackageAt l p.span)
        (p >>= fun x => pure (some (g x))) v := fun hp hg =>
    tells_bind _ (hp v hv) fun x v' _ p h => absurd (Option.some.inj h) (hg x p)
  intro x hx
  cases x with
  | none => exact nofun
  | some y =>
    obtain ⟨tok, sp⟩ := y
    show Tells src _ (if tok = _ then _ else _) v
    split
    · exact key weak_bump (g := fun _ => .empty sp) nofun
    split
    · exact key weak_parseImport nofun
    split
    · refine tells_bind _ (tells_parsePackage hv) fun p v' h q hq => ?_
      cases hq
      exact h
    split
    · exact key (show Weak src _ by wkr) nofun
    split
    · exact key (show Weak src _ by wkr) nofun
    split
    · exact key (show Weak src _ by wkr) nofun
    split
    · exact key (show Weak src _ by wkr) nofun
    split
    · exact key (show Weak src _ by wkr) nofun
    · exact tells_unexpected hv (by first | exact expects_oneOf | exact expects_text (by decide) (by decide))

/-- The package found so far stands before what is still to be read. -/
def PackSeen (src : Bytes) (acc : Acc) (v : List (Option STok)) : Prop :=
  ∀ q, acc.package = some q → ∃ pre l post, sigToks 0 src = pre ++ l ++ post ∧ PackageAt l q.span ∧ v <:+ post

omit [FloatFmt] in
theorem PackSeen.suffix {src acc v v'} (h : PackSeen src acc v) (hs : v' <:+ v) : PackSeen src acc v' := by
  intro q hq
  obtain ⟨pre, l, post, h1, h2, h3⟩ := h q hq
  exact ⟨pre, l, post, h1, h2, hs.trans h3⟩

omit [FloatFmt] in
theorem add_package {acc acc' : Acc} {st o} (h : acc.add st = (acc', o)) :
    acc'.package = acc.package ∧ o = none ∨ (∃ p, st = .package p ∧ acc.package = none ∧ acc'.package = some p ∧ o = none) ∨
    (∃ p q, st = .package p ∧ acc.package = some q ∧ acc'.package = some q ∧ o = some (.duplicatePackage q.span p.span)) := by
  unfold Acc.add at h
  cases st with
  | package p =>
    dsimp only at h
    split at h
    · rename_i q hq
      cases h
      exact .inr (.inr ⟨p, q, rfl, hq, hq, rfl⟩)
    · rename_i hq
      cases h
      exact .inr (.inl ⟨p, rfl, hq, rfl, rfl⟩)
  | _ => cases h; exact .inl ⟨rfl, rfl⟩

theorem said_fileLoop {src f} : ∀ n acc s, NT s → Said src s → PackSeen src acc (view s) →
    Rz (P.fileLoop f n acc s) (fun s' => Said src s') fun _ s' => Said src s'
  | 0, _, _, _, _, _ => trivial
  | n + 1, acc, s, hn, hs, hp => by
    have h := tells_run (parseStatement f) s (tells_parseStatement hs.ahead) hn hs
    have hx := run_exec (same_parseStatement (Nat.le_refl f)) none s (view s) (uts s) ua_parseStatement nofun hn rfl rfl
    unfold P.fileLoop
    rcases hr : (parseStatement f).run s with ⟨r, s'⟩
    rw [hr] at h hx
    cases r with
    | ok a =>
      obtain ⟨hn', hs', hq⟩ := (h : _ ∧ _ ∧ _)
      have hsuf : view s' <:+ view s := hx.2.1
      cases a with
      | none => exact hs'
      | some st =>
        dsimp only
        rcases ha : acc.add st with ⟨acc', o⟩
        rcases add_package ha with ⟨h1, rfl⟩ | ⟨p, rfl, h1, h2, rfl⟩ | ⟨p, q, rfl, h1, h2, rfl⟩
        · refine said_fileLoop n acc' s' hn' hs' fun q hq => ?_
          rw [h1] at hq
          exact (hp.suffix hsuf) q hq
        · refine said_fileLoop n acc' s' hn' hs' fun q hq' => ?_
          rw [h2] at hq'
          cases hq'
          obtain ⟨l, h3, h4⟩ := hq _ rfl
          obtain ⟨pre, h5⟩ := hs.ahead
          exact ⟨pre, l, view s', by rw [← h5, h3, List.append_assoc], h4, List.suffix_rfl⟩
        · obtain ⟨l, h3, h4⟩ := hq _ rfl
          obtain ⟨pre, l0, post, h5, h6, bt, h7⟩ := hp q h1
          refine said_fileLoop n acc' { s' with errs := s'.errs ++ [_] } hn' (hs'.add ⟨?_, nofun, nofun⟩) fun q' hq' => ?_
          · exact .package (before := pre) (between := bt) (after := view s') (by rw [h5, ← h7, h3]; simp) h6 h4
          · rw [h2, ← h1] at hq'
            exact (hp.suffix hsuf) q' hq'
    | err =>
      obtain ⟨hn', hs'⟩ := (h : _ ∧ _)
      have hsuf : view s' <:+ view s := hx.2.1
      dsimp only
      split
      · trivial
      · have hsk := rz_skipUntil (s'.rest.length + 3) s' _ rfl hn'
        have hks := (said_stable src).skipUntil (s'.rest.length + 3) s' hs'
        rcases hb : P.skipUntil (s'.rest.length + 3) s' with ⟨r2, s2⟩
        rw [hb] at hsk hks
        cases r2 with
        | ok _ =>
          obtain ⟨hn2, hs2, _⟩ := (hsk : _ ∧ _ ∧ _)
          exact said_fileLoop n acc s2 hn2 hks (hp.suffix (hs2.trans hsuf))
        | err => exact hks
        | panic => trivial
        | oof => trivial
    | panic => trivial
    | oof => trivial

theorem said_parseFile {src f len} {s : PState} (hn : NT s) (hs : Said src s) (hv : view s = sigToks 0 src) :
    Rz (P.parseFile f len s) (fun s' => Said src s') fun _ s' => Said src s' := by
  have h := tells_run (src := src) (parseHeader f len) s (by rw [hv]; exact tells_parseHeader) hn hs
  show Rz (P.bind (parseHeader f len).run _ s) _ _
  refine Rz.bind h (fun _ h => h.2) fun a s' ⟨hn', hs', hv'⟩ => ?_
  show Rz (P.bind (P.fileLoop f f _) _ s') _ _
  refine Rz.bind (said_fileLoop f _ s' hn' hs' nofun) (fun _ h => h) fun b s2 h2 => h2

/-- Everything reported when the source is not read. -/
theorem parseFile_faults {src : Bytes} {errs} (h : Parse.parseFile src = .ok (.error errs)) : ∀ k ∈ errs, Fault src k.shown := by
  have hr := said_parseFile (f := src.length + 3) (len := src.length) (s := PState.init src) nofun (said_init src) rfl
  unfold Parse.parseFile at h
  revert hr h
  rcases Parse.P.parseFile (src.length + 3) src.length (PState.init src) with ⟨r, s⟩
  intro h hr
  cases r with
  | ok a =>
    dsimp only at h
    split at h
    · cases h
    · cases h; exact fun k hk => Said.said hr k hk
  | err => cases h; exact fun k hk => Said.said hr k hk
  | panic => cases h
  | oof => cases h

end Verif
