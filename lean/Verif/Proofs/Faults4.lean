import Verif.Proofs.Faults3
import Verif.Proofs.FileRuns
/-! What a run of the parser leaves behind is explained: the state, and what a method may report. -/
namespace Verif
open Verif.Spec Verif.Lex Verif.Parse Verif.Exec Verif.Blame
variable [FloatFmt]

omit [FloatFmt] in
theorem isDigit_of_hex {b : UInt8} (h : isHexDigit b = true) (h' : digitVal b < 10) : isDigit b = true := by
  simp only [isDigit, isHexDigit, digitVal, Bool.or_eq_true, Bool.and_eq_true, decide_eq_true_eq, UInt8.le_iff_toNat_le,
    UInt8.reduceToNat] at h h' ⊢
  split at h'
  · omega
  · split at h' <;> omega

/-- Every token begins with one of these. -/
theorem lexeme_first {tf : Bool} {text : Bytes} {t : Token} (h : Lexeme tf text t) :
    ∃ b r, text = b :: r ∧ (isIdentStart b = true ∨ isDigit b = true ∨ b = 39 ∨ b = 34 ∨ b = 35 ∨ punct b ≠ none) := by
  have dig : ∀ {ds : Bytes}, Digits ds → ds ≠ [] → ∃ b r, ds = b :: r ∧ isDigit b = true := by
    intro ds hd hne
    cases ds with
    | nil => exact absurd rfl hne
    | cons b r => exact ⟨b, r, rfl, by simpa [isDigit] using hd b (by simp)⟩
  have flt : ∀ {s : Bytes}, FloatText s → ∃ b r, s = b :: r ∧ (isDigit b = true ∨ b = 46) := by
    rintro s ⟨a, b, e, ha, hb, he, ⟨rfl, h⟩ | ⟨rfl, h, h'⟩⟩
    · cases a with
      | nil => exact ⟨46, _, rfl, .inr rfl⟩
      | cons c a =>
        obtain ⟨x, r, e1, e2⟩ := dig ha (by simp)
        cases e1
        exact ⟨_, _, rfl, .inl e2⟩
    · obtain ⟨x, r, rfl, e2⟩ := dig ha h
      exact ⟨_, _, rfl, .inl e2⟩
  have num : ∀ {r : Nat} {ds : Bytes} {n : Nat}, r ≤ 10 → Numeral r ds n → ∃ b r, ds = b :: r ∧ isDigit b = true := by
    intro r ds n hr h
    obtain ⟨h1, h2, _⟩ := numeral_val h
    cases ds with
    | nil => exact absurd rfl h1
    | cons b l =>
      refine ⟨b, l, rfl, ?_⟩
      obtain ⟨h3, h4⟩ := h2 b (by simp)
      have hb : digitVal b < 10 := by omega
      exact isDigit_of_hex h3 hb
  cases h with
  | ident h =>
    obtain ⟨b, r, rfl, hb, _⟩ := h
    refine ⟨b, r, rfl, .inl ?_⟩
    rcases hb with hb | rfl
    · simp [isIdentStart, hb]
    · rfl
  | int h _ =>
    cases h with
    | zero => exact ⟨48, [], rfl, .inr (.inl rfl)⟩
    | decimal h _ => obtain ⟨b, r, rfl, hb⟩ := num (Nat.le_refl _) h; exact ⟨_, _, rfl, .inr (.inl hb)⟩
    | octal h => exact ⟨48, _, rfl, .inr (.inl rfl)⟩
    | hex _ h => exact ⟨48, _, rfl, .inr (.inl rfl)⟩
  | malformedOctal _ _ => exact ⟨48, _, rfl, .inr (.inl rfl)⟩
  | float h =>
    obtain ⟨b, r, rfl, hb⟩ := flt h
    refine ⟨b, r, rfl, ?_⟩
    rcases hb with hb | rfl
    · exact .inr (.inl hb)
    · exact .inr (.inr (.inr (.inr (.inr (by decide)))))
  | floatSuffix _ h _ =>
    obtain ⟨b, r, rfl, hb⟩ := flt h
    refine ⟨b, _, rfl, ?_⟩
    rcases hb with hb | rfl
    · exact .inr (.inl hb)
    · exact .inr (.inr (.inr (.inr (.inr (by decide)))))
  | intSuffix _ h _ hne _ =>
    obtain ⟨b, r, rfl, hb⟩ := dig h hne
    exact ⟨b, _, rfl, .inr (.inl hb)⟩
  | @string q body v hq _ =>
    refine ⟨q, _, rfl, ?_⟩
    rcases hq with rfl | rfl
    · exact .inr (.inr (.inr (.inl rfl)))
    · exact .inr (.inr (.inl rfl))
  | hashComment => exact ⟨35, _, rfl, .inr (.inr (.inr (.inr (.inl rfl))))⟩
  | lineComment => exact ⟨47, _, rfl, .inr (.inr (.inr (.inr (.inr (by decide)))))⟩
  | blockComment => exact ⟨47, _, rfl, .inr (.inr (.inr (.inr (.inr (by decide)))))⟩
  | _ => exact ⟨_, _, rfl, .inr (.inr (.inr (.inr (.inr (by decide)))))⟩

theorem lexToken_none {tf : Bool} {pos : Nat} {b : UInt8} {r : Bytes} {errs : List ParseErrorKind}
    (h : (lexToken tf pos (b :: r) errs).1 = none) : ∀ tf text t, Lexeme tf text t → ¬ text <+: b :: r := by
  intro tf' text t hl hp
  obtain ⟨c, w, rfl, hc⟩ := lexeme_first hl
  obtain ⟨z, hz⟩ := hp
  cases hz
  unfold lexToken at h
  simp only at h
  split at h
  · cases h
  · rename_i h1
    split at h
    · cases h
    · rename_i h2
      split at h
      · cases h
      · split at h
        · cases h
        · rename_i h3
          split at h
          · cases h
          · rename_i h4
            split at h
            · cases h
            · split at h
              · cases h
              · split at h
                · cases h
                · rename_i h5
                  simp only [Bool.or_eq_true, beq_iff_eq, not_or] at h3
                  rcases hc with hc | hc | hc | hc | hc | hc
                  · exact h1 hc
                  · exact h2 hc
                  · exact h3.1 hc
                  · exact h3.2 hc
                  · exact h4 (by simp [hc])
                  · exact hc h5

/-- A state whose diagnostics are explained. -/
structure Said (src : Bytes) (s : PState) : Prop where
  rest : s.rest = src.drop s.pos
  toks : ∃ pre, rawToks 0 src = pre ++ rawToks s.pos s.rest
  ahead : view s <:+ sigToks 0 src
  said : ∀ k ∈ s.errs, Fault src k.shown
  before : Before s.pos s.errs

theorem said_init (src) : Said src (PState.init src) :=
  ⟨rfl, ⟨[], rfl⟩, List.suffix_rfl, nofun, fun _ h => by rcases h with h | h <;> cases h⟩

theorem fault_str {src : Bytes} {t : Option Token} {sp s : Span} {k : ParseErrorKind}
    (hk : k = .invalidStringCharacters s ∨ k = .invalidStringEscape s) (h : LexFault src (t, sp) k.shown) : s.stop ≤ sp.stop := by
  rcases hk with rfl | rfl
  · generalize hm : ParseErrorKind.shown (.invalidStringCharacters s) = x at h
    cases h
    case badCharacter =>
      have hp := congrArg Shown.places hm
      simp only [ParseErrorKind.shown, ParseErrorKind.spans, List.cons.injEq, and_true] at hp
      subst hp
      assumption
    all_goals simp [ParseErrorKind.shown, ParseErrorKind.message] at hm
  · generalize hm : ParseErrorKind.shown (.invalidStringEscape s) = x at h
    cases h
    case badEscape =>
      have hp := congrArg Shown.places hm
      simp only [ParseErrorKind.shown, ParseErrorKind.spans, List.cons.injEq, and_true] at hp
      subst hp
      assumption
    all_goals simp [ParseErrorKind.shown, ParseErrorKind.message] at hm

structure NextSaid (src : Bytes) (pos : Nat) (errs : List ParseErrorKind) (o : Lex.Out) : Prop where
  rest : o.rest = src.drop o.span.stop
  before : Before o.span.stop o.errs
  tok : ∀ t, o.res = .tok t → ∀ k ∈ o.errs, k ∈ errs ∨ LexFault src (some t, o.span) k.shown
  eof : o.res = .eof → o.errs = errs
  bad : o.res = .error → o.errs = errs ∧ LexFault src (none, o.span) (ParseErrorKind.shown (.invalidToken o.span))

theorem lexToken_none_errs {tf : Bool} {pos : Nat} {b : UInt8} {r : Bytes} {errs : List ParseErrorKind}
    (h : (lexToken tf pos (b :: r) errs).1 = none) : (lexToken tf pos (b :: r) errs).2.2 = errs := by
  unfold lexToken at h ⊢
  simp only at h ⊢
  split at h
  · cases h
  · rename_i h1
    rw [if_neg h1]
    split at h
    · cases h
    · rename_i h1
      rw [if_neg h1]
      split at h
      · cases h
      · rename_i h1
        rw [if_neg h1]
        split at h
        · cases h
        · rename_i h1
          rw [if_neg h1]
          split at h
          · cases h
          · rename_i h1
            rw [if_neg h1]
            split at h
            · cases h
            · rename_i h1
              rw [if_neg h1]
              split at h
              · cases h
              · rename_i h1
                rw [if_neg h1]
                split at h
                · cases h
                · rfl

theorem next_said {src : Bytes} {tf : Bool} {pos : Nat} {errs : List ParseErrorKind} (hb : Before pos errs) :
    NextSaid src pos errs (Lex.next tf pos (src.drop pos) errs) := by
  have hd : (src.drop pos).dropWhile isSkip = src.drop (pos + ((src.drop pos).takeWhile isSkip).length) := by
    rw [← List.drop_drop]
    have h := List.takeWhile_append_dropWhile (p := isSkip) (l := src.drop pos)
    conv => rhs; arg 2; rw [← h]
    exact List.drop_left.symm
  have hp : pos ≤ pos + ((src.drop pos).takeWhile isSkip).length := by omega
  unfold Lex.next
  simp only
  generalize pos + ((src.drop pos).takeWhile isSkip).length = p at *
  have hb' : Before p errs := fun s h => Nat.le_trans (hb s h) hp
  generalize (src.drop pos).dropWhile isSkip = s at *
  cases s with
  | nil => exact ⟨hd, hb', nofun, fun _ => rfl, nofun⟩
  | cons b r =>
    obtain ⟨new, h1, h2⟩ := lexToken_adds (tf := tf) hd hb'
    have hn := lexToken_none (tf := tf) (pos := p) (b := b) (r := r) (errs := errs)
    have hne := lexToken_none_errs (tf := tf) (pos := p) (b := b) (r := r) (errs := errs)
    simp only
    rcases hl : lexToken tf p (b :: r) errs with ⟨t, n, e⟩
    rw [hl] at h1 h2 hn hne
    simp only at h1 h2 hn hne
    have hr : (b :: r).drop n = src.drop (p + n) := by rw [hd, List.drop_drop]
    have hbf : Before (p + n) e := by
      intro s hs
      rw [h1] at hs
      simp only [List.mem_append] at hs
      rcases hs with (hs | hs) | (hs | hs)
      · have := hb' s (.inl hs); omega
      · exact fault_str (.inl rfl) (h2 _ hs)
      · have := hb' s (.inr hs); omega
      · exact fault_str (.inr rfl) (h2 _ hs)
    cases t with
    | none =>
      refine ⟨hr, hbf, nofun, nofun, fun _ => ⟨hne rfl, .invalidToken ?_⟩⟩
      rw [← hd]
      exact hn rfl
    | some t =>
      refine ⟨hr, hbf, fun t' ht k hk => ?_, nofun, nofun⟩
      cases ht
      simp only at hk
      rw [h1] at hk
      rcases List.mem_append.1 hk with hk | hk
      · exact .inl hk
      · exact .inr (h2 _ hk)

theorem said_stable (src : Bytes) : Stable0 (Said src) where
  peekComments := by
    intro s hs
    have hv := rz_peekComments (s := s) rfl
    unfold P.peekComments at hv ⊢
    split
    · exact hs
    · exact hs
    · rename_i hp
      rw [hp] at hv
      simp only at hv ⊢
      obtain ⟨pre, h1⟩ := hs.toks
      obtain ⟨c1, c2, c3⟩ := next_same s.tf s.pos s.rest s.errs
      have hf := next_facts s.tf s.pos s.rest s.errs
      have hn := next_said (tf := s.tf) (src := src) hs.before
      rw [← hs.rest] at hn
      rw [rawToks_unfold s.pos, ← c1, ← c2, ← c3] at h1
      revert h1 hf hn hv
      generalize Lex.next s.tf s.pos s.rest s.errs = o
      intro hv h1 hf hn
      split
      · rename_i hr
        rw [hr] at h1 hv
        have hv : view _ = view s ∧ _ := hv
        refine ⟨hn.rest, ⟨pre, ?_⟩, by simp only; rw [hp, hv.1]; exact hs.ahead, ?_, hn.before⟩
        · have hnil : ∀ p, rawToks p [] = [] := by
            intro p; rw [rawToks_unfold p]; rfl
          rw [h1, (hf.eof_rest hr).1, hnil]
        · show ∀ k ∈ o.errs, _
          rw [hn.eof hr]; exact hs.said
      · rename_i t hr
        rw [hr] at h1 hv
        have hv : view _ = view s ∧ _ := hv
        refine ⟨hn.rest, ⟨pre ++ [(some t, o.span)], by simpa using h1⟩, by rw [hv.1]; exact hs.ahead, fun k hk => ?_, hn.before⟩
        rcases hn.tok t hr k hk with h | h
        · exact hs.said k h
        · refine .lex ?_ h
          rw [h1]
          exact List.mem_append_right _ (List.mem_cons_self ..)
      · rename_i hr
        rw [hr] at h1 hv
        have hv : view _ = view s ∧ _ := hv
        refine ⟨hn.rest, ⟨pre ++ [(none, o.span)], by simpa using h1⟩, by rw [hv.1]; exact hs.ahead, fun k hk => ?_, fun sp h => ?_⟩
        · rcases List.mem_append.1 hk with h | h
          · rw [(hn.bad hr).1] at h; exact hs.said k h
          · rw [List.mem_singleton.1 h]
            refine .lex ?_ (hn.bad hr).2
            rw [h1]
            exact List.mem_append_right _ (List.mem_cons_self ..)
        · refine hn.before sp ?_
          simpa using h
  bump := by
    intro s hs
    unfold P.bump
    split
    · rename_i t sp hp
      have h := rz_bump (E := fun _ => False) hp
      unfold P.bump at h
      rw [hp] at h
      simp only at h ⊢
      have hv : view s = _ ∧ _ := (h : _ ∧ _).2
      refine ⟨?_, ?_, ?_, ?_, ?_⟩
      · split <;> exact hs.rest
      · split <;> exact hs.toks
      · exact (show _ <:+ view s from ⟨_, hv.1.symm⟩).trans hs.ahead
      · split <;> exact hs.said
      · split <;> exact hs.before
    · exact hs
  comments := fun _ _ h => ⟨h.rest, h.toks, h.ahead, h.said, h.before⟩
  tf := fun _ _ h => ⟨h.rest, h.toks, h.ahead, h.said, h.before⟩
  clear := fun s h => ⟨h.rest, h.toks, (show sigToks s.pos s.rest <:+ view s from ⟨_, rfl⟩).trans h.ahead, h.said, h.before⟩

end Verif
