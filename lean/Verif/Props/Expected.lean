import Verif.Proofs.FileRuns
import Verif.Props.Blame
/-! C63: what an "expected …, but found …" message, or an "expected …, but reached end of file" message, says was expected. -/
namespace Verif
open Verif.Blame Verif.Spec Verif.Gen Verif.Exec

section
variable [FloatFmt] [LocSort]

omit [FloatFmt] [LocSort] in
theorem mem_ut3 {errs : List ParseErrorKind} {ex t sp} : (ex, some (t, sp)) ∈ errs.filterMap ut3 ↔ .unexpectedToken ex t sp ∈ errs := by
  rw [List.mem_filterMap]
  constructor
  · rintro ⟨e, he, h⟩
    cases e <;> first | (cases h; done) | skip
    · cases h; exact he
    · rename_i ex'
      have h : (if lexEnd ex' = true then none else some (ex', none)) = some (ex, some (t, sp)) := h
      split at h <;> cases h
  · exact fun h => ⟨_, h, rfl⟩

omit [FloatFmt] [LocSort] in
theorem mem_ue3 {errs : List ParseErrorKind} {ex} : (ex, none) ∈ errs.filterMap ut3 ↔ .unexpectedEof ex ∈ errs ∧ lexEnd ex = false := by
  rw [List.mem_filterMap]
  constructor
  · rintro ⟨e, he, h⟩
    cases e <;> first | (cases h; done) | skip
    unfold ut3 at h
    dsimp only at h
    split at h
    · cases h
    · rename_i hx
      cases h
      exact ⟨he, by simpa using hx⟩
  · exact fun ⟨h, hx⟩ => ⟨_, h, by simp [ut3, hx]⟩

/-- The reports of the parser about a source. -/
theorem file_tally (src : Bytes) {F} (hF : src.length + 3 ≤ F) :
    ∃ errs : List ParseErrorKind, ((∃ f, Parse.parseFile src = .ok (.ok f) ∧ errs = []) ∨ Parse.parseFile src = .ok (.error errs)) ∧
      ∃ evs : List Report, errs.filterMap ut3 = evs.map (fun e => (e.1, e.2.1)) ∧
        allEvents F (unplaced (sigToks 0 src)) = evs.map (fun e => (e.1, e.2.1.map Prod.fst, unplaced e.2.2)) ∧
        ∀ e ∈ evs, e.2.2 <:+ sigToks 0 src ∧ e.2.2.head? = e.2.1.map some := by
  have h := rz_parseFile (len := src.length) hF (s := Parse.PState.init src) (v := sigToks 0 src) (U := []) nofun rfl rfl
  have hs := Parse.parseFile_spec src
  unfold Parse.parseFile at hs ⊢
  rcases hp : Parse.P.parseFile (src.length + 3) src.length (Parse.PState.init src) with ⟨r, s⟩
  rw [hp] at h hs
  cases r with
  | ok a =>
    obtain ⟨evs, h1, h2⟩ := (h : Tally _ _ _ _)
    dsimp only
    split
    · rename_i he
      refine ⟨[], .inl ⟨a, rfl, rfl⟩, evs, ?_, h2⟩
      rw [← he]
      exact h1
    · exact ⟨s.errs, .inr rfl, evs, h1, h2⟩
  | err =>
    rcases h with ⟨evs, h1, h2⟩ | ⟨a, s0, s1, _, h'⟩
    · exact ⟨s.errs, .inr rfl, evs, h1, h2⟩
    · exact absurd (congrArg Prod.fst h') (fileLoop_ok _ _ _ _)
  | panic => rcases hs with ⟨_, h, _⟩ | ⟨_, _, h, _⟩ <;> cases h
  | oof => rcases hs with ⟨_, h, _⟩ | ⟨_, _, h, _⟩ <;> cases h

omit [FloatFmt] [LocSort] in
theorem sigToks_starts (src : Bytes) :
    (sigToks 0 src).Pairwise fun x y => ∀ a b, x = some a → y = some b → a.2.start < b.2.start := by
  have h0 : (rawToks 0 src).Pairwise fun x y => x.2.start < y.2.start :=
    List.Pairwise.imp_of_mem (fun {x y} hx _ h => Nat.lt_of_lt_of_le ((C50_spans src).1 x hx).1 h) (C50_spans src).2.1
  have hg : ∀ (x : Option Token × Span) (p : STok), (match x.1 with
      | none => some none
      | some t => if t.isTrivia then none else some (some (t, x.2))) = some (some p) → p.2 = x.2 := by
    rintro ⟨x1, x2⟩ p h
    cases x1 with
    | none => cases h
    | some t =>
      dsimp only at h
      split at h
      · cases h
      · cases h; rfl
  refine List.Pairwise.filterMap _ (fun x y hxy a ha b hb => ?_) h0
  rintro p q rfl rfl
  rw [hg x p ha, hg y q hb]
  exact hxy

omit [FloatFmt] [LocSort] in
theorem suffix_unique {src : Bytes} {t t' : Token} {sp : Span} {l l'} (h : (some (t, sp) :: l) <:+ sigToks 0 src)
    (h' : (some (t', sp) :: l') <:+ sigToks 0 src) : t = t' ∧ l = l' := by
  have key : ∀ {t t' : Token} {l l' : List (Option STok)}, (some (t, sp) :: l) <:+ sigToks 0 src →
      (some (t', sp) :: l') <:+ (some (t, sp) :: l) → t = t' ∧ l = l' := by
    intro t t' l l' h h'
    rw [List.suffix_cons_iff] at h'
    rcases h' with h' | h'
    · cases h'; exact ⟨rfl, rfl⟩
    · have hp := (sigToks_starts src).sublist h.sublist
      have hm : some (t', sp) ∈ l := h'.subset List.mem_cons_self
      exact absurd ((List.pairwise_cons.1 hp).1 _ hm _ _ rfl rfl) (Nat.lt_irrefl _)
  rcases Nat.le_total (some (t, sp) :: l).length (some (t', sp) :: l').length with hl | hl
  · obtain ⟨h1, h2⟩ := key h' (List.suffix_of_suffix_length_le h h' hl)
    exact ⟨h1.symm, h2.symm⟩
  · exact key h (List.suffix_of_suffix_length_le h' h hl)

omit [FloatFmt] [LocSort] in
theorem unplaced_append (a b : List (Option STok)) : unplaced (a ++ b) = unplaced a ++ unplaced b := List.map_append

/-- A report about the token at a place is one of the events of the token sequence, and the other way round. -/
theorem reported_iff {name src : Bytes} (hlen : src.length ≤ 2147483647) {F} (hF : src.length + 3 ≤ F) {pre post ex x t sp}
    (hr : sigToks 0 src = pre ++ some (x, sp) :: post) :
    (∃ e, parse name src = some (.error e) ∧ .unexpectedToken ex t sp ∈ e.kinds) ↔
      (ex, some t, some x :: unplaced post) ∈ allEvents F (unplaced pre ++ some x :: unplaced post) := by
  obtain ⟨errs, h0, evs, h1, h2, h3⟩ := file_tally src hF
  have hu : unplaced (sigToks 0 src) = unplaced pre ++ some x :: unplaced post := by
    rw [hr, unplaced_append]; rfl
  rw [hu] at h2
  have hsuf : (some (x, sp) :: post) <:+ sigToks 0 src := ⟨pre, hr.symm⟩
  have hkey : .unexpectedToken ex t sp ∈ errs ↔
      (ex, some t, some x :: unplaced post) ∈ allEvents F (unplaced pre ++ some x :: unplaced post) := by
    rw [← mem_ut3, h1, h2, List.mem_map, List.mem_map]
    constructor
    · rintro ⟨⟨ex', o, l⟩, hm, he⟩
      cases he
      obtain ⟨h4, h5⟩ := h3 _ hm
      cases l with
      | nil => cases h5
      | cons y l =>
        cases h5
        obtain ⟨rfl, rfl⟩ := suffix_unique hsuf h4
        exact ⟨_, hm, rfl⟩
    · rintro ⟨⟨ex', o, l⟩, hm, he⟩
      obtain ⟨h4, h5⟩ := h3 _ hm
      have hl : unplaced l = some x :: unplaced post := congrArg (·.2.2) he
      have hlen' : l.length = (some (x, sp) :: post).length := by simpa [unplaced] using congrArg List.length hl
      have hq := (List.suffix_of_suffix_length_le h4 hsuf (Nat.le_of_eq hlen')).eq_of_length hlen'
      cases hq
      have h5 : some (some (x, sp)) = o.map some := h5
      cases o with
      | none => cases h5
      | some y => cases h5; cases he; exact ⟨_, hm, rfl⟩
  rw [← hkey]
  rcases h0 with ⟨f, hp, rfl⟩ | hp
  · refine ⟨?_, nofun⟩
    rintro ⟨e, he, hm⟩
    rcases parse_token_errors he with ⟨errs, hp', _⟩ | ⟨hn, _⟩
    · rw [hp] at hp'; cases hp'
    · have := mem_ut.2 ⟨ex, t, hm⟩
      rw [hn] at this
      cases this
  · constructor
    · rintro ⟨e, he, hm⟩
      rcases parse_token_errors he with ⟨errs', hp', hk⟩ | ⟨hn, _⟩
      · rw [hp] at hp'; cases hp'
        rw [← hk]; exact hm
      · have := mem_ut.2 ⟨ex, t, hm⟩
        rw [hn] at this
        cases this
    · intro hm
      rcases errs with _ | ⟨k, ks⟩
      · cases hm
      · refine ⟨⟨k, ks, name, src⟩, ?_, hm⟩
        unfold parse
        rw [if_neg (show ¬ src.length > maxParseLen from Nat.not_lt.2 hlen), hp]
        rfl

/-- Only sources within the size limit are parsed. -/
theorem reported_len {name src : Bytes} {e : ParseError} (h : parse name src = some (.error e)) {ex t sp}
    (hm : .unexpectedToken ex t sp ∈ e.kinds) : src.length ≤ 2147483647 := by
  unfold parse at h
  by_cases hlen : src.length > maxParseLen
  · rw [if_pos hlen] at h
    cases h
    simp [ParseError.kinds] at hm
  · exact Nat.le_of_not_lt hlen

/-- The place that a message blames. -/
theorem reported_place {name src : Bytes} {e : ParseError} (h : parse name src = some (.error e)) {ex t sp}
    (hm : .unexpectedToken ex t sp ∈ e.kinds) : ∃ pre post, sigToks 0 src = pre ++ some (t, sp) :: post := by
  obtain ⟨h1, h2⟩ := C61_token h hm
  refine List.append_of_mem (List.mem_filterMap.2 ⟨_, h2, ?_⟩)
  simp [h1]

/-- The facts about the place of a message. -/
theorem reported_at {name src : Bytes} {e : ParseError} (h : parse name src = some (.error e)) {ex t sp}
    (hm : .unexpectedToken ex t sp ∈ e.kinds) {pre post} (hr : sigToks 0 src = pre ++ some (t, sp) :: post) {F}
    (hF : src.length + 3 ≤ F) : At (allEvents F) (unplaced pre) t ex t :=
  allEvents_at ((reported_iff (name := name) (reported_len h hm) hF hr).1 ⟨e, h, hm⟩)

/-- C63: what the message about a token says depends on nothing but the tokens up to and including that one: any source with
the same tokens up to there (not necessarily at the same offsets, and followed by anything) is rejected with the same message
about that token. -/
theorem C63_determined {name src : Bytes} {e : ParseError} (h : parse name src = some (.error e)) {ex t sp}
    (hm : .unexpectedToken ex t sp ∈ e.kinds) {pre post} (hr : sigToks 0 src = pre ++ some (t, sp) :: post)
    (name' src' : Bytes) {pre' sp' post'} (hr' : sigToks 0 src' = pre' ++ some (t, sp') :: post')
    (hpre : unplaced pre' = unplaced pre) :
    ∃ e', parse name' src' = some (.error e') ∧ (src'.length ≤ 2147483647 → .unexpectedToken ex t sp' ∈ e'.kinds) := by
  have ha := reported_at h hm hr (F := max src.length src'.length + 3) (by omega)
  by_cases hlen : src'.length ≤ 2147483647
  · obtain ⟨e', h1, h2⟩ := (reported_iff (name := name') (ex := ex) (t := t) hlen (F := max src.length src'.length + 3)
      (by omega) hr').2 (by rw [hpre]; exact ha.same _)
    exact ⟨e', h1, fun _ => h2⟩
  · refine ⟨⟨.fileTooLarge, [], name', []⟩, ?_, fun h => absurd h hlen⟩
    unfold parse
    rw [if_pos (show src'.length > maxParseLen from Nat.lt_of_not_le hlen)]
    rfl

/-- C63: what a message suggests would have been taken: in a source with the same tokens before the place and there one of the
tokens that the message names, whatever follows, no message is about the token at that place. -/
theorem C63_suggestion {name src : Bytes} {e : ParseError} (h : parse name src = some (.error e)) {ex t sp}
    (hm : .unexpectedToken ex t sp ∈ e.kinds) {pre post} (hr : sigToks 0 src = pre ++ some (t, sp) :: post)
    {y : Token} (hy : expects ex y) (name' src' : Bytes) {pre' sp' post'}
    (hr' : sigToks 0 src' = pre' ++ some (y, sp') :: post') (hpre : unplaced pre' = unplaced pre) {e' : ParseError}
    (h' : parse name' src' = some (.error e')) (ex' : Parse.Expect) (t' : Token) : .unexpectedToken ex' t' sp' ∉ e'.kinds := by
  have ha := reported_at h hm hr (F := max src.length src'.length + 3) (by omega)
  intro hm'
  have := (reported_iff (name := name') (reported_len h' hm') (F := max src.length src'.length + 3) (by omega) hr').1 ⟨e', h', hm'⟩
  rw [hpre] at this
  exact ha.fixed y hy _ _ _ this

/-- C63: a message does not say that it expected the very token that it says it found. -/
theorem C63_honest {name src : Bytes} {e : ParseError} (h : parse name src = some (.error e)) {ex t sp}
    (hm : .unexpectedToken ex t sp ∈ e.kinds) : ¬ expects ex t := by
  obtain ⟨pre, post, hr⟩ := reported_place h hm
  exact fun hy => C63_suggestion h hm hr hy name src hr rfl h ex t hm

/-- C63: every alternative that a message names stands for some token. -/
theorem C63_words {name src : Bytes} {e : ParseError} (h : parse name src = some (.error e)) {ex t sp}
    (hm : .unexpectedToken ex t sp ∈ e.kinds) : ∀ words ∈ alternatives ex.render, ∃ y, means words y := by
  obtain ⟨pre, post, hr⟩ := reported_place h hm
  exact (reported_at h hm hr (Nat.le_refl _)).words

/-! ### The end of the file -/

theorem rejected_kinds {name src : Bytes} {e : ParseError} {errs} (hlen : src.length ≤ 2147483647) (hp : Parse.parseFile src = .ok (.error errs))
    (h : parse name src = some (.error e)) : e.kinds = errs := by
  unfold parse at h
  rw [if_neg (show ¬ src.length > maxParseLen from Nat.not_lt.2 hlen), hp] at h
  cases errs with
  | nil => cases h
  | cons k ks => cases h; rfl

theorem not_violation_eof {f : Ast.File} {k} (h : Violation f k) : eof? k = none := by
  have hr : ∀ {p : Ast.Int' → Prop} {b : Span → ParseErrorKind} {r k}, (∀ s, eof? (b s) = none) → BadRange p b r k → eof? k = none := by
    intro p b r k hb h
    cases h <;> exact hb _
  have ho : ∀ {o k}, BadOption o k → eof? k = none := by
    intro o k h
    cases h <;> rfl
  cases h with
  | field hf h =>
    have hd : ∀ {t v k}, BadDefault t v k → eof? k = none := by
      intro t v k h
      cases h <;> rfl
    cases h with
    | badDefault _ _ h => exact hd h
    | badJsonName _ h => exact hd h
    | badOption _ h => exact ho h
    | _ => rfl
  | reservedRange _ _ h => exact hr (fun _ => rfl) h
  | extensionRange _ _ h => exact hr (fun _ => rfl) h
  | extensionOption _ _ _ h => exact ho h
  | messageOption _ _ h => exact ho h
  | emptyOneof _ _ _ => rfl
  | oneofOption _ _ _ h => exact ho h
  | enumNumber _ _ _ => rfl
  | enumRange _ _ h => exact hr (fun _ => rfl) h
  | enumValueOption _ _ _ h => exact ho h
  | enumOption _ _ h => exact ho h
  | methodOption _ _ _ h => exact ho h
  | serviceOption _ _ h => exact ho h
  | fileOption _ h => exact ho h

theorem accepted_no_eof {name src : Bytes} {e : ParseError} {f} (hp : Parse.parseFile src = .ok (.ok f))
    (h : parse name src = some (.error e)) {ex} : .unexpectedEof ex ∉ e.kinds := by
  intro hm
  by_cases hlen : src.length ≤ 2147483647
  · obtain ⟨hx, ht⟩ := Pos.parseFile_iff.1 hp
    have := (C53_justified h hlen hx ht _).1 hm
    exact nomatch not_violation_eof this
  · unfold parse at h
    rw [if_pos (show src.length > maxParseLen from Nat.lt_of_not_le hlen)] at h
    cases h
    simp [ParseError.kinds] at hm

/-- A report about the end of the file is an event of the token sequence, and the other way round. -/
theorem ended_iff {name src : Bytes} (hlen : src.length ≤ 2147483647) {F} (hF : src.length + 3 ≤ F) {ex} (hx : lexEnd ex = false) :
    (∃ e, parse name src = some (.error e) ∧ .unexpectedEof ex ∈ e.kinds) ↔ (ex, none, []) ∈ allEvents F (unplaced (sigToks 0 src)) := by
  obtain ⟨errs, h0, evs, h1, h2, h3⟩ := file_tally src hF
  have hkey : .unexpectedEof ex ∈ errs ↔ (ex, none, []) ∈ allEvents F (unplaced (sigToks 0 src)) := by
    rw [show .unexpectedEof ex ∈ errs ↔ (ex, none) ∈ errs.filterMap ut3 from ⟨fun h => mem_ue3.2 ⟨h, hx⟩, fun h => (mem_ue3.1 h).1⟩,
      h1, h2, List.mem_map, List.mem_map]
    constructor
    · rintro ⟨⟨ex', o, l⟩, hm, he⟩
      cases he
      obtain ⟨h4, h5⟩ := h3 _ hm
      cases l with
      | nil => exact ⟨_, hm, rfl⟩
      | cons y l => cases h5
    · rintro ⟨⟨ex', o, l⟩, hm, he⟩
      cases o with
      | none => exact ⟨_, hm, by rw [show ex' = ex from congrArg Prod.fst he]⟩
      | some y => exact nomatch (congrArg (·.2.1) he : some _ = none)
  rw [← hkey]
  rcases h0 with ⟨f, hp, rfl⟩ | hp
  · refine ⟨?_, nofun⟩
    rintro ⟨e, he, hm⟩
    exact absurd hm (accepted_no_eof hp he)
  · constructor
    · rintro ⟨e, he, hm⟩
      rwa [rejected_kinds hlen hp he] at hm
    · intro hm
      rcases errs with _ | ⟨k, ks⟩
      · cases hm
      · refine ⟨⟨k, ks, name, src⟩, ?_, hm⟩
        unfold parse
        rw [if_neg (show ¬ src.length > maxParseLen from Nat.not_lt.2 hlen), hp]
        rfl

/-- Only sources within the size limit are parsed. -/
theorem ended_len {name src : Bytes} {e : ParseError} (h : parse name src = some (.error e)) {ex} (hm : .unexpectedEof ex ∈ e.kinds) :
    src.length ≤ 2147483647 := by
  unfold parse at h
  by_cases hlen : src.length > maxParseLen
  · rw [if_pos hlen] at h
    cases h
    simp [ParseError.kinds] at hm
  · exact Nat.le_of_not_lt hlen

theorem ended_at {name src : Bytes} {e : ParseError} (h : parse name src = some (.error e)) {ex} (hx : lexEnd ex = false)
    (hm : .unexpectedEof ex ∈ e.kinds) {F} (hF : src.length + 3 ≤ F) : AtFin (allEvents F) (unplaced (sigToks 0 src)) ex :=
  allEvents_fin ((ended_iff (name := name) (ended_len h hm) hF hx).1 ⟨e, h, hm⟩)

/-- C63: a message about the end of the file depends on nothing but the tokens of the file: any source with the same tokens is
rejected with the same message. -/
theorem C63_end_determined {name src : Bytes} {e : ParseError} (h : parse name src = some (.error e)) {ex} (hx : lexEnd ex = false)
    (hm : .unexpectedEof ex ∈ e.kinds) (name' src' : Bytes) (hs : unplaced (sigToks 0 src') = unplaced (sigToks 0 src)) :
    ∃ e', parse name' src' = some (.error e') ∧ (src'.length ≤ 2147483647 → .unexpectedEof ex ∈ e'.kinds) := by
  have ha := (ended_iff (name := name) (ended_len h hm) (F := max src.length src'.length + 3) (by omega) hx).1 ⟨e, h, hm⟩
  by_cases hlen : src'.length ≤ 2147483647
  · obtain ⟨e', h1, h2⟩ := (ended_iff (name := name') hlen (F := max src.length src'.length + 3) (by omega) hx).2 (by rw [hs]; exact ha)
    exact ⟨e', h1, fun _ => h2⟩
  · refine ⟨⟨.fileTooLarge, [], name', []⟩, ?_, fun h => absurd h hlen⟩
    unfold parse
    rw [if_pos (show src'.length > maxParseLen from Nat.lt_of_not_le hlen)]
    rfl

/-- C63: what a message about the end of the file suggests would have been taken: in a source that goes on, after the same
tokens, with one of the tokens that the message names, no message is about that token. -/
theorem C63_end_suggestion {name src : Bytes} {e : ParseError} (h : parse name src = some (.error e)) {ex} (hx : lexEnd ex = false)
    (hm : .unexpectedEof ex ∈ e.kinds) {y : Token} (hy : expects ex y) (name' src' : Bytes) {pre' sp' post'}
    (hr' : sigToks 0 src' = pre' ++ some (y, sp') :: post') (hpre : unplaced pre' = unplaced (sigToks 0 src)) {e' : ParseError}
    (h' : parse name' src' = some (.error e')) (ex' : Parse.Expect) (t' : Token) : .unexpectedToken ex' t' sp' ∉ e'.kinds := by
  have ha := ended_at h hx hm (F := max src.length src'.length + 3) (by omega)
  intro hm'
  have := (reported_iff (name := name') (reported_len h' hm') (F := max src.length src'.length + 3) (by omega) hr').1 ⟨e', h', hm'⟩
  rw [hpre] at this
  exact ha.fixed y hy _ _ _ this

/-- C63: every alternative that a message about the end of the file names stands for some token. -/
theorem C63_end_words {name src : Bytes} {e : ParseError} (h : parse name src = some (.error e)) {ex} (hx : lexEnd ex = false)
    (hm : .unexpectedEof ex ∈ e.kinds) : ∀ words ∈ alternatives ex.render, ∃ y, means words y :=
  (ended_at h hx hm (Nat.le_refl _)).words

end

namespace Demo

/-- The alternatives in the messages about `blameSrc`, as they are displayed. -/
example : (kindsOf blameSrc).map ParseErrorKind.message =
    [b!"expected an identifier, but found '='", b!"invalid token", b!"expected a string literal, 'public' or 'weak', but found '3'",
      b!"expected '=', but found '0'", b!"invalid token", b!"invalid token"] := by decide +kernel

example : alternatives b!"a string literal, 'public' or 'weak'" = [b!"a string literal", b!"'public'", b!"'weak'"] := by decide

theorem expects_weak : expects (.text b!"a string literal, 'public' or 'weak'") (.ident b!"weak") :=
  ⟨b!"'weak'", by decide, .inl ⟨b!"weak", by decide, by decide⟩⟩

/-- `blameSrc` with the suggestion of its second message. -/
def weakSrc : Bytes := b!"syntax = \"proto3\";\nmessage A { int32 = 1; }\n$ import weak;"

theorem blamed {src : Bytes} {ex t sp} (h : .unexpectedToken ex t sp ∈ kindsOf src) :
    ∃ e, parse b!"a.proto" src = some (.error e) ∧ .unexpectedToken ex t sp ∈ e.kinds := by
  unfold kindsOf at h
  split at h
  · exact ⟨_, ‹_›, h⟩
  · cases h

/-- `C63_suggestion` applied, after an earlier error: `weak` is taken (and the error is about the next token). -/
example (e' : ParseError) (h' : parse b!"y.proto" weakSrc = some (.error e')) (ex' t') :
    .unexpectedToken ex' t' ⟨53, 57⟩ ∉ e'.kinds := by
  obtain ⟨e, h, hm⟩ := blamed (src := blameSrc) (ex := .text b!"a string literal, 'public' or 'weak'") (t := .int 3) (sp := ⟨53, 54⟩) (by decide +kernel)
  have hd : (sigToks 0 blameSrc).drop 14 = some (.int 3, ⟨53, 54⟩) :: (sigToks 0 blameSrc).drop 15 := by decide +kernel
  have hd' : (sigToks 0 weakSrc).drop 14 = some (.ident b!"weak", ⟨53, 57⟩) :: (sigToks 0 weakSrc).drop 15 := by decide +kernel
  exact C63_suggestion h hm (pre := (sigToks 0 blameSrc).take 14) (post := (sigToks 0 blameSrc).drop 15)
    (by rw [← hd, List.take_append_drop]) expects_weak b!"y.proto" weakSrc (pre' := (sigToks 0 weakSrc).take 14)
    (post' := (sigToks 0 weakSrc).drop 15) (by rw [← hd', List.take_append_drop]) (by decide +kernel) h' ex' t'

example : kindsOf weakSrc = [.unexpectedToken (.text b!"an identifier") .equals ⟨37, 38⟩, .invalidToken ⟨44, 45⟩,
    .unexpectedToken (.text b!"a string literal") .semicolon ⟨57, 58⟩] := by decide +kernel

/-- A file that ends inside a message, after an earlier error, and one that goes on as the message says. -/
def cutSrc : Bytes := b!"import weak;\nmessage A { repeated int32 /* a number */ f = 1"
def goOnSrc : Bytes := b!"import weak; message A {\nrepeated int32 f = 1 [ }"

example : (kindsOf cutSrc).map ParseErrorKind.message =
    [b!"expected a string literal, but found ';'", b!"expected ';' or '[', but reached end of file"] := by decide +kernel

theorem ended {src : Bytes} {ex} (h : .unexpectedEof ex ∈ kindsOf src) :
    ∃ e, parse b!"a.proto" src = some (.error e) ∧ .unexpectedEof ex ∈ e.kinds := by
  unfold kindsOf at h
  split at h
  · exact ⟨_, ‹_›, h⟩
  · cases h

/-- `C63_end_suggestion` applied: `[` is taken (and the error is about the next token). -/
example (e' : ParseError) (h' : parse b!"y.proto" goOnSrc = some (.error e')) (ex' t') :
    .unexpectedToken ex' t' ⟨46, 47⟩ ∉ e'.kinds := by
  obtain ⟨e, h, hm⟩ := ended (src := cutSrc) (ex := .oneOf [.token .semicolon, .token .leftBracket]) (by decide +kernel)
  have hd' : (sigToks 0 goOnSrc).drop 11 = some (.leftBracket, ⟨46, 47⟩) :: (sigToks 0 goOnSrc).drop 12 := by decide +kernel
  exact C63_end_suggestion h rfl hm (y := .leftBracket) ⟨b!"'['", by decide, .inl ⟨b!"[", by decide, by decide⟩⟩ b!"y.proto" goOnSrc
    (pre' := (sigToks 0 goOnSrc).take 11) (post' := (sigToks 0 goOnSrc).drop 12) (by rw [← hd', List.take_append_drop])
    (by decide +kernel) h' ex' t'

example : (kindsOf goOnSrc).map ParseErrorKind.message =
    [b!"expected a string literal, but found ';'", b!"expected an identifier or '(', but found '}'"] := by decide +kernel

end Demo
end Verif
