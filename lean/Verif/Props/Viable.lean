import Verif.Props.Expected
import Verif.Proofs.Via8
/-! C64: what comes before the first unexpected token is the beginning of a file. -/
namespace Verif
open Verif.Blame Verif.Spec Verif.Gen Verif.Exec

section
variable [FloatFmt] [LocSort]

omit [FloatFmt] [LocSort] in
theorem ut3_syntactic {e x} (h : ut3 e = some x) : aboutTokens e = true := by
  cases e <;> first | rfl | cases h

omit [FloatFmt] [LocSort] in
theorem first_ut3 {errs : List ParseErrorKind} {k x} (h : (errs.filter aboutTokens).head? = some k) (hk : ut3 k = some x) :
    (errs.filterMap ut3).head? = some x := by
  have key : errs.filterMap ut3 = (errs.filter aboutTokens).filterMap ut3 := by
    rw [List.filterMap_filter]
    refine congrArg (fun f => errs.filterMap f) (funext fun e => ?_)
    by_cases he : aboutTokens e = true
    · rw [if_pos he]
    · rw [if_neg he]
      cases hu : ut3 e with
      | none => rfl
      | some y => exact absurd (ut3_syntactic hu) he
  rw [key]
  cases hf : errs.filter aboutTokens with
  | nil => rw [hf] at h; cases h
  | cons y ys =>
    rw [hf] at h
    cases h
    rw [List.filterMap_cons, hk]
    rfl

omit [LocSort] in
theorem completed_clean {src' : Bytes} {F} (hev : ∀ F2, F ≤ F2 → allEvents F2 (unplaced (sigToks 0 src')) = [] ∧
      ∃ a w, exec (Parse.parseHeader F2 0) (unplaced (sigToks 0 src')) = .done a w)
    (hn : none ∉ unplaced (sigToks 0 src')) {errs} (h : Parse.parseFile src' = .ok (.error errs)) : ∀ k ∈ errs, ungrammatical k = false := by
  have h1 : errs.filterMap ut3 = [] := by
    obtain ⟨errs', h0, evs, h1, h2, _⟩ := file_tally src' (F := max F (src'.length + 3)) (Nat.le_max_right ..)
    rw [(hev _ (Nat.le_max_left ..)).1] at h2
    have hevs : evs = [] := List.map_eq_nil_iff.1 h2.symm
    rw [hevs] at h1
    rcases h0 with ⟨f, hp, _⟩ | hp
    · rw [h] at hp; cases hp
    · rw [h] at hp; cases hp; exact h1
  have h2 : errs.filterMap unkOf = [] := by
    obtain ⟨_, a, w, hx⟩ := hev (max F (src'.length + 3)) (Nat.le_max_left ..)
    exact noUnk_file (Nat.le_max_right ..) hx h
  have h3 : errs.filterMap invSpan = [] := by
    have hk := (keeps_parseFile (tk_stable src') (src'.length + 3) src'.length) _ (tk_init src')
    obtain ⟨pre, h4, h5⟩ := hk.toks
    rw [rejected_state h] at h5
    rw [h5]
    refine List.filterMap_eq_nil_iff.2 fun x hx => ?_
    obtain ⟨x1, x2⟩ := x
    cases x1 with
    | some t => rfl
    | none =>
      refine absurd ?_ hn
      exact List.mem_map.2 ⟨none, List.mem_filterMap.2 ⟨(none, x2), by rw [h4]; exact List.mem_append_left _ hx, rfl⟩, rfl⟩
  intro k hk
  have e1 := List.filterMap_eq_nil_iff.1 h1 k hk
  have e2 := List.filterMap_eq_nil_iff.1 h2 k hk
  have e3 := List.filterMap_eq_nil_iff.1 h3 k hk
  cases k <;> first | rfl | (cases e1; done) | (cases e2; done) | (cases e3; done) | skip
  rename_i ex
  have e1 : (if lexEnd ex = true then none else some (ex, (none : Option STok))) = none := e1
  show (!lexEnd ex) = false
  split at e1
  · rename_i hl; rw [hl]; rfl
  · cases e1

theorem not_violation_unk {f : Ast.File} {k} (h : Violation f k) : unkOf k = none := by
  have hr : ∀ {p : Ast.Int' → Prop} {b : Span → ParseErrorKind} {r k}, (∀ s, unkOf (b s) = none) → BadRange p b r k → unkOf k = none := by
    intro p b r k hb h
    cases h <;> exact hb _
  have ho : ∀ {o k}, BadOption o k → unkOf k = none := by
    intro o k h
    cases h <;> rfl
  cases h with
  | field hf h =>
    have hd : ∀ {t v k}, BadDefault t v k → unkOf k = none := by
      intro t v k h
      cases h <;> rfl
    cases h with
    | badDefault _ _ h => exact hd h
    | badJsonName _ h => exact hd h
    | badOption _ h => exact ho h
    | _ => rfl
  | reservedRange _ _ h => exact hr (fun _ => rfl) h
  | extensionRange _ _ h => exact hr (fun _ => rfl) h
  | extensionOption _ _ _ h => exact ho h
  | messageOption _ _ h => exact ho h
  | emptyOneof _ _ _ => rfl
  | oneofOption _ _ _ h => exact ho h
  | enumNumber _ _ _ => rfl
  | enumRange _ _ h => exact hr (fun _ => rfl) h
  | enumValueOption _ _ _ h => exact ho h
  | enumOption _ _ h => exact ho h
  | methodOption _ _ _ h => exact ho h
  | serviceOption _ _ h => exact ho h
  | fileOption _ h => exact ho h

/-- No diagnostic of the completed source is about its grammar. -/
theorem parsed_clean {name src' : Bytes} (h : ∀ errs, Parse.parseFile src' = .ok (.error errs) → ∀ k ∈ errs, ungrammatical k = false) {e'}
    (h' : parse name src' = some (.error e')) : ∀ k ∈ e'.kinds, ungrammatical k = false := by
  rcases parse_token_errors h' with ⟨errs, hp, he⟩ | ⟨h1, h2, h3⟩
  · rw [he]; exact h errs hp
  · intro k hk
    by_cases hlen : src'.length ≤ 2147483647
    · obtain ⟨f, hf⟩ := h3 hlen
      obtain ⟨hx, ht⟩ := Pos.parseFile_iff.1 hf
      have hv := (C53_justified h' hlen hx ht k).1 hk
      have e1 := not_violation hv
      have e2 := not_violation_eof hv
      have e3 := not_violation_unk hv
      cases k <;> first | rfl | (cases e1.1; done) | (cases e1.2; done) | (cases e2; done) | (cases e3; done)
    · unfold parse at h'
      rw [if_pos (show src'.length > maxParseLen from Nat.lt_of_not_le hlen)] at h'
      cases h'
      simp only [ParseError.kinds, List.mem_singleton, List.mem_cons, List.not_mem_nil, or_false] at hk
      rw [hk]; rfl

/-- C64: when the first diagnostic about tokens blames a token, the source before that token is the beginning of a file: it can
be continued so that no diagnostic is about the grammar (also when that source is too large for `parse`, of the parser itself). -/
theorem C64_viable {name src : Bytes} {e : ParseError} (h : parse name src = some (.error e)) {ex t sp}
    (hk : (e.kinds.filter aboutTokens).head? = some (.unexpectedToken ex t sp)) :
    ∃ rest : Bytes, (∀ (name' : Bytes) (e' : ParseError), parse name' (src.take sp.start ++ rest) = some (.error e') →
      ∀ k ∈ e'.kinds, ungrammatical k = false) ∧
      ∀ errs, Parse.parseFile (src.take sp.start ++ rest) = .ok (.error errs) → ∀ k ∈ errs, ungrammatical k = false := by
  have hm : .unexpectedToken ex t sp ∈ e.kinds := (List.mem_filter.1 (List.mem_of_head? hk)).1
  obtain ⟨ht, hmem⟩ := C61_token h hm
  rcases parse_token_errors h with ⟨errs, hp, he⟩ | ⟨hn, _⟩
  · rw [he] at hk
    obtain ⟨pre, post, hraw⟩ := List.append_of_mem hmem
    have hsp := (C50_spans src).1 _ hmem
    have hpw := (C50_spans src).2.1
    have hw := wr_parseFile src (src.length + 3) src.length
    have hst := rejected_state hp
    have hfine : ∀ x ∈ pre, x.2.stop ≤ sp.start ∧ Fine src x := by
      intro x hx
      rw [hraw] at hpw
      have h1 := (List.pairwise_append.1 hpw).2.2 x hx _ (.head _)
      refine ⟨h1, hw.tok ex t sp (by rw [hst]; exact hk) x (by rw [hraw]; exact List.mem_append_left _ hx) h1⟩
    have hsig : sigToks 0 src = significant pre ++ some (t, sp) :: significant post := by
      unfold sigToks
      rw [hraw, significant_append]
      refine congrArg (_ ++ ·) ?_
      show List.filterMap _ _ = _
      rw [List.filterMap_cons]
      simp only [ht]
      rfl
    let F := 2 * (sigToks 0 src).length + src.length + 5
    have hev : allEvents F (unplaced (significant pre) ++ some t :: unplaced (significant post)) =
        (ex, some t, some t :: unplaced (significant post)) ::
          (allEvents F (unplaced (significant pre) ++ some t :: unplaced (significant post))).tail := by
      obtain ⟨errs', h0, evs, h1, h2, h3⟩ := file_tally src (F := F) (by omega)
      have hu : unplaced (sigToks 0 src) = unplaced (significant pre) ++ some t :: unplaced (significant post) := by
        rw [hsig, unplaced_append]; rfl
      rw [hu] at h2
      have herr : errs' = errs := by
        rcases h0 with ⟨f, hp', _⟩ | hp'
        · rw [hp] at hp'; cases hp'
        · rw [hp] at hp'; cases hp'; rfl
      have hfirst := first_ut3 hk (rfl : ut3 (.unexpectedToken ex t sp) = some (ex, some (t, sp)))
      rw [← herr, h1] at hfirst
      cases evs with
      | nil => cases hfirst
      | cons v vs =>
        obtain ⟨v1, v2, v3⟩ := v
        have hv : (v1, v2) = (ex, some (t, sp)) := by injection hfirst
        cases hv
        obtain ⟨h4, h5⟩ := h3 _ (.head _)
        cases v3 with
        | nil => cases h5
        | cons y l =>
          cases h5
          obtain ⟨_, rfl⟩ := suffix_unique (l' := l) ⟨_, hsig.symm⟩ h4
          rw [h2]
          rfl
    have hlen : (unplaced (significant pre) ++ some t :: unplaced (significant post)).length = (sigToks 0 src).length := by
      rw [hsig]; simp [unplaced]
    obtain ⟨z, hz, hdone⟩ := viable_file (by
      have : (unplaced (significant pre)).length ≤ (sigToks 0 src).length := by rw [← hlen, List.length_append]; omega
      omega) (by rw [hlen]; omega) (fine_some fun x hx => (hfine x hx).2) hev
    obtain ⟨rest, hrest⟩ := completed_toks (Nat.le_trans (Nat.le_of_lt hsp.1) hsp.2) hraw hfine (fun x hx => by cases hx; exact Nat.le_refl _) hz
    suffices hc : ∀ errs', Parse.parseFile _ = .ok (.error errs') → ∀ k ∈ errs', ungrammatical k = false from
      ⟨rest, fun name' e' h' => parsed_clean hc h', hc⟩
    refine fun errs' hp' => completed_clean (F := F) ?_ ?_ hp'
    · rw [hrest]; exact hdone
    · rw [hrest]
      intro hm
      rcases List.mem_append.1 hm with hm | hm
      · exact fine_some (fun x hx => (hfine x hx).2) hm
      · simp at hm
  · have := mem_ut.2 ⟨ex, t, hm⟩
    rw [hn] at this
    cases this

/-- C64: when the first diagnostic about tokens is about the end of the file (not of a string or a comment), the source can be
continued so that no diagnostic is about the grammar. -/
theorem C64_viable_end {name src : Bytes} {e : ParseError} (h : parse name src = some (.error e)) {ex}
    (hk : (e.kinds.filter aboutTokens).head? = some (.unexpectedEof ex)) (hl : lexEnd ex = false) :
    ∃ rest : Bytes, (∀ (name' : Bytes) (e' : ParseError), parse name' (src ++ rest) = some (.error e') →
      ∀ k ∈ e'.kinds, ungrammatical k = false) ∧
      ∀ errs, Parse.parseFile (src ++ rest) = .ok (.error errs) → ∀ k ∈ errs, ungrammatical k = false := by
  have hm : .unexpectedEof ex ∈ e.kinds := (List.mem_filter.1 (List.mem_of_head? hk)).1
  have hlen := ended_len h hm
  rcases parse_token_errors h with ⟨errs, hp, he⟩ | ⟨_, _, hf⟩
  · rw [he] at hk
    have hw := wr_parseFile src (src.length + 3) src.length
    have hst := rejected_state hp
    have hfine : ∀ x ∈ rawToks 0 src, x.2.stop ≤ src.length ∧ Fine src x := fun x hx =>
      ⟨((C50_spans src).1 x hx).2, hw.eof ex (by rw [hst]; exact hk) hl x hx⟩
    let F := 2 * (sigToks 0 src).length + src.length + 5
    have hev : allEvents F (unplaced (sigToks 0 src) ++ []) =
        (ex, none, []) :: (allEvents F (unplaced (sigToks 0 src) ++ [])).tail := by
      rw [List.append_nil]
      obtain ⟨errs', h0, evs, h1, h2, h3⟩ := file_tally src (F := F) (by omega)
      have herr : errs' = errs := by
        rcases h0 with ⟨f, hp', _⟩ | hp'
        · rw [hp] at hp'; cases hp'
        · rw [hp] at hp'; cases hp'; rfl
      have hfirst := first_ut3 hk (by simp [ut3, hl] : ut3 (.unexpectedEof ex) = some (ex, none))
      rw [← herr, h1] at hfirst
      cases evs with
      | nil => cases hfirst
      | cons v vs =>
        obtain ⟨v1, v2, v3⟩ := v
        have hv : (v1, v2) = (ex, none) := by injection hfirst
        cases hv
        obtain ⟨h4, h5⟩ := h3 _ (.head _)
        cases v3 with
        | nil => rw [h2]; rfl
        | cons y l => cases h5
    have hlen' : (unplaced (sigToks 0 src)).length = (sigToks 0 src).length := by simp [unplaced]
    have hnone := fine_some (pre := rawToks 0 src) fun x hx => (hfine x hx).2
    obtain ⟨z, hz, hdone⟩ := viable_file (u := unplaced (sigToks 0 src)) (w' := []) (by omega)
      (by rw [List.append_nil]; omega) hnone hev
    obtain ⟨rest, hrest⟩ := completed_toks (Nat.le_refl src.length) (List.append_nil _).symm hfine nofun hz
    rw [List.take_length] at hrest
    have hrest : _ = unplaced (sigToks 0 src) ++ z.map some := hrest
    suffices hc : ∀ errs', Parse.parseFile _ = .ok (.error errs') → ∀ k ∈ errs', ungrammatical k = false from
      ⟨rest, fun name' e' h' => parsed_clean hc h', hc⟩
    refine fun errs' hp' => completed_clean (F := F) ?_ ?_ hp'
    · rw [hrest]; exact hdone
    · rw [hrest]
      intro hm
      rcases List.mem_append.1 hm with hm | hm
      · exact hnone hm
      · simp at hm
  · obtain ⟨f, hf⟩ := hf hlen
    exact absurd hm (accepted_no_eof hf h)

end

namespace Demo

/-- The first diagnostic about tokens comes after one about the path of an import. -/
def halfSrc : Bytes := b!"syntax = 'proto3'; import 'a/../b';\nmessage A { optional int32 /* a number */ = 1; }"

example : kindsOf halfSrc = [.invalidImport ⟨26, 34⟩, .unexpectedToken (.text b!"an identifier") .equals ⟨78, 79⟩] := by decide +kernel

/-- `C64_viable` applied to it. -/
example : ∃ rest : Bytes, ∀ (name' : Bytes) (e' : ParseError), parse name' (halfSrc.take 78 ++ rest) = some (.error e') →
    ∀ k ∈ e'.kinds, ungrammatical k = false := by
  have hr : rejects halfSrc = true := by decide +kernel
  unfold rejects at hr
  split at hr
  · rename_i e he
    have hk : kindsOf halfSrc = e.kinds := by unfold kindsOf; rw [he]
    have h1 : (e.kinds.filter aboutTokens).head? = some (.unexpectedToken (.text b!"an identifier") .equals ⟨78, 79⟩) := by
      rw [← hk]; decide +kernel
    exact (C64_viable he h1).imp fun _ h => h.1
  · cases hr

/-- One way to continue it; the diagnostic that is left is not about the grammar. -/
example : kindsOf (halfSrc.take 78 ++ b!"\nf = 1; }") = [.invalidImport ⟨26, 34⟩] := by decide +kernel

/-- Most continuations do not do. -/
example : (kindsOf (halfSrc.take 78 ++ b!"\nf = 1;")).map ungrammatical = [false, true] := by decide +kernel

/-- `C64_viable_end` applied to the beginning of this file. -/
example : ∃ rest : Bytes, ∀ (name' : Bytes) (e' : ParseError), parse name' (halfSrc.take 63 ++ rest) = some (.error e') →
    ∀ k ∈ e'.kinds, ungrammatical k = false := by
  have hr : rejects (halfSrc.take 63) = true := by decide +kernel
  unfold rejects at hr
  split at hr
  · rename_i e he
    have hk : kindsOf (halfSrc.take 63) = e.kinds := by unfold kindsOf; rw [he]
    have h1 : (e.kinds.filter aboutTokens).head? = some (.unexpectedEof (.text b!"an identifier")) := by
      rw [← hk]; decide +kernel
    exact (C64_viable_end he h1 rfl).imp fun _ h => h.1
  · cases hr

end Demo
end Verif
