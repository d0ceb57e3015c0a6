import Verif.Proofs.GenText
import Verif.Proofs.Utf8Enc
import Verif.Proofs.Tokens
import Verif.Proofs.Accept
import Verif.Spec.Lines
import Verif.Proofs.Demo
/-!
C60: positions reported for a text are between characters.
-/
namespace Verif
open Verif.Spec Verif.Ast Verif.Gen Verif.Text

section
variable [FloatFmt] [LocSort]

omit [FloatFmt] [LocSort] in
/-- C60 (meaning): a byte string is text exactly if `std::str::from_utf8` accepts it, and positions between its characters
are those that `str::is_char_boundary` accepts. -/
theorem C60_text (s : Bytes) :
    (IsText s ↔ utf8Valid s = true) ∧ (IsText s → ∀ n, Between s n ↔ CharBoundary s n) :=
  ⟨text_iff, fun h n => between_iff h n⟩

omit [FloatFmt] [LocSort] in
theorem between_drop {src : Bytes} (h : IsText src) {n} (hn : n ≤ src.length) (hd : V (src.drop n)) : Between src n :=
  (between_iff h n).2 (boundary_of_drop hn hd)

omit [FloatFmt] [LocSort] in
theorem rawToksN_text {B : Nat → Prop} : ∀ (n pos : Nat) (s : Bytes), PV B pos s → ∀ x ∈ rawToksN n pos s,
    Sp B x.2 ∧ ∀ t, x.1 = some t → TokV t
  | 0, _, _, _ => nofun
  | n + 1, pos, s, h => by
    have hn := next_text (P := B) false [] h
    have hs : Sp B (Lex.next false pos s []).span := ⟨hn.start, hn.rest.here⟩
    intro x hx
    rw [rawToksN] at hx
    split at hx
    · cases hx
    · rename_i t ht
      rcases List.mem_cons.1 hx with rfl | hx
      · exact ⟨hs, fun t' e => by injection e with e; subst e; exact hn.text _ ht⟩
      · exact rawToksN_text n _ _ hn.rest x hx
    · rcases List.mem_cons.1 hx with rfl | hx
      · exact ⟨hs, nofun⟩
      · exact rawToksN_text n _ _ hn.rest x hx

omit [FloatFmt] [LocSort] in
/-- C60 (tokens): every token of a text, and every byte sequence that is not a token, begins and ends between characters,
and its slice of the source is text. -/
theorem C60_tokens {src : Bytes} (h : IsText src) : ∀ x ∈ rawToks 0 src,
    Between src x.2.start ∧ Between src x.2.stop ∧ IsText ((src.take x.2.stop).drop x.2.start) := by
  intro x hx
  have h0 : PV (Between src) 0 src := ⟨valid_of_text h, fun k hk hd => by rw [Nat.zero_add]; exact between_drop h hk hd⟩
  obtain ⟨⟨h1, h2⟩, _⟩ := rawToksN_text _ 0 src h0 x hx
  refine ⟨h1, h2, ?_⟩
  have b1 := (boundary_iff (valid_of_text h) _).1 ((between_iff h _).1 h1)
  have b2 := (boundary_iff (valid_of_text h) _).1 ((between_iff h _).1 h2)
  by_cases hle : x.2.start ≤ x.2.stop
  · have : src.take x.2.stop = src.take x.2.start ++ (src.take x.2.stop).drop x.2.start := by
      have := List.take_append_drop x.2.start (src.take x.2.stop)
      rw [List.take_take, Nat.min_eq_left hle] at this
      exact this.symm
    apply text_of_valid
    refine v_of_append b1.2.1 ?_
    rw [← this]; exact b2.2.1
  · rw [List.drop_of_length_le (by rw [List.length_take]; omega)]
    exact ⟨[], nofun, rfl⟩

/-- The errors of `parse` on text. -/
theorem parse_errs_text {B : Nat → Prop} {name src : Bytes} (h : IsText src)
    (hB : ∀ n, n ≤ src.length → V (src.drop n) → B n) {e} (he : parse name src = some (.error e)) : ErrsB B e.kinds := by
  have hv := valid_of_text h
  by_cases hlen : src.length > maxParseLen
  · unfold parse at he
    rw [if_pos hlen] at he
    injection he with he; injection he with he; subst he
    intro k hk
    simp only [ParseError.kinds, List.mem_cons, List.not_mem_nil, or_false] at hk
    subst hk
    nofun
  · obtain ⟨hok, herr⟩ := parseFile_text (B := B) hv hB
    rcases Parse.parseFile_spec src with ⟨errs, h1, h2, _⟩ | ⟨f, ts, h1, _⟩
    · have hE := herr _ h1
      unfold parse at he
      rw [if_neg hlen, h1] at he
      cases errs with
      | nil => exact absurd rfl h2
      | cons k ks =>
        injection he with he; injection he with he; subst he
        exact hE
    · have hE := fileErrsB (hB 0 (Nat.zero_le _) hv) (hok _ h1)
      obtain ⟨g1, g2⟩ := parse_of_file (name := name) (Nat.not_lt.1 hlen) h1
      cases hf : fileErrs f with
      | nil => obtain ⟨fd, g⟩ := g1 hf; rw [he] at g; cases g
      | cons k ks =>
        rw [g2 k ks hf] at he
        injection he with he; injection he with he; subst he
        rw [hf] at hE
        exact hE

/-- C60 (errors): when a text is rejected, every span in the error begins and ends between characters, so that the
labels of the report can be cut out of the source. -/
theorem C60_errors {name src : Bytes} (h : IsText src) {e} (he : parse name src = some (.error e)) :
    ∀ k ∈ e.kinds, ∀ s ∈ k.spans, Between src s.start ∧ Between src s.stop :=
  parse_errs_text h (fun _ hn hd => between_drop h hn hd) he

/-- C60 (locations): when a text is accepted, every location begins and ends between characters, and all comments are
text. -/
theorem C60_locations {name src : Bytes} (h : IsText src) {fd} (hp : parse name src = some (.ok fd)) :
    ∃ locs, fd.sourceCodeInfo = some locs ∧ ∀ loc ∈ locs,
      (∃ a b, Between src a ∧ Between src b ∧ loc.span = spanNumbers src a b) ∧
      (∀ c, loc.leadingComments = some c → IsText c) ∧ (∀ c, loc.trailingComments = some c → IsText c) ∧
      (∀ c ∈ loc.leadingDetachedComments, IsText c) := by
  have hv := valid_of_text h
  obtain ⟨f, ts, hp⟩ := Gen.parsed_of_ok hp
  obtain ⟨hok, _⟩ := parseFile_text (B := Between src) hv (fun _ hn hd => between_drop h hn hd)
  have hm := fileMarksB (between_drop h (Nat.zero_le _) hv) (hok _ hp.run)
  rw [hp.desc]
  refine ⟨_, rfl, fun loc hloc => ?_⟩
  rw [(LocSort.perm _).mem_iff, List.mem_map] at hloc
  obtain ⟨x, hx, rfl⟩ := hloc
  obtain ⟨hs, h1, h2, h3⟩ := hm x hx
  exact ⟨⟨_, _, hs.1, hs.2, rfl⟩, fun c hc => text_of_valid _ (h2 c hc), fun c hc => text_of_valid _ (h3 c hc),
    fun c hc => text_of_valid _ (h1 c hc)⟩

end

/-! Concrete cases: a source with two-, three- and four-byte characters, accepted and rejected. -/

/-- `é`, `€`, `𝄞` in a comment and in a string. -/
def demoText : Bytes :=
  b!"syntax = \"proto2\"; // " ++ [0xC3, 0xA9, 0xE2, 0x82, 0xAC] ++ b!"\n message M { optional string s = 1 [default = \"" ++
    [0xF0, 0x9D, 0x84, 0x9E] ++ b!"\"]; }"

example : IsText demoText := text_of_valid _ (by decide +kernel)
example : Demo.accepts demoText = true := by decide +kernel
/-- A character that is not a token: the span of the error covers the whole character, bytes 2 to 5. -/
example : IsText (b!"; " ++ [0xE2, 0x82, 0xAC] ++ b!";") ∧
    (match parse b!"a" (b!"; " ++ [0xE2, 0x82, 0xAC] ++ b!";") with
      | some (.error e) => decide (e.kinds = [.invalidToken ⟨2, 5⟩])
      | _ => false) = true :=
  ⟨text_of_valid _ (by decide +kernel), by decide +kernel⟩
/-- Not text: a lone continuation byte, a surrogate, an overlong form. -/
example : ¬ IsText [0x80] ∧ ¬ IsText [0xED, 0xA0, 0x80] ∧ ¬ IsText [0xC0, 0x80] :=
  ⟨fun h => absurd (valid_of_text h) (by unfold V; decide +kernel), fun h => absurd (valid_of_text h) (by unfold V; decide +kernel),
    fun h => absurd (valid_of_text h) (by unfold V; decide +kernel)⟩
/-- Position 1 is inside `é`. -/
example : ¬ Between [0xC3, 0xA9] 1 ∧ Between [0xC3, 0xA9] 2 := by
  have h : IsText [0xC3, 0xA9] := text_of_valid _ (by decide +kernel)
  rw [between_iff h, between_iff h]
  exact ⟨fun hb => absurd (hb.2 0xA9 rfl) (by decide), by decide, nofun⟩
end Verif
