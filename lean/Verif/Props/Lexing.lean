import Verif.Proofs.RawAt
import Verif.Proofs.RunInv
import Verif.Proofs.OptionsFrom
/-!
C32, C36, C37, C46, C50: how the text of a source is read, and how text is written into the descriptor.
-/
namespace Verif
open Verif.Spec Verif.Ast Verif.Gen Verif.Grammar

/-! ### C50 -/

/-- C50: the spans of the tokens of any source are non-empty, inside the source, increasing and non-overlapping, and
only blanks (spaces, tabs, vertical tabs, form feeds, carriage returns) lie outside of them. -/
theorem C50_spans (src : Bytes) :
    (∀ x ∈ rawToks 0 src, x.2.start < x.2.stop ∧ x.2.stop ≤ src.length) ∧
    (rawToks 0 src).Pairwise (fun x y => x.2.stop ≤ y.2.start) ∧
    ∀ (k : Nat) b, src[k]? = some b → (∃ x ∈ rawToks 0 src, x.2.start ≤ k ∧ k < x.2.stop) ∨ Blank [b] := by
  obtain ⟨h1, h2, h3, _⟩ := rawToks_facts src (src.length + 1) [] src (by omega) rfl
  exact ⟨fun x hx => (h1 x hx).2, h2, fun k b hk => h3 k b (Nat.zero_le _) hk⟩

/-- C50 (longest match): where a token begins, a text that stands for a token and ends there is that token. -/
theorem C50_longest {src : Bytes} {x} (hx : x ∈ rawToks 0 src) {tf text t r} (hs : src.drop x.2.start = text ++ r)
    (h : Lexeme tf text t) (hr : Ends text t r) : x = (some t, ⟨x.2.start, x.2.start + text.length⟩) := by
  obtain ⟨h1, h2, _⟩ := rawToks_here hx
  have hn := Lex.next_of (lead := []) nofun h hr x.2.start []
  obtain ⟨g1, _, g3⟩ := next_same tf x.2.start (src.drop x.2.start) []
  rw [List.nil_append, ← hs] at hn
  rw [hn] at g1 g3
  rw [← g1] at h1
  rw [← g3] at h2
  rcases x with ⟨y, sp⟩
  cases y with
  | none => cases h1
  | some k =>
    cases h1
    simpa using h2.symm

theorem relex_one {text : Bytes} {t : Token} {n : Nat} (h : Lexeme false text t) (hn : text.length = n) :
    rawToks 0 text = [(some t, ⟨0, n⟩)] ∧ lexClean 0 text = true := by
  have hx := Lex.next_of (lead := []) nofun h (Lex.ends_nil _ _) 0 []
  rw [List.nil_append, List.append_nil] at hx
  subst hn
  constructor
  · rw [rawToks_unfold, hx]
    simp only [List.length_nil, Nat.zero_add]
    rw [rawToks_unfold]; rfl
  · rw [lexClean_unfold, hx]
    simp only [List.length_nil, Nat.zero_add]
    rw [lexClean_unfold]; rfl

theorem sigToks_trivia {pos : Nat} {s : Bytes} {ts : List STok} (h : sigToks pos s = ts.map some) :
    ∀ t ∈ ts.map (·.1), t.isTrivia = false := by
  intro t ht
  obtain ⟨x, hx, rfl⟩ := List.mem_map.1 ht
  have : some x ∈ sigToks pos s := by rw [h]; exact List.mem_map.2 ⟨x, hx, rfl⟩
  obtain ⟨y, _, hy⟩ := List.mem_filterMap.1 this
  split at hy
  · simp at hy
  · split at hy
    · cases hy
    · simp only [Option.some.injEq] at hy
      subst hy
      rename_i h1
      simpa using h1

section
variable [FloatFmt] [LocSort]

theorem lexed_of_ok {name src : Bytes} {fd} (h : parse name src = some (.ok fd)) : lexCleanIn true 0 src = true := by
  unfold parse at h
  split at h
  · cases h
  · cases hp : Parse.parseFile src with
    | ok r =>
      cases r with
      | ok f => exact Parse.parseFile_lexed hp
      | error e =>
        rw [hp] at h
        simp only at h
        cases he : ParseError.new e name src <;> rw [he] at h <;> cases h
    | _ => rw [hp] at h; cases h

/-- C50 (accepted sources): every token of an accepted source is written as the language prescribes: its text is a
`Lexeme` for it, and for no other token. -/
theorem C50_texts {name src : Bytes} {fd} (h : parse name src = some (.ok fd)) :
    ∀ x ∈ rawToks 0 src, ∃ t, x.1 = some t ∧ Lexeme true (textOf src x.2) t ∧
      ∀ t', Lexeme true (textOf src x.2) t' → t' = t := by
  intro x hx
  obtain ⟨f, ts, hp⟩ := parsed_of_ok h
  rcases x with ⟨y, sp⟩
  cases y with
  | none =>
    have : none ∈ sigToks 0 src := List.mem_filterMap.2 ⟨_, hx, rfl⟩
    rw [hp.toks] at this
    simp at this
  | some t =>
    have := (rawToks_facts src (src.length + 1) [] src (by omega) rfl).2.2.2 true (lexed_of_ok h) _ hx t rfl
    exact ⟨t, rfl, this, fun t' h' => Lex.lexeme_unique h' this⟩

/-! ### C32 -/

/-- C32: an integer literal (decimal, octal or hexadecimal, with any number of digits) at the beginning of a token of
an accepted source is below 2^64, and the token is exactly its value. -/
theorem C32_literals {name src : Bytes} {fd} (h : parse name src = some (.ok fd)) :
    ∀ x ∈ rawToks 0 src, ∀ text n r, src.drop x.2.start = text ++ r → IntLiteral text n →
      (∀ b, r.head? = some b → isAlnum b = false ∧ b ≠ 95 ∧ b ≠ 46) →
      n < 2 ^ 64 ∧ x = (some (.int n), ⟨x.2.start, x.2.start + text.length⟩) := by
  intro x hx text n r hs hi hr
  have hn : n < 2 ^ 64 := by
    have he := (rawToks_here hx).2.2 true (lexed_of_ok h)
    obtain ⟨sp, hnum⟩ := Lex.number_int' (tf := true) (pos := x.2.start) (errs := []) hi (Lex.ends_follow hr)
    obtain ⟨c, s, rfl, hc⟩ := Lex.isDigit_head hi
    have hskip : Lex.isSkip c = false := by
      simp only [isDigit, Bool.and_eq_true, decide_eq_true_eq, UInt8.le_iff_toNat_le, UInt8.reduceToNat] at hc
      simp only [Lex.isSkip, Bool.or_eq_false_iff, beq_eq_false_iff_ne, ne_eq, ← UInt8.toNat_inj, UInt8.reduceToNat]
      omega
    rw [hs] at he
    rw [List.cons_append] at he hnum
    have htok : Lex.lexToken true x.2.start (c :: (s ++ r)) [] = (some (.int (if n < 2 ^ 64 then n else 0)),
        (c :: s).length, Lex.intErrs n sp []) := by
      rw [Lex.lexToken_digit hc, hnum]
    unfold Lex.next at he
    simp only [List.takeWhile_cons, List.dropWhile_cons, hskip, Bool.false_eq_true, if_false, List.length_nil,
      Nat.add_zero, htok] at he
    unfold Lex.intErrs at he
    split at he
    · assumption
    · simp at he
  exact ⟨hn, C50_longest (tf := true) hx hs (.int hi hn) hr⟩

omit [FloatFmt] [LocSort] in
/-- C32 (conversions): an integer literal with or without minus sign is converted to `i32`, `i64` exactly if it fits,
and to `u32`, `u64` exactly if it fits and has no minus sign. -/
theorem C32_conversions (i : Int') (h : i.value < 2 ^ 64) (v : Int) (hv : v = if i.negative then -(i.value : Int) else i.value) :
    (∀ n, i.asI32 = some n ↔ n = v ∧ -(2 ^ 31) ≤ v ∧ v ≤ 2 ^ 31 - 1) ∧
    (∀ n, i.asI64 = some n ↔ n = v ∧ -(2 ^ 63) ≤ v ∧ v ≤ 2 ^ 63 - 1) ∧
    (∀ n, i.asU32 = some n ↔ n = v ∧ i.negative = false ∧ v ≤ 2 ^ 32 - 1) ∧
    (∀ n, i.asU64 = some n ↔ n = v ∧ i.negative = false ∧ v ≤ 2 ^ 64 - 1) := by
  have hi : i.toInt = v := by rw [hv]; rfl
  have hpos : i.negative = false → 0 ≤ v := fun hn => by rw [hv, hn]; simp
  refine ⟨fun n => hi ▸ asI32_fits i n, fun n => hi ▸ asI64_fits i n, fun n => ?_, fun n => ?_⟩
  · rw [asU32_fits, hi]
    constructor
    · rintro ⟨h1, _, h3, h4⟩; exact ⟨h1, h4, h3⟩
    · rintro ⟨h1, h4, h3⟩; exact ⟨h1, hpos h4, h3, h4⟩
  · rw [asU64_fits i h, hi]
    constructor
    · rintro ⟨h1, _, h3, h4⟩; exact ⟨h1, h4, h3⟩
    · rintro ⟨h1, h4, h3⟩; exact ⟨h1, hpos h4, h3, h4⟩

/-! ### C37 -/

theorem tokensOf_ok {name src : Bytes} {fd f ts} (h : Parsed name src fd f ts) : tokensOf src = Parse.bare ts := by
  unfold tokensOf
  rw [h.toks]
  simp [Parse.bare, List.filterMap_map, Function.comp_def]

/-- C37: a token that begins with a quote in an accepted source is a string literal: it ends with the same quote, and
what is between the quotes stands for the bytes of the token and for no other bytes. -/
theorem C37_literals {name src : Bytes} {fd} (h : parse name src = some (.ok fd)) :
    ∀ x ∈ rawToks 0 src, ∀ q, isQuote q → src[x.2.start]? = some q →
      ∃ body v, textOf src x.2 = q :: body ++ [q] ∧ StrBody q body v ∧ x.1 = some (.string v) ∧
        ∀ v', StrBody q body v' → v' = v := by
  intro x hx q hq hsrc
  obtain ⟨t, ht, hl, hu⟩ := C50_texts h x hx
  obtain ⟨s1, _, _⟩ := rawToks_here hx
  have hsp := (C50_spans src).1 x hx
  have hdrop : ∃ r, src.drop x.2.start = q :: r := by
    obtain ⟨hlt, he⟩ := List.getElem?_eq_some_iff.1 hsrc
    exact ⟨_, by rw [List.drop_eq_getElem_cons hlt, he]⟩
  obtain ⟨r, hr⟩ := hdrop
  have hq1 : Lex.isIdentStart q = false ∧ isDigit q = false ∧ (q == 46) = false ∧ (q == 39 || q == 34) = true ∧
      Lex.isSkip q = false := by
    rcases hq with rfl | rfl <;> decide
  rw [hr, ht] at s1
  unfold Lex.next at s1
  simp only [List.takeWhile_cons, List.dropWhile_cons, hq1, Bool.false_eq_true, if_false, List.length_nil,
    Nat.add_zero, Lex.lexToken, Bool.false_and, if_true, resOf, Lex.Res.tok.injEq] at s1
  have hhead : (textOf src x.2).head? = some q := by
    unfold textOf
    rw [hr]
    cases hk : x.2.stop - x.2.start with
    | zero => omega
    | succ k => rfl
  generalize htext : textOf src x.2 = text at *
  cases hl with
  | @string q' body v hq' hb =>
    cases hhead
    refine ⟨body, v, rfl, hb, ht, fun v' hv' => ?_⟩
    have := hu (.string v') (.string hq hv')
    simpa using this
  | _ => simp [Lex.string] at s1

/-- The token that may follow the value of an option. -/
def AfterOption (c : Token) : Prop := c = .semicolon ∨ c = .comma ∨ c = .rightBracket

/-- C37 (concatenation, options): a string value of an option is the concatenation of all the adjacent string literals
written after its `=`. -/
theorem C37_options {name src : Bytes} {fd} (h : parse name src = some (.ok fd)) :
    ∀ u, OptionIn fd u → ∀ v, u.stringValue = some v →
      ∃ pieces c, pieces ≠ [] ∧ .equals :: pieces.map Token.string ++ [c] <:+: tokensOf src ∧ AfterOption c ∧
        v = pieces.flatten := by
  intro u hu v hv
  obtain ⟨f, ts, hp⟩ := parsed_of_ok h
  rw [tokensOf_ok hp]
  obtain ⟨o, ⟨t, ht, t', c, rfl, hb, hc⟩, _, rfl⟩ := optionIn_from hp.made hp.tree hp.gram hu
  cases hb with
  | @mk ns n vs val h1 h2 =>
    cases h2 with
    | @string _ s h3 =>
      obtain ⟨pieces, g1, rfl, g3⟩ := h3
      refine ⟨pieces, c, g1, List.IsInfix.trans ⟨ns, [], by simp⟩ ht, hc, ?_⟩
      simp only [optionOf, Option.some.injEq] at hv
      rw [← hv, g3]
    | int h3 =>
      simp only [optionOf] at hv
      split at hv <;> cases hv
    | _ => simp [optionOf] at hv

/-- C37 (concatenation, imports): an imported path is the concatenation of the string literals of its `import`. -/
theorem C37_imports {name src : Bytes} {fd} (h : parse name src = some (.ok fd)) :
    ∀ d ∈ fd.dependency, ∃ ks pieces, (ks = [] ∨ ks = [kw b!"weak"] ∨ ks = [kw b!"public"]) ∧ pieces ≠ [] ∧
      kw b!"import" :: ks ++ pieces.map Token.string ++ [.semicolon] <:+: tokensOf src ∧ d = pieces.flatten := by
  intro d hd
  obtain ⟨f, ts, hp⟩ := parsed_of_ok h
  rw [tokensOf_ok hp]
  have : fd.dependency = (fileDesc name f).dependency := by rw [← hp.made.desc]
  rw [this] at hd
  obtain ⟨i, hi, rfl⟩ := List.mem_map.1 hd
  obtain ⟨t, ht, hg⟩ := (fileG_from hp.gram).imports i hi
  cases hg with
  | @mk ks k us v vsp c sp h1 h2 h3 =>
    obtain ⟨⟨sp', pieces, g1, rfl, g3⟩, _⟩ := h2
    refine ⟨ks, pieces, ?_, g1, ht, g3⟩
    cases h1 with
    | none => exact .inl rfl
    | weak => exact .inr (.inl rfl)
    | publ => exact .inr (.inr rfl)

/-! ### Defaults of strings and bytes: C36, C37 -/

omit [FloatFmt] [LocSort] in
theorem single_name {ns : List Token} {nm : List OptionNamePart} (h : SepBy .dot NamePartG ns nm) {i : Ident}
    (hn : nm = [.ident i]) : ns = [kw i.value] := by
  cases h with
  | one h => cases hn; cases h with | ident h => exact h
  | cons h1 h2 => cases hn; cases h2

/-- The `default` option of a field with a default value of a scalar type that is a string literal. -/
theorem default_strings {name src : Bytes} {fd} (h : parse name src = some (.ok fd)) {x s} (hx : FieldIn fd x)
    (hty : x.type = some .bytes ∨ x.type = some .string) (hs : x.defaultValue = some s) :
    ∃ pieces c v, pieces ≠ [] ∧ [kw b!"default", .equals] ++ pieces.map Token.string ++ [c] <:+: tokensOf src ∧
      AfterOption c ∧ v.value = pieces.flatten ∧ (x.type = some .bytes → s = Str.display v) ∧
      (x.type = some .string → s = v.value ∧ utf8Valid s = true) := by
  obtain ⟨f, ts, hp⟩ := parsed_of_ok h
  rw [tokensOf_ok hp]
  have hm := hp.made
  rcases hm.fieldIn hx with ⟨p, pl, y, hat⟩ | ⟨p, g, k, v, e, hat, hx⟩
  · have hfo := field_options hm hp.tree p pl y x hat
    cases ho : (listed y.options).find? (named b!"default") with
    | none => rw [hfo.2.2.2.1 ho] at hs; cases hs
    | some o =>
      obtain ⟨_, _, t, sp, s', hk, hd, htext⟩ := hfo.2.2.2.2 o ho
      rw [hs] at hd
      cases hd
      have hnm : ∃ i : Ident, o.name = [.ident i] ∧ i.value = b!"default" := by
        have := List.find?_some ho
        unfold named at this
        split at this
        · next i heq => exact ⟨i, heq, by simpa using this⟩
        · cases this
      obtain ⟨i, hn, hi⟩ := hnm
      obtain ⟨t0, ht0, hfl⟩ := (fieldAt_from hp.gram hat).2
      obtain ⟨t1, ht1, t', c, rfl, hb, hc⟩ := optList_from ((aField_options hfl).1.mono ht0) o (List.mem_of_find?_eq_some ho)
      have hstr : ∃ z, o.value = .string z ∧ (x.type = some .bytes → s = Str.display z) ∧
          (x.type = some .string → s = z.value ∧ utf8Valid s = true) := by
        have ht := (field_parts hm hat).2.2.1
        rw [hk] at ht
        have ht' : x.type = t.protoTy := ht
        rw [ht']
        rw [ht'] at hty
        cases t with
        | bytes =>
          cases hv : o.value with
          | string z => rw [hv] at htext; exact ⟨z, rfl, fun _ => htext, nofun⟩
          | _ => rw [hv] at htext; exact absurd htext (by simp [DefaultText])
        | string =>
          cases hv : o.value with
          | string z => rw [hv] at htext; exact ⟨z, rfl, nofun, fun _ => ⟨htext.2, htext.2 ▸ htext.1⟩⟩
          | _ => rw [hv] at htext; exact absurd htext (by simp [DefaultText])
        | _ => rcases hty with h | h <;> cases h
      obtain ⟨z, hz, hz1, hz2⟩ := hstr
      cases hb with
      | @mk ns nm vs val h1 h2 =>
        simp only at hn hz
        subst hz
        cases h2 with
        | string h3 =>
          obtain ⟨pieces, g1, rfl, g3⟩ := h3
          refine ⟨pieces, c, z, g1, ?_, hc, g3, hz1, hz2⟩
          rw [single_name h1 hn, hi] at ht1
          simpa using ht1
  · rw [(hm.msgAt hat).1] at hx
    simp only [srcDesc, entryOf, mapEntry, List.mem_cons, List.not_mem_nil, or_false] at hx
    rcases hx with rfl | rfl <;> cases hs

/-- C37 (concatenation, defaults): the default value of a string field is the concatenation of the string literals of
its `default` option, and valid UTF-8. -/
theorem C37_defaults {name src : Bytes} {fd} (h : parse name src = some (.ok fd)) :
    ∀ x, FieldIn fd x → x.type = some .string → ∀ s, x.defaultValue = some s →
      ∃ pieces c, pieces ≠ [] ∧ [kw b!"default", .equals] ++ pieces.map Token.string ++ [c] <:+: tokensOf src ∧
        AfterOption c ∧ s = pieces.flatten ∧ utf8Valid s = true := by
  intro x hx hty s hs
  obtain ⟨pieces, c, v, h1, h2, h3, h4, _, h6⟩ := default_strings h hx (.inr hty) hs
  exact ⟨pieces, c, h1, h2, h3, (h6 hty).1.trans h4, (h6 hty).2⟩

/-- C36: the default value of a bytes field is printable ASCII text that, put between quotes of either sort, stands for
exactly the bytes written in its `default` option (and lexes back to them). -/
theorem C36_defaults {name src : Bytes} {fd} (h : parse name src = some (.ok fd)) :
    ∀ x, FieldIn fd x → x.type = some .bytes → ∀ s, x.defaultValue = some s →
      ∃ pieces c, pieces ≠ [] ∧ [kw b!"default", .equals] ++ pieces.map Token.string ++ [c] <:+: tokensOf src ∧
        AfterOption c ∧ (∀ b ∈ s, 0x20 ≤ b ∧ b ≤ 0x7e) ∧
        ∀ q, isQuote q → StrBody q s pieces.flatten ∧
          rawToks 0 (q :: s ++ [q]) = [(some (.string pieces.flatten), ⟨0, s.length + 2⟩)] ∧
          lexClean 0 (q :: s ++ [q]) = true := by
  intro x hx hty s hs
  obtain ⟨pieces, c, v, h1, h2, h3, h4, h5, _⟩ := default_strings h hx (.inl hty) hs
  have h5 := h5 hty
  subst h5
  refine ⟨pieces, c, h1, h2, h3, ?_, fun q hq => ?_⟩
  · intro b hb
    obtain ⟨a, _, hb⟩ := List.mem_flatMap.1 hb
    exact Lex.escapeByte_ascii a b hb
  · have hbody : StrBody q v.display pieces.flatten := h4 ▸ Lex.strDisplay_body q v
    exact ⟨hbody, relex_one (Lexeme.string hq hbody) (by simp)⟩

omit [LocSort] in
/-- C36 (string tokens): the text of a string token, as it is put into aggregate options, is printable ASCII and lexes
back to that token alone. -/
theorem C36_tokens (v : Bytes) : (∀ b ∈ (Token.string v).display, 0x20 ≤ b ∧ b ≤ 0x7e) ∧
    rawToks 0 (Token.string v).display = [(some (.string v), ⟨0, (Token.string v).display.length⟩)] ∧
    lexClean 0 (Token.string v).display = true := by
  refine ⟨?_, relex_one (Lex.display_lexeme trivial rfl trivial) rfl⟩
  intro b hb
  simp only [Token.display, List.mem_cons, List.mem_append, List.mem_flatMap, List.not_mem_nil, or_false] at hb
  rcases hb with (rfl | ⟨a, _, hb⟩) | rfl
  · decide
  · exact Lex.escapeDefault_ascii a b hb
  · decide

/-! ### C46 -/

/-- C46: the text of an aggregate option value is made of the tokens between the braces after the `=` of the option;
inside of them braces are matched. The text lexes back to exactly these tokens, without errors, if its floating point
literals are printed as such (`Printable`), where they are replaced by their printed forms (`reprint`). -/
theorem C46_aggregates {name src : Bytes} {fd} (h : parse name src = some (.ok fd)) :
    ∀ u, OptionIn fd u → ∀ text, u.aggregateValue = some text →
      ∃ ts c, .equals :: .leftBrace :: ts ++ [.rightBrace, c] <:+: tokensOf src ∧ AfterOption c ∧
        balanced 0 ts = true ∧ text = aggText ts ∧
        ((∀ t ∈ ts, Printable t) →
          (rawToks 0 text).map (·.1) = ts.map (fun t => some (reprint t)) ∧ lexClean 0 text = true) := by
  intro u hu text hv
  obtain ⟨f, ts, hp⟩ := parsed_of_ok h
  have htoks := tokensOf_ok hp
  rw [htoks]
  obtain ⟨o, ⟨t, ht, t', c, rfl, hb, hc⟩, _, rfl⟩ := optionIn_from hp.made hp.tree hp.gram hu
  cases hb with
  | @mk ns n vs val h1 h2 =>
    cases h2 with
    | @aggregate us sp hbal =>
      simp only [optionOf, Option.some.injEq] at hv
      subst hv
      have hinf : .equals :: .leftBrace :: us ++ [.rightBrace, c] <:+: Parse.bare ts :=
        List.IsInfix.trans ⟨ns, [], by simp⟩ ht
      refine ⟨us, c, hinf, hc, hbal, rfl, fun hpr => ?_⟩
      have hmem : ∀ t ∈ us, t ∈ Parse.bare ts := fun t h => hinf.subset (by simp [h])
      exact Lex.aggText_relex (fun t h => sigToks_good hp.toks t (hmem t h))
        (fun t h => sigToks_trivia hp.toks t (hmem t h)) hpr
    | int h3 =>
      simp only [optionOf] at hv
      split at hv <;> cases hv
    | _ => simp [optionOf] at hv

end
end Verif
