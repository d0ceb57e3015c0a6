import Verif.Proofs.Demo
import Verif.Props.Resolver
/-!
Properties of `protox_parse::parse` as a whole: C26 (second half), C27, C28, C29, C31.

`parse name src` is `none` for a panic (or a loop that does not end), `some (.error e)` for `Err(e)` and
`some (.ok fd)` for `Ok(fd)`.
-/
namespace Verif
open Verif.Spec Verif.Ast
section
variable [FloatFmt] [LocSort]

/-- C26: `parse` never produces a descriptor for a source longer than 2147483647 bytes; it returns an error, and that
error is of the parse class when it reaches the user of the compiler. -/
theorem C26_parse_bounded (name src : Bytes) :
    (src.length > 2147483647 → ∃ e, parse name src = some (.error e) ∧ e.kinds = [.fileTooLarge] ∧
      (Error.parse e).isParse = true) ∧
    (∀ fd, parse name src = some (.ok fd) → src.length ≤ 2147483647) := by
  refine ⟨fun h => ?_, fun fd h => ?_⟩
  · rcases Gen.parse_spec name src with ⟨_, h'⟩ | ⟨h', _⟩ | ⟨_, _, _, _, h'⟩
    · exact ⟨_, h', rfl, rfl⟩
    · omega
    · have := h'.len; omega
  · obtain ⟨_, _, hp⟩ := Gen.parsed_of_ok h
    exact hp.len

/-- C27: `parse` terminates on every source and never panics. -/
theorem C27_parse_total (name src : Bytes) :
    (∃ fd, parse name src = some (.ok fd)) ∨ (∃ e, parse name src = some (.error e)) := by
  rcases Gen.parse_spec name src with ⟨_, h⟩ | ⟨_, _, _, h, _⟩ | ⟨_, _, _, h, _⟩
  · exact .inr ⟨_, h⟩
  · exact .inr ⟨_, h⟩
  · exact .inl ⟨_, h⟩

/-- `parse` as the total function that the model of `File::open` (protox/src/file/mod.rs) takes as its parameter; the
last case does not occur. -/
def parseFn : ParseFn := fun name src =>
  match parse name src with
  | some (.ok fd) => .ok fd
  | some (.error e) => .error e
  | none => .error ⟨.unexpectedEof (.text []), [], [], []⟩

/-- C27: the parameter of `File::open` is `parse` itself. -/
theorem C27_parseFn (name src : Bytes) : parse name src = some (parseFn name src) := by
  unfold parseFn
  rcases C27_parse_total name src with ⟨_, h⟩ | ⟨_, h⟩ <;> rw [h]

/-- C28: an error carries the file name and at least one kind; lexing or parsing that fails records a kind before it
gives up (`ParseError::new` would panic on an empty list). -/
theorem C28_at_least_one_error (name src : Bytes) :
    (∀ e, parse name src = some (.error e) → e.kinds ≠ [] ∧ e.file = name) ∧
    (∀ errs, Parse.parseFile src = .ok (.error errs) → errs ≠ []) := by
  refine ⟨fun e h => ?_, fun errs h => ?_⟩
  · refine ⟨by simp [ParseError.kinds], ?_⟩
    rcases Gen.parse_spec name src with ⟨_, h'⟩ | ⟨_, _, _, h', _⟩ | ⟨_, _, _, h', _⟩ <;> rw [h] at h' <;> cases h' <;> rfl
  · rcases Parse.parseFile_spec src with ⟨errs', h1, h2, _⟩ | ⟨_, _, h1, _⟩
    · rw [h] at h1; cases h1; exact h2
    · rw [h] at h1; cases h1

/-- C29: every span of every error lies inside the source: start ≤ end ≤ length. -/
theorem C29_error_spans (name src : Bytes) (e : ParseError) (h : parse name src = some (.error e)) :
    ∀ k ∈ e.kinds, ∀ s ∈ k.spans, s.start ≤ s.stop ∧ s.stop ≤ src.length := by
  rcases Gen.parse_spec name src with ⟨_, h'⟩ | ⟨_, k, ks, h', hok⟩ | ⟨_, _, _, h', _⟩ <;> rw [h] at h' <;> cases h'
  · intro k hk s hs
    simp only [ParseError.kinds, List.mem_cons, List.not_mem_nil, or_false] at hk
    subst hk; simp [ParseErrorKind.spans] at hs
  · exact hok

/-- C29: the source attached to an error is the one that was parsed, so that its spans can be shown (a source that is
too large is not attached; its error has no span). -/
theorem C29_error_source (name src : Bytes) (e : ParseError) (h : parse name src = some (.error e)) :
    e.source = src ∨ (src.length > 2147483647 ∧ ∀ k ∈ e.kinds, k.spans = []) := by
  rcases Gen.parse_spec name src with ⟨hl, h'⟩ | ⟨_, k, ks, h', hok⟩ | ⟨_, _, _, h', _⟩ <;> rw [h] at h' <;> cases h'
  · refine .inr ⟨hl, fun k hk => ?_⟩
    simp only [ParseError.kinds, List.mem_cons, List.not_mem_nil, or_false] at hk
    subst hk; rfl
  · exact .inl rfl

/-- C31: a successful parse has source locations, and each of them is a non-empty range of bytes inside the source,
except that the whole-file location of a source without tokens runs from its end to its start. -/
theorem C31_locations (name src : Bytes) (fd : FileDescriptorProto) (h : parse name src = some (.ok fd)) :
    ∃ locs, fd.sourceCodeInfo = some locs ∧ ∀ loc ∈ locs,
      (∃ a b, a < b ∧ b ≤ src.length ∧ loc.span = spanNumbers src a b) ∨
      (loc.path = [] ∧ sigToks 0 src = [] ∧ loc.span = spanNumbers src src.length 0) := by
  obtain ⟨f, ts, hp⟩ := Gen.parsed_of_ok h
  rw [hp.desc]
  refine ⟨_, rfl, fun loc hloc => ?_⟩
  rw [(LocSort.perm _).mem_iff, List.mem_map] at hloc
  obtain ⟨x, hx, rfl⟩ := hloc
  rcases List.mem_cons.1 hx with rfl | hx
  · rcases hp.span with ⟨ht, hs⟩ | hs
    · refine .inr ⟨rfl, by rw [hp.toks, ht]; rfl, ?_⟩
      show Gen.encSpan src f.span = _
      rw [hs]; rfl
    · exact .inl ⟨_, _, hs.1, hs.2, rfl⟩
  · have := hp.marks x hx
    exact .inl ⟨_, _, this.2.1, this.2.2, rfl⟩

/-- Line numbers do not decrease. -/
theorem lineOf_mono (src : Bytes) {a b : Nat} (h : a ≤ b) : lineOf src a ≤ lineOf src b := by
  obtain ⟨d, rfl⟩ := Nat.exists_eq_add_of_le h
  simp only [lineOf, List.take_add, List.filter_append, List.length_append]
  omega

/-- On one line, columns grow with offsets. -/
theorem colOf_mono (src : Bytes) {a b : Nat} (h : a < b) (hb : b ≤ src.length) (hl : lineOf src a = lineOf src b) :
    colOf src a < colOf src b := by
  obtain ⟨d, rfl⟩ := Nat.exists_eq_add_of_le (Nat.le_of_lt h)
  have ht : src.take (a + d) = src.take a ++ (src.drop a).take d := List.take_add
  have hnil : ((src.drop a).take d).filter (· == 10) = [] := by
    have : lineOf src (a + d) = lineOf src a + (((src.drop a).take d).filter (· == 10)).length := by
      simp only [lineOf, ht, List.filter_append, List.length_append]
    exact List.length_eq_zero_iff.1 (by omega)
  have hall : ∀ c ∈ ((src.drop a).take d).reverse, (c != 10) = true := by
    intro c hc
    have := List.filter_eq_nil_iff.1 hnil c (by simpa using hc)
    simpa using this
  simp only [colOf, ht, List.reverse_append]
  rw [List.takeWhile_append_of_pos hall]
  simp; omega

/-- C31 in terms of the numbers in the descriptor: three numbers with growing columns, or four numbers with growing
lines; all of them are non-negative. -/
theorem C31_ordered (name src : Bytes) (fd : FileDescriptorProto) (h : parse name src = some (.ok fd)) :
    ∀ locs, fd.sourceCodeInfo = some locs → ∀ loc ∈ locs, (sigToks 0 src ≠ [] ∨ loc.path ≠ []) →
      (∃ l c₁ c₂, loc.span = [l, c₁, c₂] ∧ 0 ≤ l ∧ 0 ≤ c₁ ∧ c₁ < c₂) ∨
      (∃ l₁ c₁ l₂ c₂, loc.span = [l₁, c₁, l₂, c₂] ∧ 0 ≤ l₁ ∧ l₁ < l₂ ∧ 0 ≤ c₁ ∧ 0 ≤ c₂) := by
  intro locs hlocs loc hloc hne
  obtain ⟨locs', h', hall⟩ := C31_locations name src fd h
  rw [hlocs] at h'; cases h'
  rcases hall loc hloc with ⟨a, b, hab, hb, hsp⟩ | ⟨h1, h2, _⟩
  · rw [hsp]
    unfold spanNumbers
    split
    · rename_i hl
      have := colOf_mono src hab hb hl
      exact .inl ⟨_, _, _, rfl, by omega, by omega, by omega⟩
    · have := lineOf_mono src (Nat.le_of_lt hab)
      exact .inr ⟨_, _, _, _, rfl, by omega, by omega, by omega, by omega⟩
  · exact absurd h2 (hne.resolve_right (by simp [h1]))

end

namespace Demo
/-- The hypotheses of C31 and C29 are met: an accepted and a rejected source. -/
example : accepts b!"syntax = \"proto3\"; message A { int32 x = 1; map<string, A> ys = 2; }" = true := by decide +kernel
example : rejects b!"message A { optional int32 x = 0; }" = true := by decide +kernel

/-- The locations of a small file. -/
example : (match parse b!"a.proto" b!"message A {\n}" with
    | some (.ok fd) => fd.sourceCodeInfo.map (·.map fun l => (l.path, l.span))
    | _ => none) =
    some [([], [0, 0, 1, 1]), ([4, 0], [0, 0, 1, 1]), ([4, 0, 1], [0, 8, 9])] := by decide +kernel

/-- The exception in C31 exists: a comment-only source. -/
example : (match parse b!"a.proto" b!"// x" with
    | some (.ok fd) => fd.sourceCodeInfo.map (·.map fun l => (l.path, l.span))
    | _ => none) = some [([], [0, 4, 0])] ∧ sigToks 0 b!"// x" = [] := by decide +kernel

/-- The errors of a rejected source (C28, C29). -/
example : (match parse b!"a.proto" b!"message A { optional int32 x = 0; }" with
    | some (.error e) => e.kinds
    | _ => []) = [.invalidMessageNumber ⟨31, 32⟩] := by decide +kernel
end Demo
end Verif
