import Verif.Proofs.Lines
/-!
C30 — line/column resolution is exact.
-/
namespace Verif
open Verif.Spec

/-- C30 (first half). The line resolver of a source of at most `i32::MAX` bytes never panics, and for every
offset in the source (its end included) it reports as line the number of newline bytes before the offset and
as column the byte distance to the start of that line. -/
theorem C30_line_column (src : Bytes) (hlen : src.length ≤ 2147483647) :
    ∃ lines, Lines.new src = some lines ∧
      ∀ off, off ≤ src.length →
        Lines.resolve lines off = some ((lineOf src off : Int), (colOf src off : Int)) :=
  ⟨_, Lines.new_some src hlen, fun off h => Lines.resolve_eq src _ off hlen h (Lines.new_some src hlen)⟩

/-- C30 (second half). A span inside the source is encoded as `[line, column, end column]` if it starts and
ends on the same line, and as `[line, column, end line, end column]` otherwise. -/
theorem C30_span_encoding (src : Bytes) (hlen : src.length ≤ 2147483647) :
    ∃ lines, Lines.new src = some lines ∧
      ∀ a b : Nat, a ≤ src.length → b ≤ src.length →
        Lines.resolveSpan lines ⟨a, b⟩ = some (
          if lineOf src a = lineOf src b then
            [(lineOf src a : Int), (colOf src a : Int), (colOf src b : Int)]
          else
            [(lineOf src a : Int), (colOf src a : Int), (lineOf src b : Int), (colOf src b : Int)]) := by
  refine ⟨_, Lines.new_some src hlen, fun a b ha hb => ?_⟩
  have h1 := Lines.resolve_eq src _ a hlen ha (Lines.new_some src hlen)
  have h2 := Lines.resolve_eq src _ b hlen hb (Lines.new_some src hlen)
  simp only [Lines.resolveSpan, h1, h2, Int.ofNat_inj]
  split <;> rfl

/-- Distinct offsets have distinct (line, column) pairs: positions reported to the user are unambiguous. -/
theorem C30_injective (src : Bytes) (a b : Nat) (ha : a ≤ src.length) (hb : b ≤ src.length)
    (hl : lineOf src a = lineOf src b) (hc : colOf src a = colOf src b) : a = b := by
  -- offset = start of line + column, and the start of line is determined by the line
  have key : ∀ (s : Bytes) (x y : Nat), x ≤ y → y ≤ s.length → lineOf s x = lineOf s y →
      colOf s y = colOf s x + (y - x) := by
    intro s x y hxy hy hline
    obtain ⟨d, rfl⟩ := Nat.exists_eq_add_of_le hxy
    have ht : s.take (x + d) = s.take x ++ (s.drop x).take d := by rw [List.take_add]
    have hnil : ((s.drop x).take d).filter (· == 10) = [] := by
      have : lineOf s (x + d) = lineOf s x + (((s.drop x).take d).filter (· == 10)).length := by
        simp only [lineOf, ht, List.filter_append, List.length_append]
      exact List.length_eq_zero_iff.1 (by omega)
    have hall : ∀ c ∈ ((s.drop x).take d).reverse, (c != 10) = true := by
      intro c hc
      have := List.filter_eq_nil_iff.1 hnil c (by simpa using hc)
      simpa using this
    simp only [colOf, ht, List.reverse_append]
    rw [List.takeWhile_append_of_pos hall]
    simp; omega
  rcases Nat.le_total a b with h | h
  · have := key src a b h hb hl; omega
  · have := key src b a h ha hl.symm; omega

/-- Non-vacuity: the example of lines.rs:59-72. -/
example : Lines.new b!"f\n\noo\r\nbar" = some [2, 3, 7] ∧
    Lines.resolve [2, 3, 7] 6 = some (2, 3) ∧ lineOf b!"f\n\noo\r\nbar" 6 = 2 ∧
    Lines.resolveSpan [2, 3, 7] ⟨3, 5⟩ = some [2, 0, 2] ∧
    Lines.resolveSpan [2, 3, 7] ⟨3, 8⟩ = some [2, 0, 3, 1] := by
  decide

end Verif
