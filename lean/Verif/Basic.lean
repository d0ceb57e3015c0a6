/-!
Bytes and ASCII classes.  Rust `&str`, `String`, `&[u8]`, `Vec<u8>` and `OsStr` (Unix) are all
modelled by the list of their bytes.
-/
namespace Verif

abbrev Bytes := List UInt8

/-- `b!"abc"` is the list of the UTF-8 bytes of a string literal (computed at elaboration time). -/
syntax:max "b!" str : term

open Lean in
macro_rules
  | `(b! $s:str) => do
    let bs := s.getString.toUTF8.toList
    let es : Array (TSyntax `term) :=
      (bs.map fun b => (⟨Syntax.mkNumLit (toString b.toNat)⟩ : TSyntax `term)).toArray
    `(([$es,*] : List UInt8))

/-- Rust `u8::is_ascii_digit` (std). -/
def isDigit (b : UInt8) : Bool := 48 ≤ b && b ≤ 57
/-- Regex class `[0-7]`. -/
def isOctDigit (b : UInt8) : Bool := 48 ≤ b && b ≤ 55
/-- Regex class `[0-9A-Fa-f]`. -/
def isHexDigit (b : UInt8) : Bool := (48 ≤ b && b ≤ 57) || (65 ≤ b && b ≤ 70) || (97 ≤ b && b ≤ 102)
/-- Rust `u8::is_ascii_uppercase` (std). -/
def isUpper (b : UInt8) : Bool := 65 ≤ b && b ≤ 90
/-- Rust `u8::is_ascii_lowercase` (std). -/
def isLower (b : UInt8) : Bool := 97 ≤ b && b ≤ 122
/-- Rust `u8::is_ascii_alphabetic` (std). -/
def isAlpha (b : UInt8) : Bool := isUpper b || isLower b
/-- Rust `u8::is_ascii_alphanumeric` (std). -/
def isAlnum (b : UInt8) : Bool := isAlpha b || isDigit b

/-- Rust `char::to_ascii_uppercase` / `u8::to_ascii_uppercase` (std). -/
def toUpper (b : UInt8) : UInt8 := if isLower b then b - 32 else b
/-- Rust `u8::to_ascii_lowercase` (std). -/
def toLower (b : UInt8) : UInt8 := if isUpper b then b + 32 else b

/-- Is `b` a UTF-8 continuation byte? -/
def isCont (b : UInt8) : Bool := 0x80 ≤ b && b ≤ 0xBF

/-- Validity of a byte string as UTF-8, i.e. `std::str::from_utf8(..).is_ok()` (std; the table of
well-formed byte sequences, Unicode 3.9 D92, table 3-7). -/
def utf8Valid : Bytes → Bool
  | [] => true
  | b0 :: r0 =>
    if b0 < 0x80 then utf8Valid r0
    else match r0 with
    | [] => false
    | b1 :: r1 =>
      if 0xC2 ≤ b0 && b0 ≤ 0xDF then isCont b1 && utf8Valid r1
      else match r1 with
      | [] => false
      | b2 :: r2 =>
        if b0 == 0xE0 then (0xA0 ≤ b1 && b1 ≤ 0xBF) && isCont b2 && utf8Valid r2
        else if b0 == 0xED then (0x80 ≤ b1 && b1 ≤ 0x9F) && isCont b2 && utf8Valid r2
        else if 0xE1 ≤ b0 && b0 ≤ 0xEF then isCont b1 && isCont b2 && utf8Valid r2
        else match r2 with
        | [] => false
        | b3 :: r3 =>
          if b0 == 0xF0 then (0x90 ≤ b1 && b1 ≤ 0xBF) && isCont b2 && isCont b3 && utf8Valid r3
          else if 0xF1 ≤ b0 && b0 ≤ 0xF3 then isCont b1 && isCont b2 && isCont b3 && utf8Valid r3
          else if b0 == 0xF4 then (0x80 ≤ b1 && b1 ≤ 0x8F) && isCont b2 && isCont b3 && utf8Valid r3
          else false

/-- UTF-8 encoding of a scalar value, Rust `char::encode_utf8` (std). -/
def utf8Encode (n : Nat) : Bytes :=
  if n < 0x80 then [UInt8.ofNat n]
  else if n < 0x800 then [UInt8.ofNat (0xC0 + n / 64), UInt8.ofNat (0x80 + n % 64)]
  else if n < 0x10000 then
    [UInt8.ofNat (0xE0 + n / 4096), UInt8.ofNat (0x80 + n / 64 % 64), UInt8.ofNat (0x80 + n % 64)]
  else
    [UInt8.ofNat (0xF0 + n / 262144), UInt8.ofNat (0x80 + n / 4096 % 64),
     UInt8.ofNat (0x80 + n / 64 % 64), UInt8.ofNat (0x80 + n % 64)]

/-- Is `n` a Unicode scalar value, i.e. `char::from_u32(n).is_some()` (std)? -/
def isScalar (n : Nat) : Bool := n < 0xD800 || (0xE000 ≤ n && n < 0x110000)

/-- Splitting at every occurrence of a byte, Rust `str::split(c)` for an ASCII `c` (std). The result
is never empty. -/
def splitAt (sep : UInt8) : Bytes → List Bytes
  | [] => [[]]
  | b :: bs =>
    if b = sep then [] :: splitAt sep bs
    else match splitAt sep bs with
      | [] => [[b]]
      | p :: ps => (b :: p) :: ps

/-- Joining with a separator byte (inverse of `splitAt`). -/
def joinWith (sep : UInt8) : List Bytes → Bytes
  | [] => []
  | [p] => p
  | p :: q :: ps => p ++ sep :: joinWith sep (q :: ps)

/-- Reduction of a statement about all bytes to the 256 byte values. -/
theorem forall_u8 {P : UInt8 → Prop} (h : ∀ n : Fin 256, P (UInt8.ofNat n.val)) (b : UInt8) : P b := by
  have := h ⟨b.toNat, b.toNat_lt⟩
  simpa using this

theorem splitAt_ne_nil (sep : UInt8) (s : Bytes) : splitAt sep s ≠ [] := by
  cases s with
  | nil => simp [splitAt]
  | cons b bs =>
    rw [splitAt]
    split
    · simp
    · split <;> simp

theorem splitAt_no_sep (sep : UInt8) (s : Bytes) : ∀ p ∈ splitAt sep s, sep ∉ p := by
  induction s with
  | nil => simp [splitAt]
  | cons b bs ih =>
    intro p hp
    rw [splitAt] at hp
    split at hp
    · rcases List.mem_cons.1 hp with rfl | h
      · simp
      · exact ih p h
    · rename_i hb
      split at hp
      · simp at hp; subst hp; simpa using fun h => hb h.symm
      · rename_i q qs heq
        rcases List.mem_cons.1 hp with rfl | h
        · have := ih q (by simp [heq])
          simp [this]; exact fun h => hb h.symm
        · exact ih p (by simp [heq, h])

theorem splitAt_append_sep (sep : UInt8) (p s : Bytes) (hp : sep ∉ p) :
    splitAt sep (p ++ sep :: s) = p :: splitAt sep s := by
  induction p with
  | nil => simp [splitAt]
  | cons b bs ih =>
    simp only [List.mem_cons, not_or] at hp
    rw [List.cons_append, splitAt, if_neg (fun h => hp.1 h.symm), ih hp.2]

theorem splitAt_of_not_mem (sep : UInt8) (p : Bytes) (hp : sep ∉ p) : splitAt sep p = [p] := by
  induction p with
  | nil => simp [splitAt]
  | cons b bs ih =>
    simp only [List.mem_cons, not_or] at hp
    rw [splitAt, if_neg (fun h => hp.1 h.symm), ih hp.2]

theorem splitAt_joinWith (sep : UInt8) (ps : List Bytes) (hne : ps ≠ []) (h : ∀ p ∈ ps, sep ∉ p) :
    splitAt sep (joinWith sep ps) = ps := by
  induction ps with
  | nil => exact absurd rfl hne
  | cons p ps ih =>
    cases ps with
    | nil => simpa [joinWith] using splitAt_of_not_mem sep p (h p (by simp))
    | cons q qs =>
      rw [joinWith, splitAt_append_sep _ _ _ (h p (by simp)), ih (by simp)]
      intro x hx; exact h x (List.mem_cons_of_mem _ hx)

theorem joinWith_splitAt (sep : UInt8) (s : Bytes) : joinWith sep (splitAt sep s) = s := by
  induction s with
  | nil => simp [splitAt, joinWith]
  | cons b bs ih =>
    rw [splitAt]
    split
    · rename_i hb
      subst hb
      cases h : splitAt b bs with
      | nil => exact absurd h (splitAt_ne_nil b bs)
      | cons p ps => rw [joinWith, ← h, ih]; simp
    · cases h : splitAt sep bs with
      | nil => exact absurd h (splitAt_ne_nil sep bs)
      | cons p ps =>
        rw [h] at ih
        cases ps with
        | nil => simp only [joinWith] at ih ⊢; rw [ih]
        | cons q qs => simp only [joinWith, List.cons_append] at ih ⊢; rw [ih]

end Verif
