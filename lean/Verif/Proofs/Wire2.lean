import Verif.Proofs.Wire
namespace Verif.Wire

theorem encVarint_ne_nil (n : Nat) : encVarint n ≠ [] := by
  rw [encVarint]; split <;> simp

theorem encVarint_length : ∀ (k n : Nat), n < 2 ^ (7 * (k + 1)) → (encVarint n).length ≤ k + 1 := by
  intro k
  induction k with
  | zero => intro n h; rw [encVarint, if_pos (by simpa using h)]; simp
  | succ k ih =>
    intro n h
    rw [encVarint]
    split
    · simp
    · have : n / 128 < 2 ^ (7 * (k + 1)) := by
        rw [Nat.div_lt_iff_lt_mul (by omega)]
        have e : 2 ^ (7 * (k + 1 + 1)) = 2 ^ (7 * (k + 1)) * 128 := by
          rw [show 7 * (k + 1 + 1) = 7 * (k + 1) + 7 by omega, Nat.pow_add]
        omega
      have := ih _ this
      simp; omega

theorem varintLoop_enc : ∀ (fuel n count iters value : Nat) (rest : Bytes), n ≤ fuel → count ≤ 9 →
    n < 2 ^ (64 - 7 * count) → (encVarint n).length ≤ iters →
    varintLoop iters count value (encVarint n ++ rest) = .ok (value + n * 2 ^ (7 * count)) rest := by
  intro fuel
  induction fuel with
  | zero =>
    intro n count iters value rest hf hc hn hl
    have : n = 0 := by omega
    subst this
    have e : encVarint 0 = [0] := by rw [encVarint]; rfl
    rw [e] at hl ⊢
    cases iters with
    | zero => simp at hl
    | succ m => simp [varintLoop, getU8, DRes.bind]
  | succ fuel ih =>
    intro n count iters value rest hf hc hn hl
    cases iters with
    | zero =>
      have := List.length_eq_zero_iff.1 (Nat.le_zero.1 hl)
      exact absurd this (encVarint_ne_nil n)
    | succ m =>
      rw [encVarint] at hl ⊢
      by_cases h : n < 128
      · simp only [h, if_true, List.cons_append, List.nil_append, varintLoop, getU8, DRes.bind]
        have hb : (UInt8.ofNat n).toNat = n := by simp; omega
        rw [hb]
        have h9 : ¬ (count = 9 ∧ n ≥ 2) := by
          rintro ⟨rfl, h2⟩
          have : n < 2 := by simpa using hn
          omega
        rw [if_pos (by omega), if_neg h9, Nat.mod_eq_of_lt h]
      · simp only [h, if_false, List.cons_append, varintLoop, getU8, DRes.bind]
        simp only [h, if_false, List.length_cons] at hl
        have hb : (UInt8.ofNat (128 + n % 128)).toNat = 128 + n % 128 := by simp; omega
        rw [hb]
        have hc8 : count ≤ 8 := by
          rcases Nat.lt_or_ge count 9 with h' | h'
          · omega
          · have : count = 9 := by omega
            subst this
            have : n < 2 := by simpa using hn
            omega
        rw [if_neg (by omega)]
        have hdiv : n / 128 < 2 ^ (64 - 7 * (count + 1)) := by
          rw [Nat.div_lt_iff_lt_mul (by omega)]
          have e : 2 ^ (64 - 7 * count) = 2 ^ (64 - 7 * (count + 1)) * 128 := by
            rw [show 64 - 7 * count = (64 - 7 * (count + 1)) + 7 by omega, Nat.pow_add]
          omega
        rw [ih (n / 128) (count + 1) m _ rest (by omega) (by omega) hdiv (by omega)]
        congr 1
        have e2 : 2 ^ (7 * (count + 1)) = 128 * 2 ^ (7 * count) := by
          rw [show 7 * (count + 1) = 7 + 7 * count by omega, Nat.pow_add]
        rw [e2, show (128 + n % 128) % 128 = n % 128 by omega, ← Nat.mul_assoc]
        have : n * 2 ^ (7 * count) = n % 128 * 2 ^ (7 * count) + n / 128 * 128 * 2 ^ (7 * count) := by
          rw [← Nat.add_mul]; congr 1; omega
        omega

theorem decodeVarint_enc (n : Nat) (rest : Bytes) (h : n < 2 ^ 64) :
    decodeVarint (encVarint n ++ rest) = .ok n rest := by
  unfold decodeVarint
  have hl : (encVarint n).length ≤ 10 := encVarint_length 9 n (Nat.lt_of_lt_of_le h (by decide))
  rw [varintLoop_enc n n 0 _ 0 rest (Nat.le_refl _) (by omega) (by simpa using h) (by simp; omega)]
  simp

theorem decodeKey_enc (tag wire : Nat) (wt : WireType) (rest : Bytes) (h1 : 1 ≤ tag) (h2 : tag ≤ 536870911)
    (hw : wire < 8) (hwt : WireType.tryFrom wire = some wt) :
    decodeKey (encKey tag wire ++ rest) = .ok (tag, wt) rest := by
  unfold decodeKey encKey
  have e1 : (8 * tag + wire) % 8 = wire := by omega
  have e2 : (8 * tag + wire) / 8 = tag := by omega
  rw [decodeVarint_enc _ _ (by omega)]
  simp only [DRes.bind]
  rw [if_neg (by omega), e1, hwt, e2]
  simp only
  rw [if_neg (by omega)]

theorem skipLen_append (b rest : Bytes) : skipLen b.length (b ++ rest) = .ok () rest := by
  unfold skipLen advance
  rw [if_neg (by simp), if_pos (by simp)]
  simp

theorem skipLen_zero (rest : Bytes) : skipLen 0 rest = .ok () rest := by
  simpa using skipLen_append [] rest

/-- The wire type of a field and the bytes after its key. -/
def Field.wire : Field → WireType
  | .varint .. => .varint
  | .fixed64 .. => .sixtyFourBit
  | .len .. => .lengthDelimited
  | .group .. => .startGroup
  | .fixed32 .. => .thirtyTwoBit

def Field.body : Field → Bytes
  | .varint _ v => encVarint v
  | .fixed64 _ b => b
  | .len _ b => encVarint b.length ++ b
  | .group tag fs => Field.enc.encFields fs ++ encKey tag 4
  | .fixed32 _ b => b

def wireNo : WireType → Nat
  | .varint => 0
  | .sixtyFourBit => 1
  | .lengthDelimited => 2
  | .startGroup => 3
  | .endGroup => 4
  | .thirtyTwoBit => 5

theorem Field.enc_eq (f : Field) : f.enc = encKey f.tag (wireNo f.wire) ++ f.body := by
  cases f <;> simp [Field.enc, Field.tag, Field.wire, Field.body, wireNo]

theorem decodeKey_field (f : Field) (rest : Bytes) (h1 : 1 ≤ f.tag) (h2 : f.tag ≤ 536870911) :
    decodeKey (f.enc ++ rest) = .ok (f.tag, f.wire) (f.body ++ rest) := by
  rw [Field.enc_eq, List.append_assoc]
  exact decodeKey_enc _ _ _ _ h1 h2 (by cases f.wire <;> decide) (by cases f.wire <;> rfl)

theorem encKey_pos (t w : Nat) : 0 < (encKey t w).length := by
  unfold encKey
  exact List.length_pos_iff.2 (encVarint_ne_nil _)

theorem skipGroup_enc {skip : WireType → Nat → Bytes → DRes Unit} (tag : Nat) (h1 : 1 ≤ tag) (h2 : tag ≤ 536870911) :
    ∀ (fs : List Field) (n : Nat) (rest : Bytes),
      (∀ f ∈ fs, 1 ≤ f.tag ∧ f.tag ≤ 536870911 ∧ ∀ r, skip f.wire f.tag (f.body ++ r) = .ok () r) →
      (Field.enc.encFields fs ++ encKey tag 4 ++ rest).length < n →
      skipGroup skip tag n (Field.enc.encFields fs ++ encKey tag 4 ++ rest) = .ok () rest := by
  intro fs
  induction fs with
  | nil =>
    intro n rest _ hn
    cases n with
    | zero => omega
    | succ n =>
      simp only [Field.enc.encFields, List.nil_append, skipGroup]
      rw [decodeKey_enc tag 4 .endGroup rest h1 h2 (by omega) rfl]
      simp [DRes.bind, skipLen_zero]
  | cons f fs ih =>
    intro n rest hf hn
    cases n with
    | zero => omega
    | succ n =>
      obtain ⟨a1, a2, a3⟩ := hf f (by simp)
      simp only [Field.enc.encFields, skipGroup, List.append_assoc]
      rw [decodeKey_field f _ a1 a2]
      simp only [DRes.bind]
      rw [if_neg (by cases f <;> simp [Field.wire]), a3]
      simp only
      have hlen : 0 < f.enc.length := by rw [Field.enc_eq]; have := encKey_pos f.tag (wireNo f.wire); simp; omega
      have := ih n rest (fun g hg => hf g (by simp [hg])) (by
        simp only [Field.enc.encFields, List.length_append] at hn ⊢; omega)
      simpa using this

theorem skipField_enc : ∀ (depth : Nat) (f : Field) (rest : Bytes), f.Ok depth →
    skipField depth f.wire f.tag (f.body ++ rest) = .ok () rest := by
  intro depth
  induction depth with
  | zero => intro f rest h; exact h.elim
  | succ d ih =>
    intro f rest h
    obtain ⟨h1, h2, h3⟩ := h
    cases f with
    | varint tag v =>
      simp only [Field.wire, Field.body, skipField]
      rw [decodeVarint_enc _ _ h3]
      exact skipLen_zero rest
    | fixed64 tag b =>
      simp only [Field.wire, Field.body, skipField]
      simp only at h3
      rw [← h3]; exact skipLen_append b rest
    | fixed32 tag b =>
      simp only [Field.wire, Field.body, skipField]
      simp only at h3
      rw [← h3]; exact skipLen_append b rest
    | len tag b =>
      simp only [Field.wire, Field.body, skipField, List.append_assoc]
      rw [decodeVarint_enc _ _ h3]
      exact skipLen_append b rest
    | group tag fs =>
      simp only [Field.wire, Field.body, skipField, Field.tag] at *
      refine skipGroup_enc tag h1 h2 fs _ rest ?_ (by simp)
      intro g hg
      have hg' := h3 g hg
      refine ⟨?_, ?_, fun r => ih g r hg'⟩
      · cases d with
        | zero => exact hg'.elim
        | succ d => exact hg'.1
      · cases d with
        | zero => exact hg'.elim
        | succ d => exact hg'.2.1

theorem Entry.enc_pos (e : Entry) : 0 < e.enc.length := by
  cases e with
  | file b => have := encKey_pos 1 2; simp [Entry.enc]; omega
  | unknown f => simp only [Entry.enc, Field.enc_eq]; have := encKey_pos f.tag (wireNo f.wire); simp; omega

theorem decodeLoop_enc (dec : Bytes → Option FileDescriptorProto) : ∀ (es : List Entry) (n : Nat)
    (set : List (FileDescriptorProto × Option Bytes)) (fds : List FileDescriptorProto),
    (∀ e ∈ es, e.Ok) → (es.flatMap Entry.enc).length ≤ n → (Entry.files es).mapM dec = some fds →
    decodeLoop dec n (es.flatMap Entry.enc) set =
      .ok (set ++ fds.zip ((Entry.files es).map some)) [] := by
  intro es
  induction es with
  | nil =>
    intro n set fds _ _ h
    simp [Entry.files] at h; subst h
    cases n <;> simp [decodeLoop]
  | cons e es ih =>
    intro n set fds hok hn h
    have hpos := e.enc_pos
    simp only [List.flatMap_cons, List.length_append] at hn ⊢
    cases n with
    | zero => omega
    | succ n =>
      have hne : (e.enc ++ es.flatMap Entry.enc).isEmpty = false := by
        cases hh : e.enc with
        | nil => rw [hh] at hpos; simp at hpos
        | cons => rfl
      simp only [decodeLoop, hne]
      have hok' : ∀ e ∈ es, e.Ok := fun x hx => hok x (by simp [hx])
      cases e with
      | file b =>
        have hb : b.length < 2 ^ 64 := hok (.file b) (by simp)
        simp only [Entry.files, List.mapM_cons, Option.pure_def, Option.bind_eq_bind] at h
        cases hd : dec b with
        | none => rw [hd] at h; simp at h
        | some d =>
          rw [hd] at h
          simp only [Option.bind_some] at h
          cases hr : (Entry.files es).mapM dec with
          | none => rw [hr] at h; simp at h
          | some r =>
            rw [hr] at h
            simp only [Option.bind_some, Option.some.injEq] at h
            subst h
            simp only [Entry.enc, List.append_assoc]
            rw [decodeKey_enc 1 2 .lengthDelimited _ (by omega) (by omega) (by omega) rfl]
            simp only [DRes.bind, if_true]
            rw [decodeVarint_enc _ _ hb]
            simp only
            rw [if_neg (by simp)]
            have hone : decodeOne dec b.length (b ++ es.flatMap Entry.enc) = .ok (d, some b) (es.flatMap Entry.enc) := by
              unfold decodeOne copyToBytes
              rw [if_pos (by omega), Nat.min_eq_left (by simp)]
              simp [DRes.bind, hd]
            rw [hone]
            simp only
            rw [ih n _ r hok' (by simp only [Entry.enc, List.length_append] at hn hpos; omega) hr]
            simp [Entry.files]
      | unknown f =>
        obtain ⟨ht, hf⟩ := hok (.unknown f) (by simp)
        have hf' : 1 ≤ f.tag ∧ f.tag ≤ 536870911 := ⟨hf.1, hf.2.1⟩
        simp only [Entry.enc]
        rw [decodeKey_field f _ hf'.1 hf'.2]
        simp only [DRes.bind, Bool.false_eq_true, if_false]
        rw [if_neg ht, show recursionLimit = 100 from rfl, skipField_enc 100 f _ hf]
        simp only
        exact ih n set fds hok' (by simp only [Entry.enc] at hn hpos; omega) h

end Verif.Wire
