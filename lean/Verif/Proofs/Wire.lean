import Verif.Model.Wire
import Verif.Spec.Wire
namespace Verif.Wire

/-! ### Consumption and safety -/

/-- A step never panics and, if it succeeds, leaves a suffix, at least `k` bytes shorter. -/
def Safe {α : Type} (k : Nat) (buf : Bytes) (r : DRes α) : Prop :=
  r ≠ .panic ∧ ∀ a rest, r = .ok a rest → ∃ pre, buf = pre ++ rest ∧ k ≤ pre.length

theorem Safe.err {α : Type} {k : Nat} {buf : Bytes} : Safe k buf (.err : DRes α) :=
  ⟨nofun, nofun⟩

theorem Safe.ok {α : Type} {a : α} {buf : Bytes} : Safe 0 buf (.ok a buf) := by
  refine ⟨nofun, ?_⟩
  intro x r h; cases h; exact ⟨[], by simp, by simp⟩

theorem Safe.bind {α β : Type} {k j : Nat} {buf : Bytes} {r : DRes α} {f : α → Bytes → DRes β}
    (h : Safe k buf r) (hf : ∀ a rest, r = .ok a rest → Safe j rest (f a rest)) : Safe (k + j) buf (r.bind f) := by
  cases r with
  | err => exact Safe.err
  | panic => exact absurd rfl h.1
  | ok a rest =>
    obtain ⟨h1, h2⟩ := hf a rest rfl
    obtain ⟨pre, hp, hk⟩ := h.2 a rest rfl
    refine ⟨h1, ?_⟩
    intro b rest' hb
    obtain ⟨pre', hp', hj⟩ := h2 b rest' hb
    exact ⟨pre ++ pre', by rw [hp, hp']; simp, by simp; omega⟩

theorem Safe.mono {α : Type} {k j : Nat} {buf : Bytes} {r : DRes α} (h : Safe k buf r) (hj : j ≤ k) : Safe j buf r := by
  refine ⟨h.1, ?_⟩
  intro a rest hr
  obtain ⟨pre, hp, hk⟩ := h.2 a rest hr
  exact ⟨pre, hp, by omega⟩

theorem varintLoop_safe : ∀ (iters count value : Nat) (buf : Bytes), iters ≤ buf.length →
    Safe 1 buf (varintLoop iters count value buf) := by
  intro iters
  induction iters with
  | zero => intros; exact Safe.err
  | succ n ih =>
    intro count value buf hle
    cases buf with
    | nil => simp at hle
    | cons b rest =>
      have hcons : Safe 1 (b :: rest) (getU8 (b :: rest)) := by
        refine ⟨by simp [getU8], ?_⟩
        intro a r h; simp [getU8] at h; exact ⟨[b], by simp [h.2], by simp⟩
      have := Safe.bind (k := 1) (j := 0) (f := fun b rest =>
        if b.toNat ≤ 127 then
          if count = 9 ∧ b.toNat ≥ 2 then DRes.err else .ok (value + (b.toNat % 128) * 2 ^ (7 * count)) rest
        else varintLoop n (count + 1) (value + (b.toNat % 128) * 2 ^ (7 * count)) rest) hcons ?_
      · exact this
      · intro a r h
        simp [getU8] at h
        obtain ⟨rfl, rfl⟩ := h
        split
        · split
          · exact Safe.err
          · exact Safe.ok
        · exact (ih _ _ _ (by simp at hle; omega)).mono (by omega)

theorem decodeVarint_safe (buf : Bytes) : Safe 1 buf (decodeVarint buf) :=
  varintLoop_safe _ _ _ _ (by omega)

theorem decodeKey_safe (buf : Bytes) : Safe 1 buf (decodeKey buf) := by
  refine Safe.bind (k := 1) (j := 0) (decodeVarint_safe buf) ?_
  intro key rest _
  split
  · exact Safe.err
  · split
    · exact Safe.err
    · split
      · exact Safe.err
      · exact Safe.ok

theorem skipLen_safe (n : Nat) (buf : Bytes) : Safe 0 buf (skipLen n buf) := by
  unfold skipLen advance
  split
  · exact Safe.err
  · rw [if_pos (by omega)]
    refine ⟨nofun, ?_⟩
    intro a r h; cases h
    exact ⟨buf.take n, by simp, by simp⟩

theorem skipGroup_safe {skip : WireType → Nat → Bytes → DRes Unit} (hs : ∀ wt tag buf, Safe 0 buf (skip wt tag buf))
    (tag : Nat) : ∀ (iters : Nat) (buf : Bytes), Safe 0 buf (skipGroup skip tag iters buf) := by
  intro iters
  induction iters with
  | zero => intro buf; exact Safe.err
  | succ n ih =>
    intro buf
    refine (Safe.bind (k := 1) (j := 0) (decodeKey_safe buf) ?_).mono (by omega)
    rintro ⟨t, wt⟩ rest _
    simp only
    split
    · split
      · exact Safe.err
      · exact skipLen_safe _ _
    · refine (Safe.bind (k := 0) (j := 0) (hs _ _ _) ?_).mono (by omega)
      intro _ r _; exact ih r

theorem skipField_safe : ∀ (depth : Nat) (wt : WireType) (tag : Nat) (buf : Bytes),
    Safe 0 buf (skipField depth wt tag buf) := by
  intro depth
  induction depth with
  | zero => intros; exact Safe.err
  | succ d ih =>
    intro wt tag buf
    unfold skipField
    split
    · exact (Safe.bind (k := 1) (j := 0) (decodeVarint_safe _) (fun _ _ _ => skipLen_safe _ _)).mono (by omega)
    · exact skipLen_safe _ _
    · exact skipLen_safe _ _
    · exact (Safe.bind (k := 1) (j := 0) (decodeVarint_safe _) (fun _ _ _ => skipLen_safe _ _)).mono (by omega)
    · exact skipGroup_safe ih _ _ _
    · exact Safe.err

theorem decodeOne_safe (dec : Bytes → Option FileDescriptorProto) (len : Nat) (buf : Bytes) :
    Safe 0 buf (decodeOne dec len buf) := by
  unfold decodeOne copyToBytes
  rw [if_pos (by omega)]
  simp only [DRes.bind]
  split
  · exact Safe.err
  · refine ⟨nofun, ?_⟩
    intro a r h; cases h
    exact ⟨buf.take (min len buf.length), by simp, by simp⟩

/-! ### The bounds on the iterations are never reached -/

theorem skipGroup_iters {skip : WireType → Nat → Bytes → DRes Unit} (hs : ∀ wt tag buf, Safe 0 buf (skip wt tag buf))
    (tag : Nat) : ∀ (n m : Nat) (buf : Bytes), buf.length < n → buf.length < m →
      skipGroup skip tag n buf = skipGroup skip tag m buf := by
  intro n
  induction n with
  | zero => intro m buf h; omega
  | succ n ih =>
    intro m buf hn hm
    cases m with
    | zero => omega
    | succ m =>
      simp only [skipGroup]
      have hk := decodeKey_safe buf
      cases hdk : decodeKey buf with
      | err => rfl
      | panic => rfl
      | ok a rest =>
        obtain ⟨pre, hp, hl⟩ := hk.2 a rest hdk
        have hlen : rest.length < buf.length := by rw [hp]; simp; omega
        obtain ⟨t, wt⟩ := a
        simp only [DRes.bind]
        split
        · rfl
        · have hs' := hs wt t rest
          cases hsk : skip wt t rest with
          | err => rfl
          | panic => rfl
          | ok _ r2 =>
            obtain ⟨pre2, hp2, _⟩ := hs'.2 _ r2 hsk
            have : r2.length ≤ rest.length := by rw [hp2]; simp
            simp only
            exact ih m r2 (by omega) (by omega)

theorem decodeLoop_iters (dec : Bytes → Option FileDescriptorProto) : ∀ (n m : Nat) (buf : Bytes)
    (set : List (FileDescriptorProto × Option Bytes)), buf.length ≤ n → buf.length ≤ m →
      decodeLoop dec n buf set = decodeLoop dec m buf set := by
  intro n
  induction n with
  | zero =>
    intro m buf set h _
    have : buf = [] := List.length_eq_zero_iff.1 (by omega)
    subst this
    cases m <;> simp [decodeLoop]
  | succ n ih =>
    intro m buf set hn hm
    cases m with
    | zero =>
      have : buf = [] := List.length_eq_zero_iff.1 (by omega)
      subst this; simp [decodeLoop]
    | succ m =>
      simp only [decodeLoop]
      split
      · rfl
      have hk := decodeKey_safe buf
      cases hdk : decodeKey buf with
      | err => rfl
      | panic => rfl
      | ok a rest =>
        obtain ⟨pre, hp, hl⟩ := hk.2 a rest hdk
        have hlen : rest.length < buf.length := by rw [hp]; simp; omega
        obtain ⟨t, wt⟩ := a
        simp only [DRes.bind]
        split
        · split
          · have hv := decodeVarint_safe rest
            cases hdv : decodeVarint rest with
            | err => rfl
            | panic => rfl
            | ok len r2 =>
              obtain ⟨pre2, hp2, _⟩ := hv.2 _ r2 hdv
              have h2 : r2.length ≤ rest.length := by rw [hp2]; simp
              simp only
              split
              · rfl
              · have ho := decodeOne_safe dec len r2
                cases hdo : decodeOne dec len r2 with
                | err => rfl
                | panic => rfl
                | ok fd r3 =>
                  obtain ⟨pre3, hp3, _⟩ := ho.2 _ r3 hdo
                  have h3 : r3.length ≤ r2.length := by rw [hp3]; simp
                  simp only
                  exact ih m r3 _ (by omega) (by omega)
          · rfl
        · have hs := skipField_safe recursionLimit wt t rest
          cases hsk : skipField recursionLimit wt t rest with
          | err => rfl
          | panic => rfl
          | ok _ r2 =>
            obtain ⟨pre2, hp2, _⟩ := hs.2 _ r2 hsk
            have : r2.length ≤ rest.length := by rw [hp2]; simp
            simp only
            exact ih m r2 _ (by omega) (by omega)

theorem decodeLoop_safe (dec : Bytes → Option FileDescriptorProto) : ∀ (n : Nat) (buf : Bytes)
    (set : List (FileDescriptorProto × Option Bytes)),
      decodeLoop dec n buf set ≠ .panic ∧
      ∀ out rest, decodeLoop dec n buf set = .ok out rest → rest = [] ∧ ∃ es : List (FileDescriptorProto × Bytes),
        out = set ++ es.map (fun x => (x.1, some x.2)) ∧ Chunks (es.map (·.2)) buf ∧
        ∀ x ∈ es, dec x.2 = some x.1 := by
  have weaken : ∀ (es : List Bytes) (pre buf : Bytes), Chunks es buf → Chunks es (pre ++ buf) := by
    intro es pre buf h
    cases es with
    | nil => trivial
    | cons e es =>
      obtain ⟨p, q, h1, h2⟩ := h
      exact ⟨pre ++ p, q, by rw [h1]; simp, h2⟩
  intro n
  induction n with
  | zero =>
    intro buf set
    simp only [decodeLoop]
    split
    · refine ⟨nofun, ?_⟩
      intro out rest h; cases h
      exact ⟨rfl, [], by simp, trivial, by simp⟩
    · exact ⟨nofun, nofun⟩
  | succ n ih =>
    intro buf set
    simp only [decodeLoop]
    split
    · refine ⟨nofun, ?_⟩
      intro out rest h; cases h
      exact ⟨rfl, [], by simp, trivial, by simp⟩
    have hk := decodeKey_safe buf
    have err : (DRes.err : DRes (List (FileDescriptorProto × Option Bytes))) ≠ .panic ∧
        ∀ out rest, (DRes.err : DRes (List (FileDescriptorProto × Option Bytes))) = .ok out rest → rest = [] ∧
          ∃ es : List (FileDescriptorProto × Bytes),
          out = set ++ es.map (fun x => (x.1, some x.2)) ∧ Chunks (es.map (·.2)) buf ∧
          ∀ x ∈ es, dec x.2 = some x.1 := ⟨nofun, nofun⟩
    cases hdk : decodeKey buf with
    | err => exact err
    | panic => exact absurd hdk hk.1
    | ok a rest =>
      obtain ⟨pre, hp, hl⟩ := hk.2 a rest hdk
      obtain ⟨t, wt⟩ := a
      simp only [DRes.bind]
      split
      · split
        · have hv := decodeVarint_safe rest
          cases hdv : decodeVarint rest with
          | err => exact err
          | panic => exact absurd hdv hv.1
          | ok len r2 =>
            obtain ⟨pre2, hp2, _⟩ := hv.2 _ r2 hdv
            simp only
            split
            · exact err
            · rename_i hlen
              have ho := decodeOne_safe dec len r2
              cases hdo : decodeOne dec len r2 with
              | err => exact err
              | panic => exact absurd hdo ho.1
              | ok fd r3 =>
                simp only
                have hone : ∃ d, dec (r2.take len) = some d ∧ fd = (d, some (r2.take len)) ∧ r3 = r2.drop len := by
                  unfold decodeOne copyToBytes at hdo
                  rw [if_pos (by omega), Nat.min_eq_left (by omega)] at hdo
                  simp only [DRes.bind] at hdo
                  split at hdo
                  · cases hdo
                  · rename_i d hd; cases hdo; exact ⟨d, hd, rfl, rfl⟩
                obtain ⟨d, hd, rfl, rfl⟩ := hone
                obtain ⟨i1, i2⟩ := ih (r2.drop len) (set ++ [(d, some (r2.take len))])
                refine ⟨i1, ?_⟩
                intro out rest' hout
                obtain ⟨j1, es, j2, j3, j4⟩ := i2 out rest' hout
                refine ⟨j1, (d, r2.take len) :: es, by rw [j2]; simp, ?_, ?_⟩
                · refine ⟨pre ++ pre2, r2.drop len, ?_, j3⟩
                  rw [hp, hp2]; simp
                · intro x hx
                  rcases List.mem_cons.1 hx with rfl | hx
                  · exact hd
                  · exact j4 x hx
        · exact err
      · have hs := skipField_safe recursionLimit wt t rest
        cases hsk : skipField recursionLimit wt t rest with
        | err => exact err
        | panic => exact absurd hsk hs.1
        | ok _ r2 =>
          obtain ⟨pre2, hp2, _⟩ := hs.2 _ r2 hsk
          simp only
          obtain ⟨i1, i2⟩ := ih r2 set
          refine ⟨i1, ?_⟩
          intro out rest' hout
          obtain ⟨j1, es, j2, j3, j4⟩ := i2 out rest' hout
          refine ⟨j1, es, j2, ?_, j4⟩
          rw [hp, hp2]
          exact weaken _ _ _ (weaken _ _ _ j3)

end Verif.Wire
