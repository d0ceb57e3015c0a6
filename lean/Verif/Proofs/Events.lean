import Verif.Proofs.Runs
/-! The tokens blamed in a whole file. -/
namespace Verif.Exec
open Parse Prog Blame Spec

section
variable [FloatFmt]

/-- Statements to the end of the file, without recovery. -/
def fileProg (F : Nat) : Nat → Prog Unit
  | 0 => .outOfFuel
  | n + 1 => parseStatement F >>= fun o => match o with
    | some _ => fileProg F n
    | none => .ret ()

/-- Where the parser goes on after an error. -/
def skip : Toks → Toks
  | [] => []
  | some t :: w => if t ∈ P.syncTokens then some t :: w else skip w
  | none :: w => skip w

/-- What was reported when nothing more specific than "stop" is known: an unexpected end of the file, if anything. -/
def ends (r : Option Expect) (w : Toks) : List (Expect × Option Token × Toks) :=
  match r with
  | some ex => [(ex, none, w)]
  | none => []

/-- The messages about unexpected tokens (`none` for the end of the file), with the tokens ahead when they were reported. -/
def events (F : Nat) : Nat → Nat → Toks → List (Expect × Option Token × Toks)
  | _, 0, _ => []
  | k, m + 1, w => match exec (fileProg F k) w with
    | .done _ _ => []
    | .blamed ex t w' => (ex, some t, w') :: events F F m (skip w')
    | .stop r w' => ends r w' ++ events F F m (skip w')
    | .oof => []

/-- The same for a file with its header, after which there is no recovery. -/
def allEvents (F : Nat) (w : Toks) : List (Expect × Option Token × Toks) :=
  match exec (parseHeader F 0) w with
  | .done _ w' => events F F F w'
  | .blamed ex t w' => [(ex, some t, w')]
  | .stop r w' => ends r w'
  | .oof => []

theorem mem_ends {r : Option Expect} {w ex o w'} (h : (ex, o, w') ∈ ends r w) : r = some ex ∧ o = none ∧ w' = w := by
  cases r with
  | none => cases h
  | some ex' => cases List.mem_singleton.1 h; exact ⟨rfl, rfl, rfl⟩

theorem good_ret {α : Type} {a : α} : Good (.ret a : Prog α) := ⟨⟨nofun, nofun⟩, trivial⟩

theorem good_fileProg {F} : ∀ n, Good (fileProg F n)
  | 0 => ⟨⟨nofun, nofun⟩, trivial⟩
  | n + 1 => by
    refine good_parseStatement (fun o => ?_) nofun
    cases o with
    | some _ => exact good_fileProg n
    | none => exact good_ret

theorem skip_suffix : ∀ w, skip w <:+ w
  | [] => List.suffix_rfl
  | some t :: w => by
    unfold skip
    split
    · exact List.suffix_rfl
    · exact (skip_suffix w).trans (List.suffix_cons ..)
  | none :: w => (skip_suffix w).trans (List.suffix_cons ..)

theorem skip_append : ∀ u, (∃ u', u' ≠ [] ∧ ∀ v, skip (u ++ v) = u' ++ v) ∨ ∀ v, skip (u ++ v) = skip v
  | [] => .inr fun _ => rfl
  | some t :: u => by
    by_cases h : t ∈ P.syncTokens
    · exact .inl ⟨some t :: u, by simp, fun v => if_pos h⟩
    · have e : ∀ v, skip (some t :: u ++ v) = skip (u ++ v) := fun v => if_neg h
      simp only [e]
      exact skip_append u
  | none :: u => skip_append u

theorem events_suffix {F} : ∀ m k w ex t w', (ex, t, w') ∈ events F k m w → w' <:+ w
  | 0, _, _, _, _, _, h => nomatch h
  | m + 1, k, w, ex, t, w', h => by
    unfold events at h
    have hr := exec_rest (fileProg F k) w
    split at h
    · cases h
    · rename_i he
      rw [he] at hr
      rcases List.mem_cons.1 h with h | h
      · cases h; exact hr _ rfl
      · exact (events_suffix m _ _ _ _ _ h).trans ((skip_suffix _).trans (hr _ rfl))
    · rename_i he
      rw [he] at hr
      rcases List.mem_append.1 h with h | h
      · rw [(mem_ends h).2.2]; exact hr _ rfl
      · exact (events_suffix m _ _ _ _ _ h).trans ((skip_suffix _).trans (hr _ rfl))
    · cases h

theorem not_suffix {α : Type} {x : α} {z w : List α} (h : w <:+ z) : ¬ (x :: z) <:+ w := by
  intro h'
  have := (h'.trans h).length_le
  rw [List.length_cons] at this
  omega

/-- Everything is reported later if the next token is taken. -/
theorem events_later {F k m w z x} (h : ∀ w', (exec (fileProg F k) w).rest? = some w' → w' <:+ z) {ex t} :
    (ex, t, some x :: z) ∉ events F k m w := by
  cases m with
  | zero => nofun
  | succ m =>
    unfold events
    intro he
    split at he
    · cases he
    · rename_i hx
      rw [hx] at h
      rcases List.mem_cons.1 he with he | he
      · cases he; exact not_suffix List.suffix_rfl (h _ rfl)
      · exact not_suffix ((skip_suffix _).trans (h _ rfl)) (events_suffix _ _ _ _ _ _ he)
    · rename_i hx
      rw [hx] at h
      rcases List.mem_append.1 he with he | he
      · rw [← (mem_ends he).2.2] at h; exact not_suffix List.suffix_rfl (h _ rfl)
      · exact not_suffix ((skip_suffix _).trans (h _ rfl)) (events_suffix _ _ _ _ _ _ he)
    · cases he

theorem takes_sync {x F} (h : x ∈ P.syncTokens) : Takes x (parseStatement F) := by
  simp only [P.syncTokens, List.mem_cons, List.not_mem_nil, or_false] at h
  rcases h with rfl | rfl | rfl | rfl | rfl | rfl | rfl <;> exact .inl rfl

theorem takes_rest {α : Type} {x : Token} {q : Prog α} {z} (h : Takes x q) : ∀ w', (exec q (some x :: z)).rest? = some w' → w' <:+ z := by
  have := exec_fate q x z
  rcases h with h | h
  · rw [h] at this
    exact this
  · rw [h] at this
    rw [this]
    exact nofun

theorem sync_later {F k m x z ex t} (h : x ∈ P.syncTokens) : (ex, t, some x :: z) ∉ events F k m (some x :: z) := by
  refine events_later (takes_rest ?_)
  cases k with
  | zero => exact .inr rfl
  | succ k => exact (takes_sync h).bind

theorem skip_later {F k m x z ex t} : (ex, t, some x :: z) ∉ events F k m (skip (some x :: z)) := by
  unfold skip
  split
  · exact sync_later (by assumption)
  · exact fun h => not_suffix (skip_suffix _) (events_suffix _ _ _ _ _ _ h)

/-- What can be said about a message `ex` about the token `x` after the tokens `u`. -/
structure At (ev : Toks → List (Expect × Option Token × Toks)) (u : Toks) (x : Token) (ex : Expect) (t : Token) : Prop where
  tok : t = x
  words : ∀ words ∈ alternatives ex.render, ∃ y, means words y
  same : ∀ z, (ex, some t, some x :: z) ∈ ev (u ++ some x :: z)
  fixed : ∀ y, expects ex y → ∀ z ex' t', (ex', t', some y :: z) ∉ ev (u ++ some y :: z)

/-- What can be said about a message about the end of the file after the tokens `u`. -/
structure AtFin (ev : Toks → List (Expect × Option Token × Toks)) (u : Toks) (ex : Expect) : Prop where
  words : ∀ words ∈ alternatives ex.render, ∃ y, means words y
  fixed : ∀ y, expects ex y → ∀ z ex' t', (ex', t', some y :: z) ∉ ev (u ++ some y :: z)

theorem append_ne {u' : Toks} (hu' : u' ≠ []) {z : Toks} : u' ++ z ≠ z := by
  intro h
  have := congrArg List.length h
  simp at this
  exact hu' this

/-- A run that does not take the tokens `u`: what is reported then, and where it goes on. -/
theorem events_stuck {F k u} (h : Stuck (fileProg F k) u) (m : Nat) : (∀ z, events F k (m + 1) (u ++ z) = []) ∨
    ∃ u', u' ≠ [] ∧ ∃ l : Toks → List (Expect × Option Token × Toks), (∀ z, ∀ e ∈ l z, e.2.2 = u' ++ z) ∧
      ∀ z, events F k (m + 1) (u ++ z) = l z ++ events F F m (skip (u' ++ z)) := by
  obtain ⟨u', hu', hsuf, ⟨a, he⟩ | ⟨ex', t', he⟩ | ⟨r, he⟩⟩ := h
  · exact .inl fun z => by rw [events, he]
  · refine .inr ⟨u', hu', fun z => [(ex', some t', u' ++ z)], fun z e h => ?_, fun z => ?_⟩
    · rw [List.mem_singleton.1 h]
    · rw [events, he]; rfl
  · refine .inr ⟨u', hu', fun z => ends r (u' ++ z), fun z e h => (mem_ends h).2.2, fun z => ?_⟩
    rw [events, he]

theorem events_at {F} : ∀ m k u x z ex t, (ex, some t, some x :: z) ∈ events F k m (u ++ some x :: z) → At (events F k m) u x ex t
  | 0, _, _, _, _, _, _, h => nomatch h
  | m + 1, k, u, x, z, ex, t, h => by
    have hg := good_fileProg (F := F) k
    rcases exec_split (fileProg F k) u with he | hst | ⟨q, hq⟩
    · unfold events at h
      rw [he] at h
      cases h
    · rcases events_stuck hst m with he | ⟨u', hu', l, hl, hev⟩
      · rw [he] at h; cases h
      · have later : ∀ {y z ex t}, (ex, t, some y :: z) ∈ events F k (m + 1) (u ++ some y :: z) →
            (ex, t, some y :: z) ∈ events F F m (skip (u' ++ some y :: z)) := by
          intro y z ex t h
          rw [hev] at h
          rcases List.mem_append.1 h with h | h
          · exact absurd (hl _ _ h).symm (append_ne hu')
          · exact h
        have h := later h
        rcases skip_append u' with ⟨u'', hu, hs⟩ | hs
        · rw [hs] at h
          have := events_at m F u'' x z ex t h
          refine ⟨this.tok, this.words, fun z => ?_, fun y hy z ex' t' h => ?_⟩
          · rw [hev, hs]; exact List.mem_append_right _ (this.same z)
          · have h := later h
            rw [hs] at h
            exact this.fixed y hy z _ _ h
        · rw [hs] at h
          exact absurd h skip_later
    · have hgq := hg.left hq
      have hex := hq.exec
      have hf := exec_fate q x
      rcases hfx : fate x q with _ | ⟨ex', t'⟩ | _ | _ | a
      · rw [hfx] at hf
        exact absurd h (events_later (by rw [hex]; exact hf z))
      · rw [hfx] at hf
        have hf : ∀ v, exec q (some x :: v) = .blamed ex' t' (some x :: v) := hf
        have hev : ∀ z, events F k (m + 1) (u ++ some x :: z) = (ex', some t', some x :: z) :: events F F m (skip (some x :: z)) := by
          intro z; rw [events, hex, hf]
        rw [hev] at h
        rcases List.mem_cons.1 h with h | h
        · cases h
          obtain ⟨h1, S, h2, h3⟩ := hgq.g.tok x ex t hfx
          refine ⟨h1, h2.some, fun z => ?_, fun y hy z ex' t' => ?_⟩
          · rw [hev]; exact .head _
          · refine events_later ?_
            rw [hex]
            exact takes_rest (h3 y (h2.only y hy))
        · exact absurd h skip_later
      · rw [hfx] at hf
        have hf : ∀ v, exec q (some x :: v) = .stop none (some x :: v) := hf
        rw [events, hex, hf] at h
        exact absurd h skip_later
      · rw [hfx] at hf
        have hf : ∀ v, exec q (some x :: v) = .oof := hf
        rw [events, hex, hf] at h
        cases h
      · rw [hfx] at hf
        have hf : ∀ v, exec q (some x :: v) = .done a (some x :: v) := hf
        rw [events, hex, hf] at h
        cases h

/-- There is nothing to report when nothing is ahead of a statement. -/
theorem events_nil {F k m} : events F k m [] = [] := by
  cases m with
  | zero => rfl
  | succ m => cases k <;> rfl

theorem events_fin {F} : ∀ m k u ex, (ex, none, []) ∈ events F k m u → AtFin (events F k m) u ex
  | 0, _, _, _, h => nomatch h
  | m + 1, k, u, ex, h => by
    have hg := good_fileProg (F := F) k
    have h : (ex, none, []) ∈ events F k (m + 1) (u ++ []) := by rw [List.append_nil]; exact h
    rcases exec_split (fileProg F k) u with he | hst | ⟨q, hq⟩
    · unfold events at h
      rw [he] at h
      cases h
    · rcases events_stuck hst m with he | ⟨u', hu', l, hl, hev⟩
      · rw [he] at h; cases h
      · have later : ∀ {w ex t}, (ex, t, w) ∈ events F k (m + 1) (u ++ w) → (ex, t, w) ∈ events F F m (skip (u' ++ w)) := by
          intro w ex t h
          rw [hev] at h
          rcases List.mem_append.1 h with h | h
          · exact absurd (hl _ _ h).symm (append_ne hu')
          · exact h
        have h := later h
        rcases skip_append u' with ⟨u'', hu, hs⟩ | hs
        · rw [hs, List.append_nil] at h
          have := events_fin m F u'' ex h
          refine ⟨this.words, fun y hy z ex' t' h => ?_⟩
          have h := later h
          rw [hs] at h
          exact this.fixed y hy z _ _ h
        · rw [hs] at h
          rw [show skip [] = [] from rfl, events_nil] at h
          cases h
    · have hgq := hg.left hq
      have hex := hq.exec
      have hf := exec_end q
      have hr := exec_rest q []
      rcases hfx : efate q with ex' | _ | a
      · rw [hfx] at hf
        have hf : exec q [] = .stop (some ex') [] := hf
        rw [events, hex, hf] at h
        rcases List.mem_append.1 h with h | h
        · cases (mem_ends h).1
          obtain ⟨S, h2, h3⟩ := hgq.g.fin ex hfx
          refine ⟨h2.some, fun y hy z ex' t' => ?_⟩
          refine events_later ?_
          rw [hex]
          exact takes_rest (h3 y (h2.only y hy))
        · rw [show skip [] = [] from rfl, events_nil] at h
          cases h
      · rw [hfx] at hf
        have hf : ∀ ex w, exec q [] ≠ .stop (some ex) w := hf
        rw [events, hex] at h
        have hnil : ∀ w, w <:+ ([] : Toks) → (ex, none, []) ∉ events F F m (skip w) := by
          intro w hw
          rw [List.suffix_nil.1 hw, show skip [] = [] from rfl, events_nil]
          nofun
        split at h
        · cases h
        · rename_i he
          rw [he] at hr
          rcases List.mem_cons.1 h with h | h
          · cases h
          · exact absurd h (hnil _ (hr _ rfl))
        · rename_i r w he
          rw [he] at hr
          rcases List.mem_append.1 h with h | h
          · rw [(mem_ends h).1] at he
            exact absurd he (hf _ _)
          · exact absurd h (hnil _ (hr _ rfl))
        · cases h
      · rw [hfx] at hf
        have hf : exec q [] = .done a [] := hf
        rw [events, hex, hf] at h
        cases h

theorem events_head {F k m x z ex t} (h : (ex, some t, some x :: z) ∈ events F k m (some x :: z)) : fate x (fileProg F k) = .blamed ex t := by
  cases m with
  | zero => cases h
  | succ m =>
    have hf := exec_fate (fileProg F k) x z
    rcases hfx : fate x (fileProg F k) with _ | ⟨ex', t'⟩ | _ | _ | a <;> rw [hfx] at hf
    · exact absurd h (events_later hf)
    · have hf : exec _ (some x :: z) = .blamed ex' t' (some x :: z) := hf
      rw [events, hf] at h
      rcases List.mem_cons.1 h with h | h
      · cases h; rfl
      · exact absurd h skip_later
    · have hf : exec _ (some x :: z) = .stop none (some x :: z) := hf
      rw [events, hf] at h
      exact absurd h skip_later
    · have hf : exec _ (some x :: z) = .oof := hf
      rw [events, hf] at h
      cases h
    · have hf : exec _ (some x :: z) = .done a (some x :: z) := hf
      rw [events, hf] at h
      cases h

theorem Left.bind {α β : Type} {p q : Prog α} {u : Toks} (h : Left p u q) (f : α → Prog β) : Left (p >>= f) u (q >>= f) := by
  show Left (p.bind f) u (q.bind f)
  induction h with
  | here p => exact .here _
  | peek h ih => exact .peek ih
  | peekSkip h ih => exact .peekSkip ih
  | bump h ih => exact .bump ih
  | addError he he' h ih => exact .addError he he' ih
  | leading h ih => exact .leading ih
  | trailing h ih => exact .trailing ih
  | setTextMode h ih => exact .setTextMode ih
  | assertNoPeek h ih => exact .assertNoPeek ih

theorem all_later {F u q y z ex t} (hq : Left (parseHeader F 0) u q) (h : Takes y (q >>= fun _ => fileProg F F)) :
    (ex, t, some y :: z) ∉ allEvents F (u ++ some y :: z) := by
  unfold allEvents
  rw [hq.exec]
  have hf := exec_fate q y z
  unfold Takes at h
  rw [fate_bind] at h
  rcases hfy : fate y q with _ | ⟨ex', t'⟩ | _ | _ | a <;> rw [hfy] at h hf
  · have hf : ∀ w', (exec q (some y :: z)).rest? = some w' → w' <:+ z := hf
    split
    · rename_i he
      rw [he] at hf
      exact fun h => not_suffix (hf _ rfl) (events_suffix _ _ _ _ _ _ h)
    · rename_i he
      rw [he] at hf
      intro h
      cases List.mem_singleton.1 h
      exact not_suffix List.suffix_rfl (hf _ rfl)
    · rename_i he
      rw [he] at hf
      intro h
      rw [← (mem_ends h).2.2] at hf
      exact not_suffix List.suffix_rfl (hf _ rfl)
    · nofun
  · rcases h with h | h <;> cases h
  · rcases h with h | h <;> cases h
  · have hf : exec q (some y :: z) = .oof := hf
    rw [hf]
    nofun
  · have hf : exec q (some y :: z) = .done a (some y :: z) := hf
    rw [hf]
    exact events_later (takes_rest h)

theorem good_all {F} : Good (parseHeader F 0 >>= fun _ => fileProg F F) := good_parseHeader.run _ (fun _ => good_fileProg F) fun _ _ h => h.elim

/-- The header does not take the tokens `u`. -/
theorem all_stuck {F u} (h : Stuck (parseHeader F 0) u) : (∃ u', u' ≠ [] ∧ ∀ z, allEvents F (u ++ z) = events F F F (u' ++ z)) ∨
    ∀ z, ∀ e ∈ allEvents F (u ++ z), e.2.2 ≠ z := by
  obtain ⟨u', hu', hsuf, ⟨a, he⟩ | ⟨ex', t', he⟩ | ⟨r, he⟩⟩ := h
  · exact .inl ⟨u', hu', fun z => by rw [allEvents, he]⟩
  · refine .inr fun z e h => ?_
    rw [allEvents, he] at h
    rw [List.mem_singleton.1 h]
    exact append_ne hu'
  · refine .inr fun z e h => ?_
    rw [allEvents, he] at h
    rw [(mem_ends h).2.2]
    exact append_ne hu'

theorem allEvents_at {F u x z ex t} (h : (ex, some t, some x :: z) ∈ allEvents F (u ++ some x :: z)) : At (allEvents F) u x ex t := by
  have hg := good_all (F := F)
  rcases exec_split (parseHeader F 0) u with he | hst | ⟨q, hq⟩
  · unfold allEvents at h
    rw [he] at h
    cases h
  · rcases all_stuck hst with ⟨u', hu', hev⟩ | he
    · rw [hev] at h
      have := events_at F F u' x z ex t h
      refine ⟨this.tok, this.words, fun z => ?_, fun y hy z => ?_⟩
      · rw [hev]; exact this.same z
      · rw [hev]; exact this.fixed y hy z
    · exact absurd rfl (he _ _ h)
  · have hgq := hg.left (hq.bind _)
    have hex := hq.exec
    have hf := exec_fate q x
    rcases hfx : fate x q with _ | ⟨ex', t'⟩ | _ | _ | a
    · exact absurd h (all_later hq (.inl (by rw [fate_bind, hfx]; rfl)))
    · rw [hfx] at hf
      have hf : ∀ v, exec q (some x :: v) = .blamed ex' t' (some x :: v) := hf
      have hev : ∀ z, allEvents F (u ++ some x :: z) = [(ex', some t', some x :: z)] := by
        intro z; rw [allEvents, hex, hf]
      rw [hev] at h
      cases List.mem_singleton.1 h
      obtain ⟨h1, S, h2, h3⟩ := hgq.g.tok x ex t (by rw [fate_bind, hfx]; rfl)
      refine ⟨h1, h2.some, fun z => ?_, fun y hy z ex' t' => all_later hq (h3 y (h2.only y hy))⟩
      rw [hev]; exact .head _
    · rw [hfx] at hf
      have hf : ∀ v, exec q (some x :: v) = .stop none (some x :: v) := hf
      rw [allEvents, hex, hf] at h
      cases h
    · exact absurd h (all_later hq (.inr (by rw [fate_bind, hfx]; rfl)))
    · rw [hfx] at hf
      have hf : ∀ v, exec q (some x :: v) = .done a (some x :: v) := hf
      have hev : ∀ z, allEvents F (u ++ some x :: z) = events F F F (some x :: z) := by
        intro z; rw [allEvents, hex, hf]
      rw [hev] at h
      have hat := events_at F F [] x z ex t h
      refine ⟨hat.tok, hat.words, fun z => by rw [hev]; exact hat.same z, fun y hy z ex' t' => all_later hq ?_⟩
      obtain ⟨h1, S, h2, h3⟩ := hgq.g.tok x ex t (by rw [fate_bind, hfx]; exact events_head h)
      exact h3 y (h2.only y hy)

theorem allEvents_fin {F u ex} (h : (ex, none, []) ∈ allEvents F u) : AtFin (allEvents F) u ex := by
  have hg := good_all (F := F)
  have h : (ex, none, []) ∈ allEvents F (u ++ []) := by rw [List.append_nil]; exact h
  rcases exec_split (parseHeader F 0) u with he | hst | ⟨q, hq⟩
  · unfold allEvents at h
    rw [he] at h
    cases h
  · rcases all_stuck hst with ⟨u', hu', hev⟩ | he
    · rw [hev, List.append_nil] at h
      have := events_fin F F u' ex h
      refine ⟨this.words, fun y hy z => ?_⟩
      rw [hev]; exact this.fixed y hy z
    · exact absurd rfl (he _ _ h)
  · have hgq := hg.left (hq.bind _)
    have hex := hq.exec
    have hf := exec_end q
    have hr := exec_rest q []
    rw [allEvents, hex] at h
    rcases hfx : efate q with ex' | _ | a
    · rw [hfx] at hf
      have hf : exec q [] = .stop (some ex') [] := hf
      rw [hf] at h
      cases (mem_ends h).1
      obtain ⟨S, h2, h3⟩ := hgq.g.fin ex (by rw [efate_bind, hfx]; rfl)
      exact ⟨h2.some, fun y hy z ex' t' => all_later hq (h3 y (h2.only y hy))⟩
    · rw [hfx] at hf
      have hf : ∀ ex w, exec q [] ≠ .stop (some ex) w := hf
      split at h
      · rename_i he
        rw [he] at hr
        rw [List.suffix_nil.1 (hr _ rfl), events_nil] at h
        cases h
      · cases List.mem_singleton.1 h
      · rename_i r w he
        rw [(mem_ends h).1] at he
        exact absurd he (hf _ _)
      · cases h
    · rw [hfx] at hf
      have hf : exec q [] = .done a [] := hf
      rw [hf] at h
      dsimp only at h
      rw [events_nil] at h
      cases h

end
end Verif.Exec
