import Verif.Proofs.Events
/-! A run on a file reports the tokens that are blamed on the significant tokens of the file. -/
namespace Verif.Exec
open Parse Prog Blame Spec

section
variable [FloatFmt]

/-- A message, the token (`none` for the end of the file) and everything ahead. -/
abbrev Report := Expect × Option STok × List (Option STok)

/-- The new reports in the state are the messages `ev`. -/
def Tally (v : List (Option STok)) (U : List (Expect × Option STok)) (ev : List (Expect × Option Token × Toks)) (s' : PState) : Prop :=
  ∃ evs : List Report, uts s' = U ++ evs.map (fun e => (e.1, e.2.1)) ∧ ev = evs.map (fun e => (e.1, e.2.1.map Prod.fst, toks e.2.2)) ∧
    ∀ e ∈ evs, e.2.2 <:+ v ∧ e.2.2.head? = e.2.1.map some

theorem Tally.nil {v U s} (h : uts s = U) : Tally v U [] s := ⟨[], by simp [h], rfl, nofun⟩

theorem Tally.suffix {v v' U ev s} (h : Tally v' U ev s) (hv : v' <:+ v) : Tally v U ev s := by
  obtain ⟨evs, h1, h2, h3⟩ := h
  exact ⟨evs, h1, h2, fun e he => ⟨(h3 e he).1.trans hv, (h3 e he).2⟩⟩

theorem Tally.cons {v ex o l U ev s} (h : Tally v (U ++ [(ex, o)]) ev s) (hl : l <:+ v) (ho : l.head? = o.map some) :
    Tally v U ((ex, o.map Prod.fst, toks l) :: ev) s := by
  obtain ⟨evs, h1, h2, h3⟩ := h
  refine ⟨(ex, o, l) :: evs, by rw [h1]; simp, by rw [h2]; rfl, ?_⟩
  intro e he
  rcases List.mem_cons.1 he with rfl | he
  · exact ⟨hl, ho⟩
  · exact h3 e he

theorem rz_skipUntil : ∀ n s v, view s = v → NT s →
    Rz (P.skipUntil n s) (fun _ => False) fun _ s' => NT s' ∧ view s' <:+ v ∧ toks (view s') = skip (toks v)
  | 0, _, _, _, _ => trivial
  | n + 1, s, v, hv, hn => by
    unfold P.skipUntil
    have h := sees_peek s v hv
    rcases hp : P.peek s with ⟨r, s'⟩
    rw [hp] at h
    cases r with
    | ok a =>
      have h : Found v a s' := h
      cases a with
      | none =>
        have hh := h.2.2.1
        cases v with
        | cons y v => cases hh
        | nil => exact ⟨h.nt, by rw [h.1]; exact List.suffix_rfl, by rw [h.1]; rfl⟩
      | some x =>
        obtain ⟨t, sp⟩ := x
        have hh := h.2.2.1
        cases v with
        | nil => cases hh
        | cons y v =>
          cases hh
          have e : skip (toks (some (t, sp) :: v)) = if t ∈ P.syncTokens then toks (some (t, sp) :: v) else skip (toks v) := rfl
          dsimp only
          split
          · rename_i ht
            exact ⟨h.nt, by rw [h.1]; exact List.suffix_rfl, by rw [h.1, e, if_pos ht]⟩
          · rename_i ht
            have hb := rz_bump (E := fun _ => False) h.2.1
            rcases hbb : P.bump s' with ⟨r2, s2⟩
            rw [hbb] at hb
            cases r2 with
            | ok sp' =>
              obtain ⟨_, h2, h3⟩ := (hb : _ ∧ _ ∧ _)
              rw [h.2.2.2 _ rfl, h.1] at h2
              have h2 : some (t, sp) :: v = some (t, sp) :: view s2 := h2
              injection h2 with _ h2
              refine Rz.mono (rz_skipUntil n s2 v h2.symm (by intro z hz; rw [h3] at hz; cases hz)) (fun _ h => h) fun _ s3 h => ?_
              exact ⟨h.1, h.2.1.trans (List.suffix_cons ..), by rw [e, if_neg ht]; exact h.2.2⟩
            | err => exact hb
            | panic => trivial
            | oof => trivial
    | err =>
      have h : Bad v s' := h
      dsimp only
      have hv' : v = none :: view { s' with peek := none } := by
        rw [← h.1]
        unfold view
        rw [h.2.2]
        rfl
      rw [hv']
      refine Rz.mono (rz_skipUntil n _ _ rfl nofun) (fun _ h => h) fun _ s3 h => ?_
      exact ⟨h.1, h.2.1.trans (List.suffix_cons ..), h.2.2⟩
    | panic => trivial
    | oof => trivial

theorem rz_fileLoop {f F} (hf : f ≤ F) : ∀ n k m acc s v U, n ≤ k → n ≤ m → n ≤ F → NT s → view s = v → uts s = U →
    Rz (P.fileLoop f n acc s) (fun _ => True) fun _ s' => Tally v U (events F k m (toks v)) s'
  | 0, _, _, _, _, _, _, _, _, _, _, _, _ => trivial
  | n + 1, 0, _, _, _, _, _, h, _, _, _, _, _ => absurd h (by omega)
  | n + 1, _, 0, _, _, _, _, _, h, _, _, _, _ => absurd h (by omega)
  | n + 1, k + 1, m + 1, acc, s, v, U, hk, hm, hF, hn, hv, hU => by
    have h := run_exec (same_parseStatement hf) none s v U ua_parseStatement nofun hn hv hU
    have hex : exec (fileProg F (k + 1)) (toks v) = (exec (parseStatement F) (toks v)).bind _ := exec_bind _ _ _
    unfold P.fileLoop
    rcases hr : (parseStatement f).run s with ⟨r, s'⟩
    rw [hr] at h
    cases r with
    | ok a =>
      obtain ⟨hn', hs', hU', a0, ha, hx⟩ := h
      rw [hx] at hex
      cases a with
      | none =>
        cases a0 with
        | some _ => cases ha
        | none =>
          rw [events, hex]
          exact Tally.nil hU'
      | some st =>
        cases a0 with
        | none => cases ha
        | some st0 =>
          have hev : events F (k + 1) (m + 1) (toks v) = events F k (m + 1) (toks (view s')) := by
            rw [events, hex, events]
            rfl
          rw [hev]
          dsimp only
          split
          · exact Rz.mono (rz_fileLoop hf n k (m + 1) _ s' _ U (by omega) (by omega) (by omega) hn' rfl hU') (fun _ h => h)
              fun _ _ h => h.suffix hs'
          · rename_i acc' e hadd
            obtain ⟨_, _, rfl⟩ := add_kind hadd
            refine Rz.mono (rz_fileLoop hf n k (m + 1) _ { s' with errs := s'.errs ++ [_] } (view s') U (by omega) (by omega) (by omega) hn' rfl ?_)
              (fun _ h => h) fun _ _ h => h.suffix hs'
            show (s'.errs ++ [_]).filterMap ut3 = U
            rw [List.filterMap_append]
            show uts s' ++ [] = U
            rw [List.append_nil, hU']
    | err =>
      dsimp only
      split
      · trivial
      · obtain ⟨hn', hs', hc⟩ := h
        have hsk := rz_skipUntil (s'.rest.length + 3) s' _ rfl hn'
        have hks := fun U => (uts_stable U).skipUntil (s'.rest.length + 3) s'
        rcases hb : P.skipUntil (s'.rest.length + 3) s' with ⟨r2, s2⟩
        rw [hb] at hsk hks
        cases r2 with
        | ok _ =>
          obtain ⟨hn2, hs2, hsk⟩ := (hsk : _ ∧ _ ∧ _)
          dsimp only
          rcases hc with ⟨ex, t, sp, l, hl, hU', hx⟩ | ⟨ex, hl, hU', hx⟩ | ⟨hU', hx⟩
          · rw [hx] at hex
            rw [events, hex]
            show Rz _ _ fun _ s3 => Tally v U ((ex, some t, toks (view s')) :: events F F m (skip (toks (view s')))) s3
            rw [← hsk]
            refine Rz.mono (rz_fileLoop hf n F m _ s2 _ _ (by omega) (by omega) (by omega) hn2 rfl (hks _ hU')) (fun _ h => h) fun _ _ h => ?_
            exact (h.suffix (hs2.trans hs')).cons (o := some (t, sp)) hs' (by rw [hl]; rfl)
          · rw [hx] at hex
            rw [events, hex]
            show Rz _ _ fun _ s3 => Tally v U ((ex, none, []) :: events F F m (skip [])) s3
            rw [hl] at hsk hs2 hs'
            have hsk : toks (view s2) = skip [] := hsk
            rw [← hsk]
            refine Rz.mono (rz_fileLoop hf n F m _ s2 _ _ (by omega) (by omega) (by omega) hn2 rfl (hks _ hU')) (fun _ h => h) fun _ _ h => ?_
            exact (h.suffix (hs2.trans hs')).cons (o := none) (l := []) hs' rfl
          · rw [hx] at hex
            rw [events, hex]
            show Rz _ _ fun _ s3 => Tally v U (events F F m (skip (toks (view s')))) s3
            rw [← hsk]
            refine Rz.mono (rz_fileLoop hf n F m _ s2 _ _ (by omega) (by omega) (by omega) hn2 rfl (hks _ hU')) (fun _ h => h) fun _ _ h => ?_
            exact h.suffix (hs2.trans hs')
        | err => trivial
        | panic => trivial
        | oof => trivial
    | panic => trivial
    | oof => trivial

theorem rz_parseFile {f F len} (hf : f ≤ F) {s v U} (hn : NT s) (hv : view s = v) (hU : uts s = U) :
    Rz (P.parseFile f len s) (fun s' => Tally v U (allEvents F (toks v)) s' ∨ ∃ a s0 s1, (parseHeader f len).run s = (.ok a, s0) ∧
      P.fileLoop f f { span := a.2.2 } s0 = (.err, s1)) fun _ s' => Tally v U (allEvents F (toks v)) s' := by
  have h := run_exec (same_parseHeader hf (l0 := 0) (l := len)) none s v U ua_parseHeader nofun hn hv hU
  show Rz (P.bind (parseHeader f len).run _ s) _ _
  unfold P.bind
  rcases hr : (parseHeader f len).run s with ⟨r, s'⟩
  rw [hr] at h
  cases r with
  | ok a =>
    obtain ⟨hn', hs', hU', a0, ha, hx⟩ := h
    have hev : allEvents F (toks v) = events F F F (toks (view s')) := by rw [allEvents, hx]
    rw [hev]
    show Rz (P.bind (P.fileLoop f f _) _ s') _ _
    have h2 := rz_fileLoop hf f F F { span := a.2.2 } s' _ U hf hf hf hn' rfl hU'
    unfold P.bind
    rcases hl : P.fileLoop f f { span := a.2.2 } s' with ⟨r2, s2⟩
    rw [hl] at h2
    cases r2 with
    | ok b => exact Tally.suffix h2 hs'
    | err => exact .inr ⟨a, s', s2, rfl, hl⟩
    | panic => trivial
    | oof => trivial
  | err =>
    obtain ⟨hn', hs', hc⟩ := h
    refine .inl ?_
    rcases hc with ⟨ex, t, sp, l, hl, hU', hx⟩ | ⟨ex, hl, hU', hx⟩ | ⟨hU', hx⟩
    · have hev : allEvents F (toks v) = [(ex, some t, toks (view s'))] := by rw [allEvents, hx]
      rw [hev]
      exact Tally.cons (o := some (t, sp)) (Tally.nil hU') hs' (by rw [hl]; rfl)
    · have hev : allEvents F (toks v) = [(ex, none, [])] := by rw [allEvents, hx]; rfl
      rw [hev]
      rw [hl] at hs'
      exact Tally.cons (o := none) (l := []) (Tally.nil hU') hs' rfl
    · have hev : allEvents F (toks v) = [] := by rw [allEvents, hx]; rfl
      rw [hev]
      exact Tally.nil hU'
  | panic => trivial
  | oof => trivial

end
end Verif.Exec
