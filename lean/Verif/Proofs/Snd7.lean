import Verif.Proofs.Snd6
/-! Statements and files. -/
namespace Verif.Ast
open Verif.Parse

theorem Package.In.lt {a b : Nat} {o : Package} (h : o.In a b) : a < b := SpIn.lt h.2
theorem Import.In.lt {a b : Nat} {o : Import} (h : o.In a b) : a < b := SpIn.lt h.2.2
theorem Package.In.mono {a b a' b' : Nat} {i : Package} (h : i.In a b) (ha : a' ≤ a) (hb : b ≤ b') : i.In a' b' :=
  ⟨h.1.mono ha hb, h.2.mono ha hb⟩
theorem Import.In.mono {a b a' b' : Nat} {i : Import} (h : i.In a b) (ha : a' ≤ a) (hb : b ≤ b') : i.In a' b' :=
  ⟨fun k hk => (h.1 k hk).mono ha hb, h.2.1.mono ha hb, h.2.2.mono ha hb⟩

/-- Spans of a statement. -/
def _root_.Verif.Parse.Statement.In (a b : Nat) : Statement → Prop
  | .empty sp => SpIn a b sp
  | .package p => p.In a b
  | .import' i => i.In a b
  | .option o => o.In a b
  | .message x => x.In a b
  | .enum e => e.In a b
  | .service s => s.In a b
  | .extend e => e.In a b

theorem _root_.Verif.Parse.Statement.In.sp {a b : Nat} {s : Statement} (h : s.In a b) : SpIn a b s.span := by
  cases s with
  | empty sp => exact h
  | package p => exact h.2
  | import' i => exact h.2.2
  | option o => exact h.2
  | message x => cases x; simp only [Statement.In, Message.In] at h; exact h.2.2
  | enum e => exact h.2.2.2.2
  | service s => exact h.2.2.2
  | extend e => cases e; simp only [Statement.In, Extend.In] at h; exact h.2.2

end Verif.Ast

namespace Verif.Grammar
open Verif.Ast

theorem Many.weaken {σ : Type} {e e' : List Token → σ → σ → Prop} (h : ∀ ts s s', e ts s s' → e' ts s s')
    {ts s s'} (hm : Many e ts s s') : Many e' ts s s' := by
  induction hm with
  | nil => exact .nil
  | cons h1 _ ih => exact .cons (h _ _ _ h1) ih

theorem FieldG.weaken [FloatFmt] {body body' : List Token → MessageBody → Prop} (h : ∀ ts b, body ts b → body' ts b)
    {ts f} (hf : FieldG body ts f) : FieldG body' ts f := by
  cases hf with
  | normal h1 h2 h3 h4 h5 h6 h7 => exact .normal h1 h2 h3 h4 h5 h6 h7
  | map h1 h2 h3 h4 h5 h6 => exact .map h1 h2 h3 h4 h5 h6
  | group h1 h2 h3 h4 h5 h6 => exact .group h1 h2 h3 h4 h5 (h _ _ h6)

theorem ExtendG.weaken [FloatFmt] {body body' : List Token → MessageBody → Prop}
    (h : ∀ ts b, body ts b → body' ts b) {ts e} (he : ExtendG body ts e) : ExtendG body' ts e := by
  cases he with
  | mk h1 h2 =>
    refine .mk h1 (h2.weaken ?_)
    intro ts s s' hx
    cases hx with
    | field hf => exact .field (hf.weaken h)
    | empty => exact .empty

theorem MessageG.weaken {body body' : List Token → MessageBody → Prop}
    (h : ∀ ts b, body ts b → body' ts b) {ts e} (he : MessageG body ts e) : MessageG body' ts e := by
  cases he with
  | mk h1 h2 => exact .mk h1 (h _ _ h2)

/-- The grammar of a single statement. -/
inductive StmtG [FloatFmt] : List Token → Parse.Statement → Prop where
  | package {ts x} : PackageG ts x → StmtG ts (.package x)
  | import' {ts x} : ImportG ts x → StmtG ts (.import' x)
  | option {ts x} : OptionG ts x → StmtG ts (.option x)
  | message {ts x} : MessageG AnyBodyG ts x → StmtG ts (.message x)
  | enum {ts x} : EnumG ts x → StmtG ts (.enum x)
  | extend {ts x} : ExtendG AnyBodyG ts x → StmtG ts (.extend x)
  | service {ts x} : ServiceG ts x → StmtG ts (.service x)
  | empty {sp} : StmtG [.semicolon] (.empty sp)

end Verif.Grammar

namespace Verif.Parse
open Lex Verif.Ast Verif.Grammar

variable {L n fuel : Nat}

/-- A failed statement: it consumed something, or stopped at a token no statement starts with. -/
def Stuck (st st' : AS) : Prop :=
  st'.toks.length < st.toks.length ∨
    (st'.toks = st.toks ∧ ∃ x r, st.toks = x :: r ∧ ∀ t, x = some t → t.1 ∉ P.syncTokens)

theorem peekK_intro' {E : AS → Prop} {st : AS} {K : Option STok → AS → Prop}
    (h0 : st.toks = [] → K none ⟨[], false, st.bad⟩)
    (h1 : ∀ r, st.toks = none :: r → E ⟨st.toks, true, true⟩)
    (h2 : ∀ t sp r, st.toks = some (t, sp) :: r → K (some (t, sp)) ⟨some (t, sp) :: r, true, st.bad⟩) :
    st.peekK K E := by
  obtain ⟨toks, pk, bad⟩ := st
  unfold AS.peekK AS.look
  rcases toks with _ | ⟨_ | ⟨t, sp⟩, r⟩
  · exact h0 rfl
  · exact h1 _ rfl
  · exact h2 t sp r rfl

theorem parseStatement_spec [FloatFmt] (hf : n < fuel) {st : AS} {Q : Option Statement → AS → Prop}
    {E : AS → Prop} (hn : st.toks.length ≤ n) (hp : Pre L st)
    (h0 : ∀ st', Eats st [] st' → st'.toks = [] → Q none st')
    (hQ : ∀ used v st', Eats st used st' → used ≠ [] → (st'.bad = false → StmtG (bare used) v) →
      (∀ a b, UC a used b → v.In a b) → Q (some v) st')
    (hE : ∀ st', Fails st st' → Stuck st st' → E st') :
    wp L (parseStatement fuel) Q E st := by
  unfold parseStatement
  rw [wp_bind', wp_peek]
  have hbody : ∀ m, m ≤ n → BodySnd L m (parseMessageBody fuel fuel) AnyBodyG := by
    intro m hm
    refine (parseMessageBody_snd fuel (by omega) (by omega)).weaken ?_ (fun _ _ _ h => h)
    rintro ts v ⟨t1, h1, h2⟩
    exact ⟨t1, h1, _, h2⟩
  have hQ' : ∀ used v st', Eats st used st' → (st'.bad = false → StmtG (bare used) v) →
      (∀ a b, UC a used b → v.In a b) → Q (some v) st' := by
    intro used v st' e g i
    refine hQ used v st' e ?_ g i
    rintro rfl
    exact absurd (SpIn.lt (i 0 0 (Nat.le_refl 0)).sp) (Nat.lt_irrefl 0)
  have callK : ∀ {α : Type} {kwd : Token} {p : Prog α} {G I} (w : α → Statement) (sp : Span) (r : List (Option STok)),
      st.toks = some (kwd, sp) :: r → SndK L n kwd p G I → (∀ ts v, G ts v → StmtG ts (w v)) →
      (∀ a b v, I a b v → (w v).In a b) →
      wp L (p >>= fun x => pure (some (w x))) Q E ⟨some (kwd, sp) :: r, true, st.bad⟩ := by
    intro α kwd p G I w sp r ht hk hG hI
    rw [wp_bind']
    have e : Eats st [] ⟨some (kwd, sp) :: r, true, st.bad⟩ := Eats.same ht rfl
    refine hk _ _ _ (e.le hn) (e.pre hp) ?_ ?_
    · intro used v st' e' g i
      exact hQ' used (w v) st' (by simpa using e.trans e') (fun hb => hG _ _ (g hb)) (fun a b h => hI _ _ _ (i a b h))
    · intro st' hf hlt
      refine hE st' (e.fails hf) (.inl ?_)
      have := hlt sp r rfl
      rw [ht]
      exact this
  apply peekK_intro'
  · intro ht
    exact h0 _ (Eats.same ht rfl) rfl
  · intro r ht
    exact hE _ ⟨rfl, Nat.le_refl _⟩ (.inr ⟨rfl, none, r, ht, nofun⟩)
  · intro t sp r ht
    have e : Eats st [] ⟨some (t, sp) :: r, true, st.bad⟩ := Eats.same ht rfl
    simp only
    split
    · rename_i heq; subst heq
      refine wp_bumpB ?_
      refine hQ' [(.semicolon, sp)] (.empty sp) _ e.bump (fun _ => .empty) (fun a b h => UC_one.1 h)
    split
    · rename_i heq; subst heq
      exact callK .import' sp r ht (parseImport_sndK hf) (fun _ _ h => .import' h) (fun _ _ _ h => h)
    split
    · rename_i heq; subst heq
      exact callK .package sp r ht (parsePackage_sndK hf) (fun _ _ h => .package h) (fun _ _ _ h => h)
    split
    · rename_i heq; subst heq
      exact callK .option sp r ht (parseOption_sndK hf) (fun _ _ h => .option h) (fun _ _ _ h => h)
    split
    · rename_i heq; subst heq
      exact callK .extend sp r ht (parseExtend_sndK hf (hbody _ (Nat.sub_le _ _))) (fun _ _ h => .extend h)
        (fun _ _ _ h => h)
    split
    · rename_i heq; subst heq
      exact callK .message sp r ht (parseMessage_sndK (hbody _ (Nat.sub_le _ _))) (fun _ _ h => .message h)
        (fun _ _ _ h => h)
    split
    · rename_i heq; subst heq
      exact callK .enum sp r ht (parseEnum_sndK hf) (fun _ _ h => .enum h) (fun _ _ _ h => h)
    split
    · rename_i heq; subst heq
      exact callK .service sp r ht (parseService_sndK hf) (fun _ _ h => .service h) (fun _ _ _ h => h)
    · refine wp_unexpected (e.pre hp) fun st' hf' ht' => hE _ (e.fails hf') (.inr ⟨ht'.trans ht.symm, _, _, ht, ?_⟩)
      intro t' h
      cases h
      simp only [P.syncTokens, List.mem_cons, List.not_mem_nil, or_false, not_or]
      refine ⟨?_, ?_, ?_, ?_, ?_, ?_, ?_⟩ <;> assumption

/-! ## The whole file -/

theorem sigToks_length : ∀ (n pos : Nat) (s : Bytes), s.length < n → (sigToks pos s).length ≤ s.length := by
  intro n
  induction n with
  | zero => intro pos s h; omega
  | succ n ih =>
    intro pos s h
    rw [sigToks_unfold]
    have hlt := next_rest_lt pos s
    split
    · simp
    · rename_i t heq
      have hlt := hlt (by simp [heq])
      have := ih (Lex.next false pos s []).span.stop (Lex.next false pos s []).rest (by omega)
      split
      · omega
      · simp only [List.length_cons]; omega
    · rename_i heq
      have hlt := hlt (by simp [heq])
      have := ih (Lex.next false pos s []).span.stop (Lex.next false pos s []).rest (by omega)
      simp only [List.length_cons]; omega

theorem R0.toksLen {C s toks bad} (h : R0 L C s toks bad) : toks.length ≤ s.rest.length + 1 := by
  rw [h.toks, List.length_append]
  have h1 := sigToks_length (s.rest.length + 1) s.pos s.rest (by omega)
  have h2 : (cached s.peek).length ≤ 1 := by
    unfold cached; split
    · simp
    · simp
    · split <;> simp
  omega

theorem R0.chain {C s toks bad} (h : R0 L C s toks bad) : ∃ a, Chain a toks L := by
  have h1 := chain_sigToks (s.rest.length + 1) s.pos s.rest (by omega)
  rw [h.len] at h1
  refine ⟨0, ?_⟩
  rw [h.toks]
  have h2 := h.cachedSpan
  rcases hp : s.peek with _ | u | t
  · exact h1.mono (Nat.zero_le _)
  · exact Chain.mono h1 (Nat.zero_le _)
  · simp only [cached]
    obtain ⟨h3, h4⟩ := h2 t hp
    split
    · exact h1.mono (Nat.zero_le _)
    · exact ⟨Nat.zero_le _, h3, Chain.mono h1 h4⟩

theorem R.pre {C s} {st : AS} (h : R L C s st) : Pre L st := h.r0.chain

theorem skipUntil_spec {C} : ∀ (n : Nat) {s : PState} {toks : List (Option STok)},
    R0 L C s toks true → (∀ t, s.peek = some (.ok t) → t.1.isTrivia = false) → toks.length < n →
    ∃ s' st', P.skipUntil n s = (.ok (), s') ∧ R L C s' st' ∧ st'.bad = true ∧ st'.toks.length ≤ toks.length ∧
      (∀ x r, toks = x :: r → (∀ t, x = some t → t.1 ∉ P.syncTokens) → st'.toks.length < toks.length) := by
  intro n
  induction n with
  | zero => intro s toks _ _ h; omega
  | succ n ih =>
    intro s toks h hsig hn
    have hp := peek_spec h
    unfold P.skipUntil
    rcases hres : P.peek s with ⟨res, s'⟩
    rw [hres] at hp
    rcases res with (_ | ⟨tok, sp⟩) | _ | _ | _
    · have hR := Pk.R (st := ⟨toks, false, true⟩) hp
      obtain ⟨h1, h2, h3⟩ := hp
      subst h2
      exact ⟨s', _, rfl, hR, rfl, Nat.le_refl _, nofun⟩
    · have hR := Pk.R (st := ⟨toks, false, true⟩) hp
      obtain ⟨r, hr⟩ := hp.tok
      obtain ⟨h1, h2, h3⟩ := hp
      subst hr
      simp only
      split
      · rename_i hm
        refine ⟨s', _, rfl, hR, rfl, Nat.le_refl _, ?_⟩
        intro x r' hx hns
        cases hx
        exact absurd hm (hns _ rfl)
      · obtain ⟨s2, r2, e2, ht2, hr2, hn2, _⟩ := bump_sig h3 h1 h2
        cases ht2
        rw [e2]
        simp only
        obtain ⟨s3, st3, e3, h3, hb, hl, _⟩ := ih hr2 (by simp [hn2]) (by simp at hn; omega)
        exact ⟨s3, st3, e3, h3, hb, by simp; omega, fun _ _ _ _ => by simp; omega⟩
    · obtain ⟨⟨r, hr⟩, ⟨u, hu⟩, h3⟩ := hp
      subst hr
      simp only
      have h4 : R0 L C { s' with peek := none } r true := by
        refine ⟨h3.len, ?_, nofun, h3.errsOk, nofun, h3.badErrs, h3.cleanRest, h3.clean, h3.comm⟩
        have := h3.toks
        rw [hu] at this
        simpa [cached] using this
      obtain ⟨s3, st3, e3, h3, hb, hl, _⟩ := ih h4 (by simp) (by simp at hn; omega)
      exact ⟨s3, st3, e3, h3, hb, by simp; omega, fun _ _ _ _ => by simp; omega⟩
    · exact hp.elim
    · exact hp.elim

/-- What has been collected, as grammar parts. -/
def Acc.parts (a : Acc) : Parts := ⟨a.package, a.imports, a.options, a.items⟩

/-- The spans in what has been collected lie in the source. -/
structure Acc.In (L : Nat) (a : Acc) : Prop where
  package : ∀ p, a.package = some p → p.In 0 L
  imports : ∀ i ∈ a.imports, i.In 0 L
  options : ∀ o ∈ a.options, o.In 0 L
  items : ∀ i ∈ a.items, i.In 0 L

theorem Acc.add_span (a : Acc) (s : Statement) : (a.add s).1.span = joinSpan a.span s.span := by
  unfold Acc.add
  cases s <;> try rfl
  simp only
  split <;> rfl

theorem Acc.add_in {a : Acc} {s : Statement} (h : a.In L) (hs : s.In 0 L) : (a.add s).1.In L := by
  have snoc : ∀ {α : Type} {P : α → Prop} {l : List α} {x : α}, (∀ y ∈ l, P y) → P x → ∀ y ∈ l ++ [x], P y := by
    intro α P l x h1 h2 y hy
    rcases List.mem_append.1 hy with hy | hy
    · exact h1 y hy
    · rw [List.mem_singleton.1 hy]; exact h2
  cases s with
  | empty sp => exact ⟨h.1, h.2, h.3, h.4⟩
  | package p =>
    unfold Acc.add
    simp only
    split
    · exact ⟨h.1, h.2, h.3, h.4⟩
    · exact ⟨fun q hq => by cases hq; exact hs, h.2, h.3, h.4⟩
  | import' i => exact ⟨h.1, snoc h.2 hs, h.3, h.4⟩
  | option o => exact ⟨h.1, h.2, snoc h.3 hs, h.4⟩
  | message x => exact ⟨h.1, h.2, h.3, snoc h.4 (by exact hs)⟩
  | enum x => exact ⟨h.1, h.2, h.3, snoc h.4 (by exact hs)⟩
  | service x => exact ⟨h.1, h.2, h.3, snoc h.4 (by exact hs)⟩
  | extend x => exact ⟨h.1, h.2, h.3, snoc h.4 (by exact hs)⟩

theorem SpIn.ok {a : Nat} {sp : Span} (h : SpIn a L sp) : SpanOk L sp := ⟨Nat.le_of_lt h.2.1, h.2.2⟩

theorem Acc.add_err {a : Acc} {s : Statement} (h : a.In L) (hs : s.In 0 L) :
    ∀ e, (a.add s).2 = some e → ∀ sp ∈ e.spans, SpanOk L sp := by
  intro e he
  unfold Acc.add at he
  rcases s with _ | p | _ | _ | _ | _ | _ | _
  all_goals first | (simp at he; done) | skip
  simp only at he
  split at he
  · rename_i q hq
    cases he
    intro sp hsp
    simp only [ParseErrorKind.spans, List.mem_cons, List.not_mem_nil, or_false] at hsp
    rcases hsp with rfl | rfl
    · exact SpIn.ok (h.1 q hq).2
    · exact SpIn.ok hs.2
  · exact absurd he nofun

theorem Acc.add_grammar [FloatFmt] {a : Acc} {s : Statement} {ts} (hg : StmtG ts s) (he : (a.add s).2 = none) :
    StatementG ts a.parts (a.add s).1.parts := by
  cases hg with
  | package h =>
    unfold Acc.add at he ⊢
    simp only at he ⊢
    split at he
    · exact absurd he nofun
    · rename_i hq
      simp only [hq]
      exact .package h hq
  | import' h => exact .import' h
  | option h => exact .option h
  | message h => exact .message h
  | enum h => exact .enum h
  | extend h => exact .extend h
  | service h => exact .service h
  | empty => exact .empty

/-- The span collected so far, before the tokens `toks`; `N`: there are no tokens. -/
def SpanInv (L : Nat) (N : Prop) (sp : Span) (toks : List (Option STok)) : Prop :=
  (N ∧ toks = [] ∧ sp = ⟨L, 0⟩) ∨ (sp.start < sp.stop ∧ sp.stop ≤ L ∧ Chain sp.start toks L)

/-- What the statement loop knows while no error is recorded; `T` are the tokens it started with, `b0` tells
whether an error was recorded before and `N` that there were no tokens before. -/
def LoopInv [FloatFmt] (L : Nat) (b0 : Bool) (N : Prop) (T : List (Option STok)) (acc : Acc) (st : AS) : Prop :=
  st.bad = false → b0 = false ∧ ∃ w, T = w.map some ++ st.toks ∧ Many StatementG (bare w) {} acc.parts ∧
    SpanInv L (N ∧ T = []) acc.span st.toks

theorem fileLoop_spec [FloatFmt] {C} (b0 : Bool) (N : Prop) (T : List (Option STok)) (hT : T.length < fuel) :
    ∀ (n : Nat) {s : PState} {st : AS} {acc : Acc}, R L C s st → st.toks.length ≤ T.length →
      st.toks.length < n → acc.In L → LoopInv L b0 N T acc st →
      ∃ acc' s' st', P.fileLoop fuel n acc s = (.ok acc', s') ∧ R L C s' st' ∧ acc'.In L ∧
        LoopInv L b0 N T acc' st' ∧ (st'.bad = false → st'.toks = []) := by
  intro n
  induction n with
  | zero => intro s st acc _ _ h; omega
  | succ n ih =>
    intro s st acc h hle hn hin hinv
    have hw := parseStatement_spec (n := T.length) hT (st := st)
      (Q := fun r st' => match r with
        | none => Eats st [] st' ∧ st'.toks = []
        | some v => ∃ used, Eats st used st' ∧ used ≠ [] ∧ (st'.bad = false → StmtG (bare used) v) ∧
            (∀ a b, UC a used b → v.In a b))
      (E := fun st' => Fails st st' ∧ Stuck st st') hle h.pre (fun st' h1 h2 => ⟨h1, h2⟩)
      (fun used v st' h1 h2 h3 h4 => ⟨used, h1, h2, h3, h4⟩) (fun st' h1 h2 => ⟨h1, h2⟩)
    have ho := run_sound _ h hw
    unfold P.fileLoop
    rcases hres : (parseStatement fuel).run s with ⟨res, s'⟩
    rw [hres] at ho
    rcases res with (_ | v) | _ | _ | _
    · obtain ⟨st', hR, e, ht⟩ := ho
      refine ⟨acc, s', st', rfl, hR, hin, ?_, fun _ => ht⟩
      intro hb
      obtain ⟨hb0, w, h1, h2, h3⟩ := hinv (e.notBad hb)
      have : st.toks = st'.toks := by simpa using e.toks
      exact ⟨hb0, w, by rw [h1, this], h2, by rw [← this]; exact h3⟩
    · obtain ⟨st', hR, used, e, hne, hg, hi⟩ := ho
      have hlen := e.len
      have hpos : 0 < used.length := List.length_pos_iff.2 hne
      obtain ⟨a0, huc⟩ := e.uc h.pre
      have hvin : v.In 0 L := by
        have := hi 0 L (Chain.mono huc (Nat.zero_le _))
        exact this
      have hin' := Acc.add_in hin hvin
      have herr := Acc.add_err hin hvin
      have hgr := fun (h : StmtG (bare used) v) he => Acc.add_grammar (a := acc) h he
      have hsp := Acc.add_span acc v
      simp only
      rcases hadd : acc.add v with ⟨acc', _ | er⟩
      · rw [hadd] at hin' herr hgr hsp
        simp only at *
        refine ih hR (by omega) (by omega) hin' ?_
        intro hb
        obtain ⟨hb0, w, h1, h2, h3⟩ := hinv (e.notBad hb)
        refine ⟨hb0, w ++ used, ?_, ?_, ?_⟩
        · rw [h1, e.toks]; simp
        · rw [bare_append]; exact Grammar.Many.snoc h2 (hgr (hg hb) trivial)
        · rcases h3 with ⟨_, h3, _⟩ | ⟨h3, h4, h5⟩
          · rw [e.toks] at h3
            simp at h3
            exact absurd h3.1 hne
          · right
            rw [e.toks, chain_append] at h5
            obtain ⟨c, h5, h6⟩ := h5
            have := (hi _ _ h5).sp
            have hcl := h6.le
            rw [hsp]
            simp only [SpIn] at this
            simp only [joinSpan]
            exact ⟨by omega, by omega, h6.mono (by omega)⟩
      · rw [hadd] at hin' herr
        simp only at *
        refine ih (st := { st' with bad := true }) ⟨⟨hR.r0.len, hR.r0.toks, hR.r0.cachedSpan,
          hR.r0.errsOk.append (herr _ rfl), fun _ _ => rfl, by simp, hR.r0.cleanRest, nofun, hR.r0.comm⟩,
          hR.peeked, hR.sig⟩ (by simp only; omega) (by simp only; omega) hin' nofun
    · obtain ⟨st', hR, hf, hst⟩ := ho
      have hbe : s'.errs ≠ [] := hR.r0.badErrs hf.bad
      simp only
      rw [if_neg hbe]
      have hr0 := hR.r0
      rw [hf.bad] at hr0
      obtain ⟨s2, st2, e2, h2, hb2, hl2, hlt2⟩ := skipUntil_spec (s'.rest.length + 3) hr0 hR.sig
        (by have := hr0.toksLen; omega)
      rw [e2]
      simp only
      have hfl := hf.len
      refine ih h2 (by omega) ?_ hin (by intro hb; rw [hb2] at hb; cases hb)
      rcases hst with hst | ⟨h1, x, r, h2, h3⟩
      · omega
      · have := hlt2 x r (by rw [h1, h2]) h3
        omega
    · exact ho.elim
    · exact ho.elim

theorem parseHeader_spec (hf : n < fuel) {st : AS}
    {Q : Syntax' × Option (Span × Ast.Comments) × Span → AS → Prop}
    {E : AS → Prop} (hn : st.toks.length ≤ n) (hp : Pre L st)
    (h0 : ∀ st', Eats st [] st' → st'.toks = [] → Q (.proto2, none, ⟨L, 0⟩) st')
    (h1 : ∀ st' t sp r, Eats st [] st' → st'.toks = some (t, sp) :: r → t ≠ kw b!"syntax" →
      Q (.proto2, none, sp) st')
    (h2 : ∀ used st' syn sp c, Eats st used st' → (st'.bad = false → SyntaxG (bare used) syn) →
      (∀ a b, UC a used b → SpIn a b sp) → Q (syn, some (sp, c), sp) st')
    (hE : ∀ st', Fails st st' → E st') :
    wp L (parseHeader fuel L) Q E st := by
  unfold parseHeader
  refine (At.start hn hp hE).peekO (fun ht A => ?_) (fun t sp r ht A => ?_)
  · exact h0 _ A.eats rfl
  · simp only
    split
    · refine A.call (parseSyntax_snd hf) fun used v st2 e A i => ?_
      obtain ⟨syn, sp2, c⟩ := v
      refine h2 _ _ _ _ _ A.eats (fun hb => ?_) i
      exact (A.good hb).2
    · rename_i hne
      exact h1 _ _ _ _ A.eats rfl hne

/-- The spans of a file lie in the source; the file's own span does too unless the file has no tokens. -/
structure _root_.Verif.Ast.File.In (L : Nat) (f : File) : Prop where
  syntaxSpan : ∀ x, f.syntaxSpan = some x → SpIn 0 L x.1
  package : ∀ p, f.package = some p → p.In 0 L
  imports : ∀ i ∈ f.imports, i.In 0 L
  options : ∀ o ∈ f.options, o.In 0 L
  items : ∀ i ∈ f.items, i.In 0 L

theorem init_R (src : Bytes) (C : Bool) (hC : C = true → lexClean 0 src = true) :
    R src.length C (PState.init src) ⟨sigToks 0 src, false, false⟩ := by
  refine ⟨⟨?_, ?_, nofun, nofun, nofun, nofun, hC, fun _ _ => rfl, nofun⟩, rfl, nofun⟩
  · simp [PState.init]
  · simp [PState.init, cached]

/-- The parser as a whole. -/
theorem parseFile_spec [FloatFmt] (src : Bytes) :
    (∃ errs, parseFile src = .ok (.error errs) ∧ errs ≠ [] ∧ ErrsOk src.length errs) ∨
    (∃ f ts, parseFile src = .ok (.ok f) ∧ sigToks 0 src = ts.map some ∧ FileG (bare ts) f ∧ f.In src.length ∧
      ((ts = [] ∧ f.span = ⟨src.length, 0⟩) ∨ (f.span.start < f.span.stop ∧ f.span.stop ≤ src.length))) := by
  have h := init_R src false nofun
  have htl := sigToks_length (src.length + 1) 0 src (by omega)
  have hw := parseHeader_spec (n := src.length) (fuel := src.length + 3) (by omega)
    (st := ⟨sigToks 0 src, false, false⟩)
    (Q := fun r st' => ∃ used, Eats ⟨sigToks 0 src, false, false⟩ used st' ∧
      (∀ x, r.2.1 = some x → SpIn 0 src.length x.1) ∧
      (st'.bad = false → SpanInv src.length (used = []) r.2.2 st'.toks ∧
        ((used = [] ∧ r.1 = .proto2 ∧ r.2.1 = none) ∨ (SyntaxG (bare used) r.1 ∧ r.2.1.isSome = true))))
    (E := fun st' => st'.bad = true) htl h.pre
    (fun st' e ht => ⟨[], e, nofun, fun _ => ⟨.inl ⟨rfl, ht, rfl⟩, .inl ⟨rfl, rfl, rfl⟩⟩⟩)
    (fun st' t sp r e ht _ => by
      refine ⟨[], e, nofun, fun _ => ⟨.inr ?_, .inl ⟨rfl, rfl, rfl⟩⟩⟩
      obtain ⟨a, ha⟩ := e.pre h.pre
      rw [ht] at ha ⊢
      have := ha.2.2.le
      exact ⟨ha.2.1, this, Nat.le_refl _, ha.2⟩)
    (fun used st' syn sp c e hg hi => by
      refine ⟨used, e, ?_, fun hb => ⟨.inr ?_, .inr ⟨hg hb, rfl⟩⟩⟩
      · intro x hx
        cases hx
        obtain ⟨a, ha⟩ := e.uc h.pre
        exact hi 0 _ (Chain.mono ha (Nat.zero_le _))
      · obtain ⟨a, ha⟩ := h.pre
        rw [e.toks, chain_append] at ha
        obtain ⟨c, h1, h2⟩ := ha
        have h3 := hi _ _ h1
        have h4 := h2.le
        refine ⟨h3.2.1, by have := h3.2.2; simp only; omega, h2.mono ?_⟩
        have := h3.2.1; have := h3.2.2; simp only; omega)
    (fun st' hf => hf.bad)
  have ho := run_sound _ h hw
  unfold parseFile P.parseFile
  rw [bind_eq]
  rcases hres : (parseHeader (src.length + 3) src.length).run (PState.init src) with ⟨res, s'⟩
  rw [hres] at ho
  rcases res with ⟨syn, synSpan, span⟩ | _ | _ | _
  · obtain ⟨st', hR, used, e, hsyn, hgood⟩ := ho
    have hlen := e.len
    obtain ⟨acc', s2, st2, e2, hR2, hin2, hinv2, ht2⟩ := fileLoop_spec (fuel := src.length + 3) st'.bad (used = []) st'.toks (by simp at hlen; omega)
      (src.length + 3) (acc := { span }) hR (Nat.le_refl _) (by simp at hlen; omega) ⟨nofun, nofun, nofun, nofun⟩
      (by
        intro hb
        refine ⟨hb, [], by simp, .nil, ?_⟩
        rcases (hgood hb).1 with ⟨h1, h2, h3⟩ | h1
        · exact .inl ⟨⟨h1, h2⟩, h2, h3⟩
        · exact .inr h1)
    simp only
    rw [bind_eq, e2]
    simp only
    by_cases hes : s2.errs = []
    · right
      have hb2 : st2.bad = false := by
        cases hb : st2.bad with
        | false => rfl
        | true => exact absurd hes (hR2.r0.badErrs hb)
      obtain ⟨hb, w, h1, h2, h3⟩ := hinv2 hb2
      have h4 := ht2 hb2
      refine ⟨⟨acc'.span, syn, synSpan, acc'.package, acc'.imports, acc'.options, acc'.items⟩, used ++ w, ?_, ?_, ?_,
        ⟨hsyn, hin2.1, hin2.2, hin2.3, hin2.4⟩, ?_⟩
      · rw [show ∀ x, (pure x : P Ast.File) s2 = (.ok x, s2) from fun _ => rfl]
        simp only [if_pos hes]
      · have := e.toks
        simp only at this
        rw [this, h1, h4]; simp
      · rcases (hgood hb).2 with ⟨rfl, hs, hn⟩ | ⟨hs, hn⟩
        · simp only at hs hn
          subst hs hn
          exact .noSyntax h2
        · simp only at hs hn
          cases synSpan with
          | none => cases hn
          | some x => rw [bare_append]; exact .withSyntax hs h2
      · rcases h3 with ⟨⟨h5, h6⟩, _, h7⟩ | ⟨h5, h6, _⟩
        · left
          rw [h6] at h1
          simp at h1
          exact ⟨by simp [h5, h1.1], h7⟩
        · exact .inr ⟨h5, h6⟩
    · left
      refine ⟨s2.errs, ?_, hes, hR2.r0.errsOk⟩
      rw [show ∀ x, (pure x : P Ast.File) s2 = (.ok x, s2) from fun _ => rfl]
      simp only [if_neg hes]
  · obtain ⟨st', hR, hb⟩ := ho
    exact .inl ⟨s'.errs, rfl, hR.r0.badErrs hb, hR.r0.errsOk⟩
  · exact ho.elim
  · exact ho.elim

end Verif.Parse
