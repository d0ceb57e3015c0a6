import Verif.Proofs.Pos5
import Verif.Proofs.Snd7
/-!
Places and comments: services, file-level statements, files.
-/
namespace Verif.Pos
open Verif.Parse Verif.Spec Verif.Ast Verif.Places
open Verif.Grammar (ImportPath Parts)

/-- The optional `stream` keyword and the type name. -/
theorem stream_snd {β : Type} {Q : β → AS → Prop} {st : AS} {f : Option Span → Ast.TypeName → Prog β} (fuel : Nat)
    (terms : List Expected)
    (k : ∀ u s t st', st.toks = u ++ st'.toks → StreamG u t s → wp (f s t) Q st') :
    wp (parseStreaming >>= fun s => parseTypeName fuel terms >>= fun t => f s t) Q st := by
  rw [bind]
  unfold parseStreaming
  refine peekSkip rfl fun a r st' e e' => ?_
  simp only
  split
  · rename_i h
    refine bump e' ?_
    refine (parseTypeName_snd fuel terms).bind fun u t st2 e2 g => ?_
    exact k (a :: u) _ _ st2 (by eats) (.yes h g)
  · split
    · rename_i h _
      refine (parseTypeName_snd fuel terms).bind fun u t st2 e2 g => ?_
      refine k u _ _ st2 (by rw [e, ← e', e2]) (.no g ?_)
      refine noKw_of (head_append e2 (typeNameG_ne g) (by rw [e']; rfl)) ?_
      intro m hm
      simp only [List.mem_cons, List.not_mem_nil, or_false] at hm
      subst hm
      exact h
    · exact unexp'

theorem methodOptionStep_snd [FloatFmt] (fuel : Nat) : StepSnd (methodOptionStep fuel) MethodElem := by
  intro s st K hl hn hd
  unfold methodOptionStep
  refine peek rfl fun a r st' e e' hl' => ?_
  have hs : st'.toks = st.toks := e'.trans e.symm
  simp only
  split
  · refine (parseOption_snd fuel).elem hl hs hl' fun u v st2 e2 l g => ?_
    exact hn u _ st2 e2 l (.option g)
  split
  · rename_i h
    exact bump e' (hd a r e h)
  split
  · rename_i h
    refine bump e' ?_
    exact hn [a] _ ⟨r, .fresh, some a⟩ e rfl (.empty h)
  · exact unexp'

theorem parseRpc_snd [FloatFmt] (fuel : Nat) : SndL (parseRpc fuel) MethodG := by
  intro st Q hl k
  unfold parseRpc
  refine leading hl fun c hc => ?_
  refine expect fun a r e ha => ?_
  cases lead_eq hc e
  refine parseIdent_snd.bind fun u1 name st1 e1 g1 => ?_
  refine expect fun l rl el hl => ?_
  refine stream_snd fuel _ fun ui cs i sti ei gi => ?_
  refine expect fun p rp ep hp => ?_
  refine expect fun k' rk ek hk => ?_
  refine expect fun l' rl' el' hl' => ?_
  refine stream_snd fuel _ fun uo ss o sto eo go => ?_
  refine expect fun p' rp' ep' hp' => ?_
  rw [bind]
  have hT : st.toks = (a :: u1 ++ l :: ui ++ [p, k', l'] ++ uo ++ [p']) ++ rp' := by
    simp only [noLead_toks] at *
    simp [*]
  have fin : ∀ es os z r', rp' = es ++ r' → MethodEndG es os z → es.getLast? = some z →
      wp (Prog.trailing (a.detached, a.leading) >>= fun comments =>
        pure ({ name, inputTy := i, outputTy := o, options := os, clientStreaming := cs, serverStreaming := ss, comments, span := joinSpan a.span z.span } : Method))
          Q ⟨r', .fresh, some z⟩ := by
    intro es os z r' he gz hz
    refine trailing ?_
    refine k (a :: u1 ++ l :: ui ++ [p, k', l'] ++ uo ++ p' :: es) _ ⟨r', .seen true false, some z⟩ ?_ rfl ?_
    · rw [hT, he]; simp
    · rw [show joinSpan a.span z.span = extent (a :: u1 ++ l :: ui ++ [p, k', l'] ++ uo ++ p' :: es) from
        (extent_eq rfl (by rw [List.getLast?_append, List.getLast?_cons, hz]; rfl)).symm]
      exact .mk ha g1 hl gi hp hk hl' go hp' gz
  refine peekSkip rfl fun b rb st2 e2 e2' => ?_
  simp only at e2 ⊢
  split
  · rename_i hz
    refine bump e2' ?_
    exact fin [b] [] b rb (by simpa using e2) (.semi hz) rfl
  split
  · rename_i ho
    refine bump e2' ?_
    refine ((methodOptionStep_snd fuel).loop fuel []) _ _ rfl fun ts os z r' e3 g3 hz => ?_
    refine fin (b :: ts ++ [z]) os z r' ?_ (.body ho g3 hz) (by rw [List.getLast?_append]; rfl)
    simp only at e3
    rw [e2, e3]; simp
  · exact unexp'

theorem serviceStep_snd [FloatFmt] (fuel : Nat) : StepSnd (serviceStep fuel) ServiceElem := by
  intro s st K hl hn hd
  unfold serviceStep
  refine peek rfl fun a r st' e e' hl' => ?_
  have hs : st'.toks = st.toks := e'.trans e.symm
  simp only
  split
  · refine (parseRpc_snd fuel).elem hl hs hl' fun u v st2 e2 l g => ?_
    exact hn u _ st2 e2 l (.method g)
  split
  · refine (parseOption_snd fuel).elem hl hs hl' fun u v st2 e2 l g => ?_
    exact hn u _ st2 e2 l (.option g)
  split
  · rename_i h
    refine bump e' ?_
    exact hn [a] _ ⟨r, .fresh, some a⟩ e rfl (.empty h)
  split
  · rename_i h
    exact bump e' (hd a r e h)
  · exact unexp'

theorem parseService_snd [FloatFmt] (fuel : Nat) : SndL (parseService fuel) ServiceG := by
  intro st Q hl k
  unfold parseService
  refine leading hl fun c hc => ?_
  refine expect fun a r e ha => ?_
  cases lead_eq hc e
  refine parseIdent_snd.bind fun u1 name st1 e1 g1 => ?_
  refine expect fun o ro eo ho => ?_
  refine trailing ?_
  refine ((serviceStep_snd fuel).loop fuel ([], [])).bind rfl fun ts s z r' e2 g2 hz => ?_
  obtain ⟨os, ms⟩ := s
  refine k (a :: u1 ++ o :: ts ++ [z]) _ ⟨r', .fresh, some z⟩ (by eats) rfl ?_
  rw [show joinSpan a.span z.span = extent (a :: u1 ++ o :: ts ++ [z]) from
    (extent_eq rfl (by rw [List.getLast?_append]; rfl)).symm]
  exact .mk ha g1 ho g2 hz

theorem parsePackage_snd (fuel : Nat) : SndL (parsePackage fuel) PackageG := by
  intro st Q hl k
  unfold parsePackage
  refine leading hl fun c hc => ?_
  refine expect fun a r e ha => ?_
  cases lead_eq hc e
  refine (parseFullIdent_snd fuel _).bind fun u v st1 e1 g => ?_
  refine expect fun z r' e2 hz => ?_
  refine trailing ?_
  refine k (a :: u ++ [z]) _ _ (by eats) rfl ?_
  rw [← extent_ends a u z]
  exact .mk ha g hz

theorem parseImport_snd (fuel : Nat) : SndL (parseImport fuel) ImportG := by
  intro st Q hl k
  unfold parseImport
  refine leading hl fun c hc => ?_
  refine expect fun a r e ha => ?_
  cases lead_eq hc e
  rw [bind]
  have tail : ∀ (ks : List ATok) (kind : Option (ImportKind × Span)) (st3 : AS), r = ks ++ st3.toks → ImportKindG ks kind →
      wp (parseUtf8String fuel >>= fun x => match x with
        | (value, valueSpan) => (if Parse.isValidImport value then pure () else Prog.addError (.invalidImport valueSpan)) >>= fun _ =>
          expectEq .semicolon >>= fun stop => Prog.trailing (a.detached, a.leading) >>= fun comments =>
            pure { kind, value, valueSpan, comments, span := joinSpan a.span stop }) Q st3 := by
    intro ks kind st3 e3 gk
    refine (parseUtf8String_snd fuel).bind fun u v st4 e4 g4 => ?_
    obtain ⟨value, vsp⟩ := v
    simp only at g4 ⊢
    by_cases hv : Parse.isValidImport value = true
    · rw [if_pos hv]
      show wp (expectEq .semicolon >>= _) _ _
      refine expect fun z r' e5 hz => ?_
      refine trailing ?_
      refine k (a :: ks ++ u ++ [z]) _ ⟨r', .seen true false, some z⟩ (by eats) rfl ?_
      rw [show joinSpan a.span z.span = extent (a :: ks ++ u ++ [z]) from
        (extent_eq rfl (by rw [List.getLast?_append]; rfl)).symm]
      exact .mk ha gk g4 (isValidImport_path hv) hz
    · rw [if_neg hv]
      trivial
  refine peekSkip rfl fun b r1 st1 e1 e1' => ?_
  simp only at e1 ⊢
  split
  · rename_i h
    refine bump e1' ?_
    exact tail [b] _ ⟨r1, .fresh, some b⟩ (by simpa using e1) (.weak h)
  split
  · rename_i h
    refine bump e1' ?_
    exact tail [b] _ ⟨r1, .fresh, some b⟩ (by simpa using e1) (.publ h)
  split
  · exact tail [] none _ (by rw [e1, e1']; rfl) .none
  · exact unexp'

theorem parseSyntax_snd (fuel : Nat) : SndL (parseSyntax fuel) (fun ts v => SyntaxG ts v.1 (v.2.1, v.2.2)) := by
  intro st Q hl k
  unfold parseSyntax
  refine leading hl fun c hc => ?_
  refine expect fun a r e ha => ?_
  cases lead_eq hc e
  refine expect fun q rq eq hq => ?_
  refine peek rfl fun b r1 st1 e1 e1' _ => ?_
  simp only at e1 eq ⊢
  split
  · refine (parseString_snd fuel).bind fun u v st2 e2 g2 => ?_
    obtain ⟨v, vsp⟩ := v
    simp only
    have hT : ∀ z r', st2.toks = z :: r' → st.toks = (a :: q :: u ++ [z]) ++ r' := by
      intro z r' h
      rw [show st.toks = _ from e, eq, e1, ← e1', e2, h]
      simp
    split
    · rename_i hv
      subst hv
      refine expect fun z r' e5 hz => ?_
      refine trailing ?_
      refine k (a :: q :: u ++ [z]) _ ⟨r', .seen true false, some z⟩ (hT z r' e5) rfl ?_
      rw [show joinSpan a.span z.span = extent (a :: q :: u ++ [z]) from
        (extent_eq rfl (by rw [List.getLast?_append]; rfl)).symm]
      exact .proto2 ha hq g2 hz
    split
    · rename_i hv
      subst hv
      refine expect fun z r' e5 hz => ?_
      refine trailing ?_
      refine k (a :: q :: u ++ [z]) _ ⟨r', .seen true false, some z⟩ (hT z r' e5) rfl ?_
      rw [show joinSpan a.span z.span = extent (a :: q :: u ++ [z]) from
        (extent_eq rfl (by rw [List.getLast?_append]; rfl)).symm]
      exact .proto3 ha hq g2 hz
    · trivial
  · exact unexp'

/-- The grammar of a single statement. -/
inductive StmtG [FloatFmt] (d : Nat) : List ATok → Parse.Statement → Prop where
  | package {ts x} : PackageG ts x → StmtG d ts (.package x)
  | import' {ts x} : ImportG ts x → StmtG d ts (.import' x)
  | option {ts x} : OptionG ts x → StmtG d ts (.option x)
  | message {ts x} : MessageG (BodyG d) ts x → StmtG d ts (.message x)
  | enum {ts x} : EnumG ts x → StmtG d ts (.enum x)
  | extend {ts x} : ExtendG (BodyG d) ts x → StmtG d ts (.extend x)
  | service {ts x} : ServiceG ts x → StmtG d ts (.service x)
  | empty {a} : a.tok = .semicolon → StmtG d [a] (.empty a.span)

theorem StmtG.extent [FloatFmt] {d ts s} (h : StmtG d ts s) : s.span = Places.extent ts ∧ ts ≠ [] := by
  cases h with
  | package h => cases h; exact ⟨rfl, by simp⟩
  | import' h => cases h; exact ⟨rfl, by simp⟩
  | option h => cases h; exact ⟨rfl, by simp⟩
  | message h => cases h; exact ⟨rfl, by simp⟩
  | enum h => cases h; exact ⟨rfl, by simp⟩
  | extend h => cases h; exact ⟨rfl, by simp⟩
  | service h => cases h; exact ⟨rfl, by simp⟩
  | empty h => exact ⟨rfl, by simp⟩

theorem many_weaken {σ : Type} {e e' : List ATok → σ → σ → Prop} (h : ∀ ts s s', e ts s s' → e' ts s s')
    {ts s s'} (hm : Many e ts s s') : Many e' ts s s' := by
  induction hm with
  | nil => exact .nil
  | cons h1 _ ih => exact .cons (h _ _ _ h1) ih

theorem fieldG_weaken [FloatFmt] {body body' : List ATok → MessageBody → Prop} (h : ∀ ts b, body ts b → body' ts b)
    {ts f} (hf : FieldG body ts f) : FieldG body' ts f := by
  cases hf with
  | normal h1 h2 h3 h4 h5 h6 h7 h8 h9 => exact .normal h1 h2 h3 h4 h5 h6 h7 h8 h9
  | map h1 h2 h3 h4 h5 h6 h7 h8 h9 h10 h11 h12 => exact .map h1 h2 h3 h4 h5 h6 h7 h8 h9 h10 h11 h12
  | group h1 h2 h3 h4 h5 h6 h7 h8 h9 h10 => exact .group h1 h2 h3 h4 h5 h6 h7 h8 (h _ _ h9) h10

theorem extendG_weaken [FloatFmt] {body body' : List ATok → MessageBody → Prop}
    (h : ∀ ts b, body ts b → body' ts b) {ts e} (he : ExtendG body ts e) : ExtendG body' ts e := by
  cases he with
  | mk h1 h2 h3 h4 h5 =>
    refine .mk h1 h2 h3 (many_weaken ?_ h4) h5
    intro ts s s' hx
    cases hx with
    | field hf => exact .field (fieldG_weaken h hf)
    | empty h => exact .empty h

theorem messageG_weaken {body body' : List ATok → MessageBody → Prop}
    (h : ∀ ts b, body ts b → body' ts b) {ts e} (he : MessageG body ts e) : MessageG body' ts e := by
  cases he with
  | mk h1 h2 h3 h4 h5 => exact .mk h1 h2 h3 (h _ _ h4) h5

theorem add_grammar [FloatFmt] {d} {a : Acc} {s : Statement} {ts} (hg : StmtG d ts s) (he : (a.add s).2 = none) :
    Places.StatementG ts a.parts (a.add s).1.parts := by
  cases hg with
  | package h =>
    unfold Acc.add at he ⊢
    simp only at he ⊢
    split at he
    · exact absurd he nofun
    · rename_i hq
      simp only [hq]
      exact .package h hq
  | import' h => exact .import' h
  | option h => exact .option h
  | message h => exact .message (messageG_weaken (fun _ _ hb => ⟨d, hb⟩) h)
  | enum h => exact .enum h
  | extend h => exact .extend (extendG_weaken (fun _ _ hb => ⟨d, hb⟩) h)
  | service h => exact .service h
  | empty h => exact .empty h

theorem parseStatement_snd [FloatFmt] (fuel : Nat) {st : AS} {Q : Option Statement → AS → Prop} (hl : st.lead = true)
    (h0 : ∀ st', st.toks = [] → st'.toks = [] → Q none st')
    (k : ∀ u v st', st.toks = u ++ st'.toks → st'.lead = true → StmtG fuel u v → Q (some v) st') :
    wp (parseStatement fuel) Q st := by
  unfold parseStatement
  refine peekO (fun e => h0 _ e (by simpa using e)) (fun a r st' e e' hl' => ?_)
  have hs : st'.toks = st.toks := e'.trans e.symm
  have hb := parseMessageBody_snd fuel fuel
  simp only
  split
  · rename_i h
    refine bump e' ?_
    exact k [a] _ ⟨r, .fresh, some a⟩ e rfl (.empty h)
  split
  · exact (parseImport_snd fuel).elem hl hs hl' fun u v st2 e2 l g => k u _ st2 e2 l (.import' g)
  split
  · exact (parsePackage_snd fuel).elem hl hs hl' fun u v st2 e2 l g => k u _ st2 e2 l (.package g)
  split
  · exact (parseOption_snd fuel).elem hl hs hl' fun u v st2 e2 l g => k u _ st2 e2 l (.option g)
  split
  · exact (parseExtend_snd hb fuel).elem hl hs hl' fun u v st2 e2 l g => k u _ st2 e2 l (.extend g)
  split
  · exact (parseMessage_snd hb).elem hl hs hl' fun u v st2 e2 l g => k u _ st2 e2 l (.message g)
  split
  · exact (parseEnum_snd fuel).elem hl hs hl' fun u v st2 e2 l g => k u _ st2 e2 l (.enum g)
  split
  · exact (parseService_snd fuel).elem hl hs hl' fun u v st2 e2 l g => k u _ st2 e2 l (.service g)
  · exact unexp'

/-- The span of a non-empty sequence, extended by another one. -/
theorem extent_append {u v : List ATok} (hu : u ≠ []) (hv : v ≠ []) : extent (u ++ v) = joinSpan (extent u) (extent v) := by
  obtain ⟨a, l, rfl⟩ := List.exists_cons_of_ne_nil hu
  obtain ⟨b, m, rfl⟩ := List.exists_cons_of_ne_nil hv
  rw [extent_eq (ts := a :: l) rfl (List.getLast?_eq_some_getLast hu), extent_eq (ts := b :: m) rfl (List.getLast?_eq_some_getLast hv),
    extent_eq (ts := a :: l ++ b :: m) (a := a) (z := (b :: m).getLast hv) rfl
      (by rw [List.getLast?_append, List.getLast?_eq_some_getLast hv]; rfl)]
  rfl

/-- The statement loop, on a run that ends without errors: `T0` are the tokens of the file, `T` those after `syntax`. -/
theorem fileLoop_places [FloatFmt] (fuel : Nat) (T0 T : List ATok) : ∀ (n : Nat) {s s' : PState} {st : AS} {acc acc' : Acc}
    (w : List ATok), R s st → st.lead = true → T = w ++ st.toks → Many Places.StatementG w {} acc.parts →
    (∃ u, T0 = u ++ st.toks ∧ ((u = [] ∧ T0 = []) ∨ (u = [] ∧ ∃ a, T0.head? = some a ∧ acc.span = a.span) ∨ (u ≠ [] ∧ acc.span = extent u))) →
    P.fileLoop fuel n acc s = (.ok acc', s') → s'.errs = [] →
    Many Places.StatementG T {} acc'.parts ∧ ((T0 = [] ∧ acc' = acc) ∨ (T0 ≠ [] ∧ acc'.span = extent T0)) := by
  intro n
  induction n with
  | zero => intro s s' st acc acc' w _ _ _ _ _ h; cases h
  | succ n ih =>
    intro s s' st acc acc' w h hl hT hm hsp hr he
    unfold P.fileLoop at hr
    have hw := parseStatement_snd fuel (st := st) (Q := fun r st' => match r with
        | none => st.toks = []
        | some v => ∃ u, st.toks = u ++ st'.toks ∧ st'.lead = true ∧ StmtG fuel u v) hl
      (fun st' h1 _ => h1) (fun u v st' h1 h2 h3 => ⟨u, h1, h2, h3⟩)
    have noErr : ∀ {s1 : PState} {acc1}, P.fileLoop fuel n acc1 s1 = (.ok acc', s') → s1.errs = [] := by
      intro s1 acc1 h1
      cases hs : s1.errs with
      | nil => rfl
      | cons e l =>
        have := stable_errs.fileLoop fuel n acc1 s1 (by simp [hs])
        rw [h1] at this
        exact absurd he this
    split at hr
    · rename_i v s1 h1
      split at hr
      · rename_i acc1 h2
        have he1 := noErr hr
        obtain ⟨st1, hR1, u, e1, hl1, g⟩ := run_sound _ h hw h1 he1
        have hs2 : (acc.add v).2 = none := by rw [h2]
        have ha1 : (acc.add v).1 = acc1 := by rw [h2]
        have ga := add_grammar (a := acc) g hs2
        rw [ha1] at ga
        have spa := Acc.add_span acc v
        rw [ha1] at spa
        obtain ⟨hsv, hune⟩ := g.extent
        obtain ⟨u0, hu0, hc⟩ := hsp
        have key := ih (acc := acc1) (w ++ u) hR1 hl1 (by rw [hT, e1]; simp) (many_snoc hm ga) ?_ hr he
        · rcases key with ⟨k1, ⟨k2, _⟩ | k2⟩
          · exfalso
            rw [k2, e1] at hu0
            have := (List.append_eq_nil_iff.1 hu0.symm).2
            exact hune (List.append_eq_nil_iff.1 this).1
          · exact ⟨k1, .inr k2⟩
        · refine ⟨u0 ++ u, by rw [hu0, e1]; simp, .inr (.inr ⟨by simp [hune], ?_⟩)⟩
          rw [spa, hsv]
          rcases hc with ⟨rfl, h0⟩ | ⟨rfl, a, ha, hsa⟩ | ⟨hne, hsa⟩
          · exfalso
            rw [h0, e1] at hu0
            exact hune (List.append_eq_nil_iff.1 (List.append_eq_nil_iff.1 hu0.symm).2).1
          · have hua : u.head? = some a := head_append (T := st.toks) e1 hune (by simpa [hu0] using ha)
            rw [hsa, extent_eq (ts := [] ++ u) hua (List.getLast?_eq_some_getLast (by simpa using hune)),
              extent_eq hua (List.getLast?_eq_some_getLast hune)]
            rfl
          · rw [hsa, extent_append hne hune]
      · rename_i acc1 e h2
        have := noErr hr
        simp at this
    · rename_i s1 h1
      cases hr
      obtain ⟨st1, _, e1⟩ := run_sound _ h hw h1 he
      simp only at e1
      rw [e1, List.append_nil] at hT
      subst hT
      refine ⟨hm, ?_⟩
      obtain ⟨u0, hu0, hc⟩ := hsp
      rw [e1, List.append_nil] at hu0
      subst hu0
      rcases hc with ⟨_, h0⟩ | ⟨h0, a, ha, _⟩ | ⟨hne, hsa⟩
      · exact .inl ⟨h0, rfl⟩
      · rw [h0] at ha; cases ha
      · exact .inr ⟨hne, hsa⟩
    · rename_i s1 h1
      split at hr
      · cases hr
      · rename_i hne
        split at hr
        · rename_i s2 h2
          have := stable_errs.skipUntil (s1.rest.length + 3) s1 hne
          rw [h2] at this
          exact absurd (noErr hr) this
        · cases hr
        · cases hr
        · cases hr
    · cases hr
    · cases hr

end Verif.Pos
