import Verif.Proofs.Uni4
/-!
A source has only one tree: services, file-level statements, files.
-/
namespace Verif.Pos
open Verif.Parse Verif.Spec Verif.Ast Verif.Places
open Verif.Grammar (ImportPath Parts)

/-- The optional `stream` keyword and the type name. -/
theorem stream_det {β : Type} {Q : β → AS → Prop} {st : AS} {f : Option Span → Ast.TypeName → Prog β} (fuel : Nat)
    (terms : List Expected) {u s t rest} (g : StreamG u t s) (e : st.toks = u ++ rest) (hF : NoDot rest)
    (k : ∀ st', st'.toks = rest → wp (f s t) Q st') :
    wp (parseStreaming >>= fun s => parseTypeName fuel terms >>= fun t => f s t) Q st := by
  rw [bind]
  unfold parseStreaming
  cases g with
  | no g hno =>
    obtain ⟨a, r, rfl, ha⟩ := typeNameG_head g
    refine skipD e fun st' e' => ?_
    simp only
    rw [if_neg (noKw_tok hno (by simp)), if_pos ha]
    exact (parseTypeName_det fuel terms).bind g e' hF k
  | yes hk g =>
    refine skipD e fun st' e' => ?_
    simp only
    rw [if_pos hk]
    refine bump e' ?_
    exact (parseTypeName_det fuel terms).bind g rfl hF k

section
variable [FloatFmt] {ts : List ATok}

theorem methodOptionStep_det (fuel : Nat) : StepDet (methodOptionStep fuel) MethodElem where
  elem := by
    intro t s s' r st K h e hl hK
    unfold methodOptionStep
    cases h with
    | option g =>
      obtain ⟨a, us, rfl, ha⟩ := optionG_head g
      refine peekD e fun st' e' hl' => ?_
      simp only
      rw [if_pos ha]
      exact (parseOption_det fuel).elem g hl e (e'.trans e.symm) hl' hK
    | empty ha =>
      refine peekD e fun st' e' hl' => ?_
      simp only
      rw [if_neg (by rw [ha]; simp), if_neg (by rw [ha]; simp), if_pos ha]
      exact bump e' (hK _ rfl rfl)
  fin := by
    intro s z r st K hz e hK
    unfold methodOptionStep
    refine peekD e fun st' e' hl' => ?_
    simp only
    rw [if_neg (by rw [hz]; simp), if_pos hz]
    exact bump e' hK

theorem parseRpc_det (fuel : Nat) : DetL (parseRpc fuel) MethodG := by
  intro st Q u v rest hl g e hQ
  unfold parseRpc
  obtain ⟨hk, gi, hpl, gin, hpr, hret, hpl', gout, hpr', gend⟩ := g
  rename_i k is name l ins i cs r k' l' outs o ss r' es os z
  refine leadingD hl e fun st1 e1 => ?_
  refine expectD e1 ?_
  refine parseIdent_det.bind (rest := l :: (ins ++ r :: k' :: l' :: (outs ++ r' :: (es ++ rest)))) gi (by simp) trivial fun st2 e2 => ?_
  refine expectD e2 ?_
  refine stream_det fuel _ (rest := r :: k' :: l' :: (outs ++ r' :: (es ++ rest))) gin (by simp) (not_tok hpr (by simp)) fun st3 e3 => ?_
  refine expectD e3 ?_
  refine expectD rfl ?_
  refine expectD rfl ?_
  refine stream_det fuel _ (rest := r' :: (es ++ rest)) gout (by simp) (not_tok hpr' (by simp)) fun st4 e4 => ?_
  refine expectD e4 ?_
  rw [bind]
  cases gend with
  | semi hz =>
    refine skipD rfl fun st5 e5 => ?_
    simp only
    rw [if_pos hz]
    refine bump e5 ?_
    refine trailing ?_
    rw [extent_eq (a := k) (z := z) rfl (by rw [List.getLast?_append]; rfl)] at hQ
    exact hQ _ rfl rfl
  | @body ob ts os z ho gm hz =>
    refine skipD rfl fun st5 e5 => ?_
    simp only
    rw [if_neg (by rw [ho]; simp), if_pos ho]
    refine bump e5 ?_
    refine ((methodOptionStep_det fuel).loop fuel []) _ _ ts os z rest rfl gm (by simp) hz ?_
    refine trailing ?_
    rw [extent_eq (a := k) (z := z) rfl] at hQ
    · exact hQ _ rfl rfl
    · rw [List.getLast?_append, show r' :: (ob :: ts ++ [z]) = (r' :: ob :: ts) ++ [z] from rfl, List.getLast?_append]; rfl

theorem methodG_head {x} (h : MethodG ts x) : ∃ a r, ts = a :: r ∧ a.tok = kw b!"rpc" := by cases h; exact ⟨_, _, rfl, by assumption⟩
theorem serviceG_head {x} (h : ServiceG ts x) : ∃ a r, ts = a :: r ∧ a.tok = kw b!"service" := by cases h; exact ⟨_, _, rfl, by assumption⟩
omit [FloatFmt] in
theorem packageG_head {x} (h : PackageG ts x) : ∃ a r, ts = a :: r ∧ a.tok = kw b!"package" := by cases h; exact ⟨_, _, rfl, by assumption⟩
omit [FloatFmt] in
theorem importG_head {x} (h : ImportG ts x) : ∃ a r, ts = a :: r ∧ a.tok = kw b!"import" := by cases h; exact ⟨_, _, rfl, by assumption⟩
omit [FloatFmt] in
theorem syntaxG_head {s x} (h : SyntaxG ts s x) : ∃ a r, ts = a :: r ∧ a.tok = kw b!"syntax" := by cases h <;> exact ⟨_, _, rfl, by assumption⟩

theorem serviceStep_det (fuel : Nat) : StepDet (serviceStep fuel) ServiceElem where
  elem := by
    intro t s s' r st K h e hl hK
    unfold serviceStep
    cases h with
    | method g =>
      obtain ⟨a, us, rfl, ha⟩ := methodG_head g
      refine peekD e fun st' e' hl' => ?_
      simp only
      rw [if_pos ha]
      exact (parseRpc_det fuel).elem g hl e (e'.trans e.symm) hl' hK
    | option g =>
      obtain ⟨a, us, rfl, ha⟩ := optionG_head g
      refine peekD e fun st' e' hl' => ?_
      simp only
      rw [if_neg (by rw [ha]; decide), if_pos ha]
      exact (parseOption_det fuel).elem g hl e (e'.trans e.symm) hl' hK
    | empty ha =>
      refine peekD e fun st' e' hl' => ?_
      simp only
      rw [if_neg (by rw [ha]; simp), if_neg (by rw [ha]; simp), if_pos ha]
      exact bump e' (hK _ rfl rfl)
  fin := by
    intro s z r st K hz e hK
    unfold serviceStep
    refine peekD e fun st' e' hl' => ?_
    simp only
    rw [if_neg (by rw [hz]; simp), if_neg (by rw [hz]; simp), if_neg (by rw [hz]; simp), if_pos hz]
    exact bump e' hK

theorem parseService_det (fuel : Nat) : DetL (parseService fuel) ServiceG := by
  intro st Q u v rest hl g e hQ
  unfold parseService
  obtain ⟨hk, gi, ho, gm, hz⟩ := g
  rename_i k is name o ts os ms z
  refine leadingD hl e fun st1 e1 => ?_
  refine expectD e1 ?_
  refine parseIdent_det.bind (rest := o :: (ts ++ z :: rest)) gi (by simp) trivial fun st2 e2 => ?_
  refine expectD e2 ?_
  refine trailing ?_
  refine ((serviceStep_det fuel).loop fuel ([], [])).bind rfl gm rfl hz ?_
  rw [extent_eq (a := k) (z := z) rfl (by rw [List.getLast?_append]; rfl)] at hQ
  exact hQ _ rfl rfl

omit [FloatFmt] in
theorem parsePackage_det (fuel : Nat) : DetL (parsePackage fuel) PackageG := by
  intro st Q u v rest hl g e hQ
  unfold parsePackage
  obtain ⟨hk, h, hz⟩ := g
  rename_i k ts f z
  refine leadingD hl e fun st1 e1 => ?_
  refine expectD e1 ?_
  refine (parseFullIdent_det fuel _).bind (rest := z :: rest) h (by simp) (not_tok hz (by simp)) fun st2 e2 => ?_
  refine expectD e2 ?_
  refine trailing ?_
  rw [extent_ends] at hQ
  exact hQ _ rfl rfl

omit [FloatFmt] in
theorem parseImport_det (fuel : Nat) : DetL (parseImport fuel) ImportG := by
  intro st Q u v rest hl g e hQ
  unfold parseImport
  obtain ⟨hk, gk, gs, hp, hz⟩ := g
  rename_i k ks kind ts v vsp z
  refine leadingD hl e fun st1 e1 => ?_
  refine expectD e1 ?_
  rw [bind]
  rw [extent_eq (a := k) (z := z) rfl (by rw [List.getLast?_append]; rfl)] at hQ
  have tail : ∀ (st3 : AS), st3.toks = ts ++ z :: rest →
      wp (parseUtf8String fuel >>= fun x => match x with
        | (value, valueSpan) => (if Parse.isValidImport value then pure () else Prog.addError (.invalidImport valueSpan)) >>= fun _ =>
          expectEq .semicolon >>= fun stop => Prog.trailing (k.detached, k.leading) >>= fun comments =>
            pure { kind, value, valueSpan, comments, span := joinSpan k.span stop }) Q st3 := by
    intro st3 e3
    refine (parseUtf8String_det fuel).bind (v := (v, vsp)) gs e3 (not_tok hz (by simp)) fun st4 e4 => ?_
    simp only
    rw [if_pos (isValidImport_of hp)]
    show wp (expectEq .semicolon >>= _) _ _
    refine expectD e4 ?_
    refine trailing ?_
    exact hQ _ rfl rfl
  cases gk with
  | none =>
    obtain ⟨ps, hne, h1, _, _⟩ := gs.1
    cases ps with
    | nil => exact absurd rfl hne
    | cons p ps =>
      cases ts with
      | nil => cases h1
      | cons a us =>
        simp only [List.map_cons, List.cons.injEq] at h1
        refine skipD (a := a) (r := us ++ z :: rest) (by simp) fun st' e' => ?_
        simp only [h1.1]
        rw [if_neg (by simp), if_neg (by simp)]
        exact tail _ e'
  | weak h =>
    refine skipD (r := ts ++ z :: rest) (by simp; rfl) fun st' e' => ?_
    simp only
    rw [if_pos h]
    refine bump e' ?_
    exact tail _ rfl
  | publ h =>
    refine skipD (r := ts ++ z :: rest) (by simp; rfl) fun st' e' => ?_
    simp only
    rw [if_neg (by rw [h]; decide), if_pos h]
    refine bump e' ?_
    exact tail _ rfl

omit [FloatFmt] in
theorem parseSyntax_det (fuel : Nat) : DetL (parseSyntax fuel) (fun ts v => SyntaxG ts v.1 (v.2.1, v.2.2)) := by
  intro st Q u v rest hl g e hQ
  unfold parseSyntax
  obtain ⟨s, sp, cs⟩ := v
  have str : ∀ {us : List ATok} {t}, StrG us t → ∃ a l p, us = a :: l ∧ a.tok = .string p := by
    rintro us t ⟨ps, hne, h1, _, _⟩
    cases ps with
    | nil => exact absurd rfl hne
    | cons p ps =>
      cases us with
      | nil => cases h1
      | cons a us => simp only [List.map_cons, List.cons.injEq] at h1; exact ⟨a, us, p, rfl, h1.1⟩
  simp only at g
  generalize hx : (sp, cs) = x at g
  cases g with
  | @proto2 k eq ts z sp' hk he hs hz =>
    cases hx
    refine leadingD hl e fun st1 e1 => ?_
    refine expectD e1 ?_
    refine expectD rfl ?_
    obtain ⟨a, us, p, rfl, ha⟩ := str hs
    refine peekD (a := a) (r := us ++ z :: rest) (by simp) fun st2 e2 _ => ?_
    simp only [ha]
    refine (parseString_det fuel).bind (rest := z :: rest) hs e2 (not_tok hz (by simp)) fun st3 e3 => ?_
    simp only
    rw [if_pos trivial]
    refine expectD e3 ?_
    refine trailing ?_
    rw [extent_eq (a := k) (z := z) rfl (by rw [List.getLast?_append]; rfl)] at hQ
    exact hQ _ rfl rfl
  | @proto3 k eq ts z sp' hk he hs hz =>
    cases hx
    refine leadingD hl e fun st1 e1 => ?_
    refine expectD e1 ?_
    refine expectD rfl ?_
    obtain ⟨a, us, p, rfl, ha⟩ := str hs
    refine peekD (a := a) (r := us ++ z :: rest) (by simp) fun st2 e2 _ => ?_
    simp only [ha]
    refine (parseString_det fuel).bind (rest := z :: rest) hs e2 (not_tok hz (by simp)) fun st3 e3 => ?_
    simp only
    rw [if_neg (by decide), if_pos trivial]
    refine expectD e3 ?_
    refine trailing ?_
    rw [extent_eq (a := k) (z := z) rfl (by rw [List.getLast?_append]; rfl)] at hQ
    exact hQ _ rfl rfl

/-- A statement on its own. -/
theorem parseStatement_det (fuel : Nat) {st : AS} {p p' : Parts} {t r} (acc : Acc) (hp : acc.parts = p) (hl : st.lead = true)
    (g : Places.StatementG t p p') (e : st.toks = t ++ r) :
    wp (parseStatement fuel) (fun x st' => ∃ v, x = some v ∧ st'.toks = r ∧ st'.lead = true ∧ (acc.add v).1.parts = p') st := by
  have hb := parseAnyBody_det fuel fuel
  subst hp
  unfold parseStatement
  cases g with
  | empty ha =>
    refine peekD e fun st' e' hl' => ?_
    simp only
    rw [if_pos ha]
    refine bump e' ?_
    exact ⟨_, rfl, rfl, rfl, rfl⟩
  | import' g =>
    obtain ⟨a, us, rfl, ha⟩ := importG_head g
    refine peekD e fun st' e' hl' => ?_
    simp only
    rw [if_neg (by rw [ha]; simp), if_pos ha]
    exact (parseImport_det fuel).elem g hl e (e'.trans e.symm) hl' fun st2 e2 l2 => ⟨_, rfl, e2, l2, rfl⟩
  | package g hn =>
    obtain ⟨a, us, rfl, ha⟩ := packageG_head g
    refine peekD e fun st' e' hl' => ?_
    simp only
    rw [if_neg (by rw [ha]; simp), if_neg (by rw [ha]; decide), if_pos ha]
    refine (parsePackage_det fuel).elem g hl e (e'.trans e.symm) hl' fun st2 e2 l2 => ⟨_, rfl, e2, l2, ?_⟩
    have hn' : acc.package = none := hn
    simp only [Acc.add, hn']
    rfl
  | option g =>
    obtain ⟨a, us, rfl, ha⟩ := optionG_head g
    refine peekD e fun st' e' hl' => ?_
    simp only
    rw [if_neg (by rw [ha]; simp), if_neg (by rw [ha]; decide), if_neg (by rw [ha]; decide), if_pos ha]
    exact (parseOption_det fuel).elem g hl e (e'.trans e.symm) hl' fun st2 e2 l2 => ⟨_, rfl, e2, l2, rfl⟩
  | extend g =>
    obtain ⟨a, us, rfl, ha⟩ := extendG_head g
    refine peekD e fun st' e' hl' => ?_
    simp only
    rw [if_neg (by rw [ha]; simp), if_neg (by rw [ha]; decide), if_neg (by rw [ha]; decide), if_neg (by rw [ha]; decide), if_pos ha]
    exact (parseExtend_det hb fuel).elem g hl e (e'.trans e.symm) hl' fun st2 e2 l2 => ⟨_, rfl, e2, l2, rfl⟩
  | message g =>
    obtain ⟨a, us, rfl, ha⟩ := messageG_head g
    refine peekD e fun st' e' hl' => ?_
    simp only
    rw [if_neg (by rw [ha]; simp), if_neg (by rw [ha]; decide), if_neg (by rw [ha]; decide), if_neg (by rw [ha]; decide),
      if_neg (by rw [ha]; decide), if_pos ha]
    exact (parseMessage_det hb).elem g hl e (e'.trans e.symm) hl' fun st2 e2 l2 => ⟨_, rfl, e2, l2, rfl⟩
  | enum g =>
    obtain ⟨a, us, rfl, ha⟩ := enumG_head g
    refine peekD e fun st' e' hl' => ?_
    simp only
    rw [if_neg (by rw [ha]; simp), if_neg (by rw [ha]; decide), if_neg (by rw [ha]; decide), if_neg (by rw [ha]; decide),
      if_neg (by rw [ha]; decide), if_neg (by rw [ha]; decide), if_pos ha]
    exact (parseEnum_det fuel).elem g hl e (e'.trans e.symm) hl' fun st2 e2 l2 => ⟨_, rfl, e2, l2, rfl⟩
  | service g =>
    obtain ⟨a, us, rfl, ha⟩ := serviceG_head g
    refine peekD e fun st' e' hl' => ?_
    simp only
    rw [if_neg (by rw [ha]; simp), if_neg (by rw [ha]; decide), if_neg (by rw [ha]; decide), if_neg (by rw [ha]; decide),
      if_neg (by rw [ha]; decide), if_neg (by rw [ha]; decide), if_neg (by rw [ha]; decide), if_pos ha]
    exact (parseService_det fuel).elem g hl e (e'.trans e.symm) hl' fun st2 e2 l2 => ⟨_, rfl, e2, l2, rfl⟩

theorem parseStatement_end (fuel : Nat) {st : AS} (e : st.toks = []) :
    wp (parseStatement fuel) (fun x _ => x = none) st := by
  unfold parseStatement
  refine peekO (fun _ => rfl) (fun a r st' e' _ _ => ?_)
  rw [e] at e'; cases e'

theorem statementG_ne {p p' : Parts} (h : Places.StatementG ts p p') : ∃ a r, ts = a :: r ∧ a.tok ≠ kw b!"syntax" := by
  cases h with
  | empty ha => exact ⟨_, _, rfl, by rw [ha]; simp⟩
  | import' g => obtain ⟨a, us, rfl, ha⟩ := importG_head g; exact ⟨_, _, rfl, by rw [ha]; decide⟩
  | package g _ => obtain ⟨a, us, rfl, ha⟩ := packageG_head g; exact ⟨_, _, rfl, by rw [ha]; decide⟩
  | option g => obtain ⟨a, us, rfl, ha⟩ := optionG_head g; exact ⟨_, _, rfl, by rw [ha]; decide⟩
  | extend g => obtain ⟨a, us, rfl, ha⟩ := extendG_head g; exact ⟨_, _, rfl, by rw [ha]; decide⟩
  | message g => obtain ⟨a, us, rfl, ha⟩ := messageG_head g; exact ⟨_, _, rfl, by rw [ha]; decide⟩
  | enum g => obtain ⟨a, us, rfl, ha⟩ := enumG_head g; exact ⟨_, _, rfl, by rw [ha]; decide⟩
  | service g => obtain ⟨a, us, rfl, ha⟩ := serviceG_head g; exact ⟨_, _, rfl, by rw [ha]; decide⟩

/-- The statement loop collects the parts of the statements. -/
theorem fileLoop_det (fuel : Nat) : ∀ (n : Nat) {s s' : PState} {st : AS} {acc acc' : Acc} {p : Parts},
    R s st → st.lead = true → Many Places.StatementG st.toks acc.parts p →
    P.fileLoop fuel n acc s = (.ok acc', s') → s'.errs = [] → acc'.parts = p := by
  intro n
  induction n with
  | zero => intro s s' st acc acc' p _ _ _ h; cases h
  | succ n ih =>
    intro s s' st acc acc' p h hl hm hr he
    unfold P.fileLoop at hr
    have noErr : ∀ {s1 : PState} {acc1}, P.fileLoop fuel n acc1 s1 = (.ok acc', s') → s1.errs = [] := by
      intro s1 acc1 h1
      cases hs : s1.errs with
      | nil => rfl
      | cons e l =>
        have := stable_errs.fileLoop fuel n acc1 s1 (by simp [hs])
        rw [h1] at this
        exact absurd he this
    generalize hT : st.toks = T at hm
    have key : wp (parseStatement fuel) (fun x st' => (x = none → acc.parts = p) ∧ ∀ v, x = some v →
        st'.lead = true ∧ Many Places.StatementG st'.toks (acc.add v).1.parts p) st := by
      cases hm with
      | nil => exact wp_mono _ (fun x st' hx => ⟨fun _ => rfl, fun v hv => by rw [hx] at hv; cases hv⟩) (parseStatement_end fuel hT)
      | cons g1 g2 =>
        refine wp_mono _ ?_ (parseStatement_det fuel acc rfl hl g1 hT)
        rintro x st' ⟨v, rfl, e1, l1, hp⟩
        refine ⟨nofun, fun w hw => ?_⟩
        cases hw
        exact ⟨l1, by rw [e1, hp]; exact g2⟩
    split at hr
    · rename_i v s1 h1
      split at hr
      · rename_i acc1 h2
        obtain ⟨st1, hR1, _, k⟩ := run_sound _ h key h1 (noErr hr)
        obtain ⟨l1, m1⟩ := k v rfl
        rw [h2] at m1
        exact ih hR1 l1 m1 hr he
      · have := noErr hr
        simp at this
    · rename_i s1 h1
      cases hr
      obtain ⟨st1, _, k, _⟩ := run_sound _ h key h1 he
      exact k rfl
    · rename_i s1 h1
      split at hr
      · cases hr
      · rename_i hne
        split at hr
        · rename_i s2 h2
          have := stable_errs.skipUntil (s1.rest.length + 3) s1 hne
          rw [h2] at this
          exact absurd (noErr hr) this
        · cases hr
        · cases hr
        · cases hr
    · cases hr
    · cases hr

/-- What a successful run returns is the only tree of the source. -/
theorem parseFile_unique {src : Bytes} {f f' : File} (h : parseFile src = .ok (.ok f)) (h' : PlacedTree src f') : f = f' := by
  have hspan : f.span = f'.span := by
    have h1 := (parseFile_places h).2
    have h2 := h'.2
    have : ∀ {g : File} {len ts}, Places.FileG len ts g → g.span = fileSpan len ts := by
      intro g len ts hg; cases hg <;> rfl
    rw [this h1, this h2]
  obtain ⟨_, hg⟩ := h'
  unfold parseFile at h
  split at h
  · rename_i ast s he
    split at h
    · rename_i hes
      cases h
      unfold P.parseFile at he
      obtain ⟨⟨syn, synSpan, span⟩, s1, hh, he⟩ := bind_ok he
      simp only at he
      obtain ⟨acc, s2, hl, he⟩ := bind_ok he
      cases he
      have hes1 : s1.errs = [] := by
        cases hs : s1.errs with
        | nil => rfl
        | cons e l =>
          have := stable_errs.fileLoop (src.length + 3) (src.length + 3) { span } s1 (by simp [hs])
          rw [hl] at this
          exact absurd hes this
      have key : ∃ p, f'.package = p.package ∧ f'.imports = p.imports ∧ f'.options = p.options ∧ f'.items = p.items ∧
          wp (parseHeader (src.length + 3) src.length) (fun r st' => r.1 = f'.syntax' ∧ r.2.1 = f'.syntaxSpan ∧ st'.lead = true ∧
            Many Places.StatementG st'.toks {} p) ⟨annotated src, .fresh, none⟩ := by
        unfold parseHeader
        generalize hT : annotated src = T at hg
        cases hg with
        | @noSyntax ts p hm hno =>
          refine ⟨p, rfl, rfl, rfl, rfl, ?_⟩
          refine peekO (fun e => ?_) (fun a r st' e e' hl' => ?_)
          · refine ⟨rfl, rfl, look_lead.trans rfl, ?_⟩
            simpa using hm
          · simp only at e ⊢
            rw [if_neg (noKw_tok (r := r) (by rw [← e]; exact hno) (by simp))]
            refine ⟨rfl, rfl, hl'.trans rfl, ?_⟩
            rw [e', ← e]; exact hm
        | @withSyntax ss syn' ssp ts p g hm =>
          refine ⟨p, rfl, rfl, rfl, rfl, ?_⟩
          obtain ⟨a, us, rfl, ha⟩ := syntaxG_head g
          refine peekD rfl fun st' e' hl' => ?_
          simp only
          rw [if_pos ha]
          obtain ⟨sp, cs⟩ := ssp
          refine (parseSyntax_det _).elem (v := (syn', sp, cs)) (st := ⟨a :: us ++ ts, .fresh, none⟩) g rfl rfl e' hl' fun st2 e2 l2 => ?_
          exact ⟨rfl, rfl, l2, by rw [e2]; exact hm⟩
      obtain ⟨p, hp1, hp2, hp3, hp4, hw⟩ := key
      obtain ⟨st1, hR, k1, k2, k3, k4⟩ := run_sound _ (init_R src) hw hh hes1
      have := fileLoop_det _ _ (acc := { span }) hR k3 k4 hl hes
      subst this
      simp only at k1 k2
      cases f'
      simp only at hspan hp1 hp2 hp3 hp4 k1 k2
      subst hspan hp1 hp2 hp3 hp4 k1 k2
      rfl
    · cases h
  · cases h
  · cases h
  · cases h

end
end Verif.Pos
