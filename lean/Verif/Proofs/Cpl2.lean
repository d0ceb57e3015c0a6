import Verif.Proofs.Cpl1
/-! Completeness of the grammar methods: separated lists, names, options. -/
namespace Verif.Parse
open Lex Verif.Ast Verif.Grammar

section bindForms
variable {α β : Type} {Q : β → TS → Prop} {t : Token} {r : List Token} {pk e : Bool}

theorem peek_b {f : Option STok → Prog β} (h : ∀ sp, wpc (f (some (t, sp))) Q (At' (t :: r) true e)) :
    wpc (Prog.peek >>= f) Q (At' (t :: r) pk e) := by rw [wpc_bind, wpc_peek]; exact h

theorem skip_b {f : Option STok → Prog β} (h : ∀ sp, wpc (f (some (t, sp))) Q (At' (t :: r) true e)) :
    wpc (Prog.peekSkip >>= f) Q (At' (t :: r) pk e) := by rw [wpc_bind, wpc_peekSkip]; exact h

theorem bump_b {f : Span → Prog β} (ht : t.isTrivia = false) (h1 : t ≠ .equals) (h2 : t ≠ .leftBrace ∨ e = false)
    (h : ∀ sp, wpc (f sp) Q (At' r false false)) : wpc (Prog.bump >>= f) Q (At' (t :: r) true e) := by
  rw [wpc_bind, wpc_bump h2 ht]; simpa [h1] using h

theorem bumpEquals_b {f : Span → Prog β} (h : ∀ sp, wpc (f sp) Q (At' r false true)) :
    wpc (Prog.bump >>= f) Q (At' (.equals :: r) true e) := by
  rw [wpc_bind, wpc_bump (by simp) rfl]; exact h

theorem expect_b {f : Span → Prog β} (ht : t.isTrivia = false) (h1 : t ≠ .equals) (h2 : t ≠ .leftBrace ∨ e = false)
    (h : ∀ sp, wpc (f sp) Q (At' r false false)) : wpc (expectEq t >>= f) Q (At' (t :: r) pk e) := by
  rw [wpc_bind, wpc_expectEq h2 ht]; simpa [h1] using h

theorem equals_b {f : Span → Prog β} (h : ∀ sp, wpc (f sp) Q (At' r false true)) :
    wpc (expectEq .equals >>= f) Q (At' (.equals :: r) pk e) := by
  rw [wpc_bind, wpc_expectEq (by simp) rfl]; exact h

theorem leading_b {f : List Bytes × Option Bytes → Prog β} {ts} (h : ∀ c, wpc (f c) Q (At' ts (!ts.isEmpty) e)) :
    wpc (Prog.leading >>= f) Q (At' ts pk e) := by rw [wpc_bind, wpc_leading]; exact h

theorem trailing_b {f : Comments → Prog β} {ts l} (h : ∀ c, wpc (f c) Q (At' ts (!ts.isEmpty) e)) :
    wpc (Prog.trailing l >>= f) Q (At' ts pk e) := by rw [wpc_bind, wpc_trailing]; exact h

theorem pure_b {a : α} {f : α → Prog β} {st : TS} (h : wpc (f a) Q st) : wpc (pure a >>= f) Q st := by
  rw [wpc_bind, wpc_pure]; exact h

theorem Cpl.use [Erase α] {n : Nat} {p : Prog α} {G F} (h : Cpl n e p G F) {f : α → Prog β} {ts rest : List Token} {v : α}
    (hn : (ts ++ rest).length ≤ n) (hG : G ts v) (hF : F rest)
    (hQ : ∀ v' pk', er v' = er v → wpc (f v') Q (At' rest pk' false)) : wpc (p >>= f) Q (At' (ts ++ rest) pk e) := by
  rw [wpc_bind]; exact h ts v rest pk _ hn hG hF hQ

theorem ident_b {f : Ident → Prog β} {i : Ident} {is : List Token} (hi : IdentG is i)
    (h : ∀ i', er i' = er i → wpc (f i') Q (At' r false false)) : wpc (parseIdent >>= f) Q (At' (is ++ r) pk e) := by
  cases hi
  rw [wpc_bind]
  exact wpc_parseIdent fun sp => h _ rfl

end bindForms

/-! ## Separated lists -/

/-- An element of a separated list after the first one. -/
def SepElem {α : Type} (sep : Token) (item : List Token → α → Prop) (ts : List Token) (s s' : List α) : Prop :=
  ∃ t a, ts = sep :: t ∧ item t a ∧ s' = s ++ [a]

theorem sepBy_split {α : Type} {sep : Token} {item : List Token → α → Prop} {ts : List Token} {as : List α} (h : SepBy sep item ts as) :
    ∃ t a us as', ts = t ++ us ∧ as = a :: as' ∧ item t a ∧ ∀ s, Many (SepElem sep item) us s (s ++ as') := by
  induction h with
  | one h => exact ⟨_, _, [], [], by simp, rfl, h, fun s => by simpa using Many.nil⟩
  | @cons t a ts as h _ ih =>
    obtain ⟨t2, a2, us, as', rfl, rfl, h2, h3⟩ := ih
    refine ⟨t, a, sep :: (t2 ++ us), a2 :: as', rfl, rfl, h, fun s => ?_⟩
    have := Many.cons (elem := SepElem sep item) (t := sep :: t2) (s := s) ⟨t2, a2, rfl, h2, rfl⟩ (h3 (s ++ [a2]))
    simpa using this

theorem er_append {α : Type} [Erase α] (l l' : List α) : er (l ++ l') = er l ++ er l' := by simp [er]
theorem er_nil {α : Type} [Erase α] : er ([] : List α) = [] := rfl
theorem er_cons {α : Type} [Erase α] (a : α) (l : List α) : er (a :: l) = er a :: er l := by simp [er]
theorem er_snoc {α : Type} [Erase α] {l l' : List α} {a a' : α} (h : er l = er l') (h2 : er a = er a') :
    er (l ++ [a]) = er (l' ++ [a']) := by
  rw [er_append, er_append, h, er_cons, er_cons, h2]
theorem er_pair {α β : Type} [Erase α] [Erase β] {x y : α × β} (h : er x.1 = er y.1) (h2 : er x.2 = er y.2) : er x = er y := by
  show (er x.1, er x.2) = (er y.1, er y.2)
  rw [h, h2]
theorem er_fst {α β : Type} [Erase α] [Erase β] {x y : α × β} (h : er x = er y) : er x.1 = er y.1 := congrArg Prod.fst h
theorem er_snd {α β : Type} [Erase α] [Erase β] {x y : α × β} (h : er x = er y) : er x.2 = er y.2 := congrArg Prod.snd h

/-- A loop over a separated list whose items start with `sep`. -/
theorem sep_loop {α β : Type} [Erase α] {sep : Token} {item : List Token → α → Prop} {step : List α → Prog (Step (List α) β)}
    {F : List Token → Prop} {Q : β → TS → Prop} {n fuel : Nat} (hsep : ∀ ts, F (sep :: ts))
    (hstep : ∀ (t : List Token) (a : α) (s : List α) (rest : List Token) (pk : Bool) (R : Step (List α) β → TS → Prop), item t a →
      (sep :: t ++ rest).length ≤ n → F rest → (∀ a' pk', er a' = er a → R (.next (s ++ [a'])) (At' rest pk' false)) →
      wpc (step s) R (At' (sep :: t ++ rest) pk false))
    {us rest : List Token} {s s1 s' : List α} (hm : Many (SepElem sep item) us s s') (hs : er s1 = er s) (pk : Bool)
    (hn : (us ++ rest).length ≤ n) (hf : n < fuel) (hF : F rest)
    (hfin : ∀ s2 pk, er s2 = er s' → wpc (step s2) (DoneQ Q) (At' rest pk false)) :
    wpc (loopM step fuel s1) Q (At' (us ++ rest) pk false) := by
  refine loop_cpl (F := F) (n := n) ?_ ?_ ?_ hF us s s' hm s1 pk fuel hs hn ?_ hfin
  · rintro t s s' s1 rest pk R ⟨t, a, rfl, h, rfl⟩ he hl hF hR
    exact hstep t a s1 rest pk R h hl hF fun a' pk' ha => hR _ _ (er_snoc he ha)
  · rintro t s s' ⟨t, a, rfl, h, rfl⟩; simp
  · rintro t s s' rest ⟨t, a, rfl, h, rfl⟩ _; exact hsep _
  · rw [List.length_append] at hn; omega

theorem By.head {cs rest} (h : By cs rest) : ∃ c r, rest = c :: r ∧ c ∈ cs := by
  obtain ⟨c, hc, h⟩ := h
  cases rest with
  | nil => cases h
  | cons a r => cases h; exact ⟨_, _, rfl, hc⟩

theorem By.mk {cs c r} (h : c ∈ cs) : By cs (c :: r) := ⟨c, h, rfl⟩

/-- Followed by one of the expected tokens. -/
def ByE (terms : List Expected) (rest : List Token) : Prop := ∃ c r, rest = c :: r ∧ c ≠ .dot ∧ terms.any (·.matches c) = true

section
variable {n fuel : Nat} {e : Bool}

theorem parseFullIdent_cpl {terms : List Expected} (hf : n < fuel) : Cpl n e (parseFullIdent fuel terms) FullIdentG (ByE terms) := by
  intro ts v rest pk Q hn hg hF hQ
  obtain ⟨t, a, us, as, rfl, ha, h1, h2⟩ := sepBy_split hg
  unfold parseFullIdent
  rw [List.append_assoc] at hn ⊢
  refine ident_b h1 fun i hi => ?_
  refine sep_loop (F := fun r => ∃ c r', r = c :: r' ∧ (c = .dot ∨ terms.any (·.matches c) = true)) (fun _ => ⟨_, _, rfl, .inl rfl⟩) ?_
    (h2 [a]) (by rw [er_cons, er_cons, hi]) false (n := n) (by rw [List.length_append] at hn; omega) hf ?_ ?_
  · intro t a s rest pk R h hl hF hR
    unfold fullIdentStep
    refine skip_b fun sp => ?_
    dsimp only
    rw [if_pos rfl]
    refine bump_b rfl (by simp) (by simp) fun _ => ?_
    exact ident_b h fun i hi => hR _ _ hi
  · obtain ⟨c, r, rfl, h1, h2⟩ := hF
    exact ⟨c, r, rfl, .inr h2⟩
  · intro s2 pk hs
    obtain ⟨c, r, rfl, h1, h2⟩ := hF
    unfold fullIdentStep
    refine skip_b fun sp => ?_
    dsimp only
    rw [if_neg h1, if_pos h2, wpc_pure]
    refine hQ _ _ ?_
    cases v
    simp only at ha
    subst ha
    show FullIdent.mk (er s2) = FullIdent.mk (er (a :: as))
    rw [hs]; rfl

theorem parseTypeName_cpl {terms : List Expected} (hf : n < fuel) : Cpl n e (parseTypeName fuel terms) TypeNameG (ByE terms) := by
  intro ts v rest pk Q hn hg hF hQ
  unfold parseTypeName
  rw [wpc_bind]
  cases hg with
  | @relative ts f h =>
    have h0 := h
    obtain ⟨t, a, us, as, rfl, ha, h1, h2⟩ := sepBy_split h
    cases h1
    rw [List.append_assoc, List.singleton_append]
    refine peek_b fun sp => ?_
    simp only [reduceCtorEq, if_false, Token.startsType, if_true]
    rw [wpc_pure]
    have := parseFullIdent_cpl (e := e) (terms := terms) hf _ _ rest true (fun a st => wpc (pure (Ast.TypeName.mk none a)) Q st) hn h0 hF
      (fun v' pk' hv => hQ ⟨none, v'⟩ pk' (by simp only [er] at hv ⊢; simp [hv]))
    rw [wpc_bind]
    simpa using this
  | @absolute ts f sp0 h =>
    rw [List.cons_append] at hn ⊢
    refine peek_b fun sp => ?_
    dsimp only
    rw [if_pos rfl]
    refine bump_b rfl (by simp) (by simp) fun _ => ?_
    refine (parseFullIdent_cpl hf).use (by simp at hn ⊢; omega) h hF fun v' pk' hv => ?_
    exact hQ ⟨some sp, v'⟩ pk' (by simp only [er] at hv ⊢; simp [hv])

theorem parseOptionNamePart_cpl (hf : n < fuel) : Cpl n e (parseOptionNamePart fuel) NamePartG Any := by
  intro ts v rest pk Q hn hg hF hQ
  unfold parseOptionNamePart
  cases hg with
  | @ident ts i h =>
    cases h
    refine peek_b fun sp => ?_
    simp only [reduceCtorEq, if_false]
    refine ident_b (is := [.ident i.value]) (i := i) rfl fun i' hi => ?_
    exact hQ (.ident i') _ (congrArg OptionNamePart.ident hi)
  | @ext ts t sp0 h =>
    simp only [List.cons_append, List.append_assoc, List.singleton_append] at hn ⊢
    refine peek_b fun sp => ?_
    dsimp only
    rw [if_pos rfl]
    refine bump_b rfl (by simp) (by simp) fun _ => ?_
    refine (parseTypeName_cpl hf).use (by simp at hn ⊢; omega) h ⟨_, _, rfl, by simp, by decide⟩ fun v' pk' hv => ?_
    refine expect_b rfl (by simp) (by simp) fun sp2 => ?_
    exact hQ (.extension v' _) _ (by show OptionNamePart.extension (er v') _ = .extension (er t) _; rw [hv]; rfl)

theorem noStr_cons {t : Token} {r : List Token} (h : ∀ v, t ≠ .string v) : NoStr (t :: r) := by
  intro v hv
  simp only [List.head?_cons, Option.some.injEq] at hv
  exact h v hv

/-! ## Aggregate values -/

variable [FloatFmt]

/-- Lexing in the text format, inside of an aggregate value. -/
abbrev In (ts : List Token) (pk : Bool) (d : Nat) : TS := ⟨ts, pk, true, .agg d⟩

theorem step_agg {d : Nat} {t : Token} (h : ¬ (t = .rightBrace ∧ d = 0)) :
    Mode.step (.agg d) t = .agg (if t = .leftBrace then d + 1 else if t = .rightBrace then d - 1 else d) := by
  cases t <;> first | rfl | (cases d <;> first | rfl | simp at h)

theorem textFormat_loop {Q : Bytes → TS → Prop} {rest : List Token} : ∀ (ts : List Token) (d : Nat) (text : Bytes) (fuel : Nat) (pk : Bool),
    balanced d ts = true → ts.length < fuel →
    Q (ts.foldl (fun text t => (if text = [] then text else text ++ [32]) ++ t.display) text) (In (.rightBrace :: rest) true 0) →
    wpc (loopM textFormatStep fuel (text, d)) Q (In (ts ++ .rightBrace :: rest) pk d) := by
  intro ts
  induction ts with
  | nil =>
    intro d text fuel pk hb hf hQ
    cases fuel with
    | zero => omega
    | succ k =>
      have : d = 0 := by simpa [balanced] using hb
      subst this
      unfold loopM textFormatStep
      rw [wpc_bind, wpc_bind]
      refine ⟨.inr rfl, fun sp => ?_⟩
      change wpc (if Token.rightBrace = .rightBrace ∧ 0 = 0 then _ else _) _ _
      rw [if_pos ⟨rfl, rfl⟩]
      exact hQ
  | cons t ts ih =>
    intro d text fuel pk hb hf hQ
    cases fuel with
    | zero => omega
    | succ k =>
      have h0 : ¬ (t = .rightBrace ∧ d = 0) := by
        rintro ⟨rfl, rfl⟩; simp [balanced] at hb
      have hb' : balanced (if t = .leftBrace then d + 1 else if t = .rightBrace then d - 1 else d) ts = true := by
        cases t <;> first | exact hb | (cases d <;> first | exact hb | simp at h0)
      unfold loopM textFormatStep
      rw [wpc_bind, wpc_bind]
      refine ⟨.inr rfl, fun sp => ?_⟩
      simp only [List.cons_append, List.head?_cons, Option.map_some, TS.look, List.isEmpty_cons, Bool.not_false]
      change wpc (if t = .rightBrace ∧ d = 0 then _ else _) _ _
      rw [if_neg h0]
      refine ⟨rfl, fun sp => ?_⟩
      rw [step_agg h0]
      refine ih _ _ k false hb' (by simp at hf; omega) ?_
      exact hQ

theorem er_int {v v' : Int'} : er v' = er v ↔ v'.negative = v.negative ∧ v'.value = v.value := by
  cases v; cases v'; simp [er]

theorem parseOptionValue_cpl (hf : n < fuel) : Cpl n true (parseOptionValue fuel) ValueG NoStr := by
  intro ts v rest pk Q hn hg hF hQ
  unfold parseOptionValue
  cases hg with
  | @ident ts i sp0 h =>
    cases h
    refine skip_b fun sp => ?_
    refine ident_b (is := [.ident i.value]) (i := i) rfl fun i' hi => ?_
    exact hQ (.ident false i' _) _ (by show OptionValue.ident false (er i') _ = .ident false (er i) _; rw [hi]; rfl)
  | @negIdent ts i sp0 h =>
    cases h
    refine skip_b fun sp => ?_
    refine bump_b rfl (by simp) (by simp) fun _ => ?_
    refine skip_b fun sp2 => ?_
    refine ident_b (is := [.ident i.value]) (i := i) rfl fun i' hi => ?_
    exact hQ (.ident true i' _) _ (by show OptionValue.ident true (er i') _ = .ident true (er i) _; rw [hi]; rfl)
  | @int ts i h =>
    cases h with
    | pos =>
      refine skip_b fun sp => ?_
      refine bump_b rfl (by simp) (by simp) fun _ => ?_
      exact hQ (.int _) _ rfl
    | neg =>
      refine skip_b fun sp => ?_
      refine bump_b rfl (by simp) (by simp) fun _ => ?_
      refine skip_b fun sp2 => ?_
      refine bump_b rfl (by simp) (by simp) fun _ => ?_
      exact hQ (.int _) _ rfl
  | @float t sp0 =>
    refine skip_b fun sp => ?_
    refine bump_b rfl (by simp) (by simp) fun _ => ?_
    exact hQ (.float _) _ rfl
  | @negFloat t sp0 =>
    refine skip_b fun sp => ?_
    refine bump_b rfl (by simp) (by simp) fun _ => ?_
    refine skip_b fun sp2 => ?_
    refine bump_b rfl (by simp) (by simp) fun _ => ?_
    exact hQ (.float _) _ rfl
  | @string ts s h =>
    have h0 := h
    obtain ⟨ps, hne, rfl, hv⟩ := h
    cases ps with
    | nil => exact absurd rfl hne
    | cons p ps =>
      rw [List.map_cons, List.cons_append]
      refine skip_b fun sp => ?_
      refine (parseString_cpl hf).use hn h0 hF fun v' pk' hv => ?_
      exact hQ (.string v') _ (congrArg OptionValue.string hv)
  | @aggregate ts sp0 h =>
    simp only [List.cons_append, List.append_assoc, List.singleton_append] at hn ⊢
    refine skip_b fun sp => ?_
    dsimp only
    rw [wpc_bind, Prog.bump]
    refine ⟨rfl, fun _ => ?_⟩
    simp only [List.nil_append]
    show wpc (parseTextFormat fuel >>= _) _ ⟨_, false, false, .agg 0⟩
    unfold parseTextFormat
    rw [wpc_bind, wpc_bind]
    refine ⟨rfl, ?_⟩
    show wpc (Prog.setTextMode true >>= _) _ _
    rw [wpc_bind]
    refine ⟨rfl, ?_⟩
    show wpc (loopM textFormatStep fuel ([], 0) >>= _) _ (In _ _ 0)
    rw [wpc_bind]
    refine textFormat_loop ts 0 [] fuel false h (by simp at hn; omega) ?_
    rw [wpc_bind]
    refine ⟨rfl, ?_⟩
    show wpc (expectEq .rightBrace >>= _) _ _
    rw [wpc_bind, expectEq, wpc_bind]
    refine ⟨.inl rfl, fun sp => ?_⟩
    show wpc (if Token.rightBrace = .rightBrace then Prog.bump else unexpected (.oneOf [.token .rightBrace])) _ _
    rw [if_pos rfl]
    refine ⟨rfl, fun sp => ?_⟩
    exact hQ (.aggregate (aggText ts) _) false rfl

theorem er_optionBody {a b : OptionBody} (h : er a.name = er b.name) (h2 : er a.value = er b.value) : er a = er b := by
  show OptionBody.mk _ _ = OptionBody.mk _ _
  rw [h, h2]

theorem parseOptionBody_cpl (hf : n < fuel) : Cpl n e (parseOptionBody fuel) OptionBodyG NoStr := by
  intro ts v rest pk Q hn hg hF hQ
  unfold parseOptionBody
  obtain ⟨h1, h2⟩ := hg
  rename_i ns name vs value
  obtain ⟨t, a, us, as, rfl, rfl, h3, h4⟩ := sepBy_split h1
  simp only [List.cons_append, List.append_assoc, List.singleton_append] at hn ⊢
  refine (parseOptionNamePart_cpl hf).use hn h3 trivial fun v' pk' hv => ?_
  rw [wpc_bind]
  refine sep_loop (F := fun _ => True) (fun _ => trivial) ?_ (h4 [a]) (by rw [er_cons, er_cons, hv]) pk' (n := n)
    (by simp only [List.length_append, List.length_cons] at hn ⊢; omega) hf trivial ?_
  · intro t a s rest pk R h hl _ hR
    unfold optionNameStep
    rw [List.cons_append] at hl ⊢
    refine skip_b fun sp => ?_
    dsimp only
    rw [if_pos rfl]
    refine bump_b rfl (by simp) (by simp) fun _ => ?_
    refine (parseOptionNamePart_cpl hf).use (by simp at hl ⊢; omega) h trivial fun v' pk' hv => ?_
    exact hR _ _ hv
  · intro s2 pk hs
    unfold optionNameStep
    refine skip_b fun sp => ?_
    simp only [reduceCtorEq, if_false, if_true]
    refine bumpEquals_b fun _ => ?_
    show wpc (parseOptionValue fuel >>= _) _ _
    refine (parseOptionValue_cpl hf).use (by simp at hn ⊢; omega) h2 hF fun v' pk' hv => ?_
    exact hQ _ _ (er_optionBody hs hv)

theorem parseOption_cpl (hf : n < fuel) : Cpl n false (parseOption fuel) OptionG Any := by
  intro ts v rest pk Q hn hg hF hQ
  obtain ⟨h⟩ := hg
  unfold parseOption
  simp only [List.cons_append, List.append_assoc, List.singleton_append] at hn ⊢
  refine leading_b fun c => ?_
  refine expect_b rfl (by simp) (by simp) fun sp => ?_
  refine (parseOptionBody_cpl hf).use (by simp at hn ⊢; omega) h (noStr_cons (by simp)) fun v' pk' hv => ?_
  refine expect_b rfl (by simp) (by simp) fun sp => ?_
  refine trailing_b fun c => ?_
  refine hQ _ _ ?_
  show Opt.mk _ _ _ = Opt.mk _ _ _
  rw [hv]; rfl

theorem parseOptOptions_cpl {t : Token} (hf : n < fuel) (ht : t ≠ .leftBracket) :
    Cpl n false (parseOptOptions fuel t) OptListG (By [t]) := by
  intro ts v rest pk Q hn hg hF hQ
  obtain ⟨c, r, rfl, hc⟩ := hF.head
  simp only [List.mem_singleton] at hc
  subst hc
  unfold parseOptOptions
  cases hg with
  | none =>
    refine skip_b fun sp => ?_
    dsimp only
    rw [if_neg ht, if_pos rfl]
    exact hQ _ _ rfl
  | @some ts os sp0 h =>
    obtain ⟨t, a, us, as, rfl, rfl, h3, h4⟩ := sepBy_split h
    simp only [List.cons_append, List.append_assoc, List.singleton_append] at hn ⊢
    refine skip_b fun sp => ?_
    dsimp only
    rw [if_pos rfl, wpc_bind]
    unfold parseOptionsList
    refine expect_b rfl (by simp) (by simp) fun sp => ?_
    refine (parseOptionBody_cpl hf).use (by simp at hn ⊢; omega) h3 ?_ fun v' pk' hv => ?_
    · have := h4 []
      generalize [] ++ as = x at this
      generalize ([] : List OptionBody) = y at this
      cases this with
      | nil => exact noStr_cons (by simp)
      | cons h _ => obtain ⟨_, _, rfl, _⟩ := h; exact noStr_cons (by simp)
    rw [wpc_bind]
    refine sep_loop (F := NoStr) (fun _ => noStr_cons (by simp)) ?_ (h4 [a]) (by rw [er_cons, er_cons, hv]) pk' (n := n)
      (by simp only [List.length_append, List.length_cons] at hn ⊢; omega) hf (noStr_cons (by simp)) ?_
    · intro t a s rest pk R h hl hF hR
      unfold optionsListStep
      rw [List.cons_append] at hl ⊢
      refine skip_b fun sp => ?_
      dsimp only
      rw [if_pos rfl]
      refine bump_b rfl (by simp) (by simp) fun _ => ?_
      refine (parseOptionBody_cpl hf).use (by simp at hl ⊢; omega) h hF fun v' pk' hv => ?_
      exact hR _ _ hv
    · intro s2 pk hs
      unfold optionsListStep
      refine skip_b fun sp => ?_
      simp only [reduceCtorEq, if_false, if_true]
      refine bump_b rfl (by simp) (by simp) fun _ => ?_
      refine hQ _ _ ?_
      show some (OptionList.mk (er s2) _) = some (OptionList.mk (er (a :: as)) _)
      rw [hs]; rfl

end
end Verif.Parse
