import Verif.Spec.Advice
import Verif.Model.Message
import Verif.Props.Failing
import Verif.Props.Resolver
import Verif.Props.Path
/-!
C76: what the error about a shadowed file says is the case, and when its advice helps.
-/
namespace Verif
open Verif.Spec
open Compiler PureResolver

theorem calls_iff (i p n : Bytes) : Path.Calls i p n ↔ Path.includeResolve i p = some n :=
  (Path.C19_resolve_path_iff i p n).symm

theorem resolve_iff (parse : ParseFn) (fs : Bytes → FsEntry) (text : Bytes → Bytes) (includes : List Bytes) (p n : Bytes) :
    (defaultResolver parse fs text includes).resolvePath p = some n ↔
    ∃ pre j post, includes = pre ++ j :: post ∧ (∀ i ∈ pre, ∀ m, ¬ Path.Calls i p m) ∧ Path.Calls j p n := by
  rw [C18_resolve, List.findSome?_eq_some_iff]
  constructor
  · rintro ⟨pre, j, post, rfl, hj, hpre⟩
    refine ⟨pre, j, post, rfl, fun i hi m hm => ?_, (calls_iff _ _ _).2 hj⟩
    have := hpre i hi
    rw [(calls_iff _ _ _).1 hm] at this
    cases this
  · rintro ⟨pre, j, post, rfl, hpre, hj⟩
    refine ⟨pre, j, post, rfl, (calls_iff _ _ _).1 hj, fun i hi => ?_⟩
    cases h : Path.includeResolve i p with
    | none => rfl
    | some m => exact absurd ((calls_iff _ _ _).2 h) (hpre i hi m)

theorem FoundAt.path_eq {parse : ParseFn} {fs : Bytes → FsEntry} {n s : Bytes} {f : File}
    (h : FoundAt parse fs n s (.ok f)) : f.path = some s := by
  cases h; rfl

theorem FoundAt.not_says {parse : ParseFn} {fs : Bytes → FsEntry} {n s : Bytes} {r}
    (h : FoundAt parse fs n s r) : ¬ SaysNotFound fs s := by
  intro hs
  cases hs with
  | atOpen h1 => cases h <;> simp_all
  | atRead hk h1 =>
    cases h <;> simp_all
    omega

theorem opened_iff (parse : ParseFn) (fs : Bytes → FsEntry) (text : Bytes → Bytes) (includes : List Bytes) (n s : Bytes) :
    (∃ f, (defaultResolver parse fs text includes).openFile n = .ok f ∧ f.path = some s) ↔
    ∃ pre i post f, includes = pre ++ i :: post ∧ (∀ i ∈ pre, SaysNotFound fs (Path.includeTarget i n)) ∧
      FoundAt parse fs n s (.ok f) ∧ s = Path.includeTarget i n := by
  constructor
  · rintro ⟨f, h, hp⟩
    have ho := opens_default parse fs text includes n
    rw [h] at ho
    cases ho with
    | included he hpre hf =>
      have := hf.path_eq
      rw [hp] at this
      cases this
      exact ⟨_, _, _, f, he, hpre, hf, rfl⟩
    | bundled => cases hp
  · rintro ⟨pre, i, post, f, he, hpre, hf, rfl⟩
    refine ⟨f, ?_, hf.path_eq⟩
    exact (opens_default parse fs text includes n).unique (.included he hpre hf)

/-- The resolver's view of `ShadowedBy`. -/
theorem shadowedBy_iff (parse : ParseFn) (fs : Bytes → FsEntry) (text : Bytes → Bytes) (includes : List Bytes) (p n s : Bytes) :
    (∃ k, ShadowedBy parse fs includes p n s k) ↔
    (defaultResolver parse fs text includes).resolvePath p = some n ∧
    (∃ f, (defaultResolver parse fs text includes).openFile n = .ok f ∧ f.path = some s) ∧ ¬ Path.Same s p := by
  rw [resolve_iff, opened_iff]
  constructor
  · rintro ⟨k, h1, ⟨pre, i, post, f, h2, h3, h4, h5, -⟩, h6⟩
    exact ⟨h1, ⟨pre, i, post, f, h2, h3, h4, h5⟩, h6⟩
  · rintro ⟨h1, ⟨pre, i, post, f, h2, h3, h4, h5⟩, h6⟩
    exact ⟨pre.length, h1, ⟨pre, i, post, f, h2, h3, h4, h5, rfl⟩, h6⟩

theorem opens_not_shadowed (parse : ParseFn) (fs : Bytes → FsEntry) (text : Bytes → Bytes) (includes : List Bytes)
    {n m p s : Bytes} : (defaultResolver parse fs text includes).openFile m ≠ .error (.fileShadowed n p s) := by
  intro h
  have ho := opens_default parse fs text includes m
  rw [h] at ho
  cases ho with
  | included _ _ hf => cases hf

/-- What `Calls` says about the path that the directory gives to the name. -/
theorem calls_target {i p n : Bytes} (h : Path.Calls i p n) : Path.Same (Path.includeTarget i n) p :=
  (Path.C20_resolve_open_agree i p n ((calls_iff _ _ _).1 h)).1

/-- A name that a directory gives to a path is given to the same name below any directory. -/
theorem calls_join {j p n : Bytes} (h : Path.Calls j p n) (i : Bytes) : Path.Calls i (Path.includeTarget i n) n := by
  obtain ⟨ps, hne, hg, -, rfl⟩ := h
  exact (calls_iff _ _ _).2 (Path.C20_resolve_complete i ps hne hg)

theorem first_split {α : Type} {l pre post pre' post' : List α} {x x' : α} (h : l = pre ++ x :: post)
    (h' : l = pre' ++ x' :: post') : (pre = pre' ∧ x = x') ∨ x' ∈ pre ∨ x ∈ pre' := by
  subst h
  rcases List.append_eq_append_iff.1 h' with ⟨a, ha, hb⟩ | ⟨a, ha, hb⟩
  · cases a with
    | nil => simp at hb ha; exact .inl ⟨ha.symm, hb.1⟩
    | cons y a => simp at hb; exact .inr (.inr (by rw [ha, ← hb.1]; simp))
  · cases a with
    | nil => simp at hb ha; exact .inl ⟨ha, hb.1.symm⟩
    | cons y a => simp at hb; exact .inr (.inl (by rw [ha, hb.1]; simp))

/-- The same with the number of elements before. -/
theorem split_lt {α : Type} {l pre post pre' post' : List α} {x x' : α} (h : l = pre ++ x :: post)
    (h' : l = pre' ++ x' :: post') :
    (pre = pre' ∧ x = x') ∨ (x' ∈ pre ∧ pre'.length < pre.length) ∨ (x ∈ pre' ∧ pre.length < pre'.length) := by
  subst h
  rcases List.append_eq_append_iff.1 h' with ⟨a, ha, hb⟩ | ⟨a, ha, hb⟩
  · cases a with
    | nil => simp at hb ha; exact .inl ⟨ha.symm, hb.1⟩
    | cons y a => simp at hb; exact .inr (.inr ⟨by rw [ha, ← hb.1]; simp, by rw [ha]; simp⟩)
  · cases a with
    | nil => simp at hb ha; exact .inl ⟨ha, hb.1.symm⟩
    | cons y a => simp at hb; exact .inr (.inl ⟨by rw [ha, hb.1]; simp, by rw [ha]; simp⟩)

/-- Two directories that the same path lies below are the same, or one lies below the other. -/
theorem calls_two {i j p n m : Bytes} (hi : Path.Calls i p n) (hj : Path.Calls j p m) :
    (Path.Same i j ∧ n = m) ∨ (∃ d, Path.Calls i j d) ∨ ∃ d, Path.Calls j i d := by
  obtain ⟨ps, hps, gp, h1, rfl⟩ := hi
  obtain ⟨qs, hqs, gq, h2, rfl⟩ := hj
  rw [h1] at h2
  rcases List.append_eq_append_iff.1 h2 with ⟨a, ha, hb⟩ | ⟨a, ha, hb⟩
  · by_cases hnil : a = []
    · subst hnil
      simp only [List.append_nil, List.nil_append] at ha hb
      have : ps = qs := by
        have := List.map_inj_right (f := Component.normal) (fun _ _ h => by cases h; rfl) |>.1 hb
        exact this
      exact .inl ⟨ha.symm, by rw [this]⟩
    · refine .inr (.inl ⟨_, ps.take a.length, ?_, fun c hc => gp c (List.mem_of_mem_take hc), ?_, rfl⟩)
      · intro h0
        have hl := congrArg List.length h0
        have hb' := congrArg List.length hb
        have : 0 < a.length := List.length_pos_iff.2 hnil
        simp at hl hb'
        rcases hl with hl | hl <;> simp_all
      · rw [ha, List.map_take, hb]; simp
  · by_cases hnil : a = []
    · subst hnil
      simp only [List.append_nil, List.nil_append] at ha hb
      have : qs = ps := List.map_inj_right (f := Component.normal) (fun _ _ h => by cases h; rfl) |>.1 hb
      exact .inl ⟨ha, by rw [this]⟩
    · refine .inr (.inr ⟨_, qs.take a.length, ?_, fun c hc => gq c (List.mem_of_mem_take hc), ?_, rfl⟩)
      · intro h0
        have hl := congrArg List.length h0
        have hb' := congrArg List.length hb
        have : 0 < a.length := List.length_pos_iff.2 hnil
        simp at hl hb'
        rcases hl with hl | hl <;> simp_all
      · rw [ha, List.map_take, hb]; simp

/-- If there is something at the path `s`, then a file that shadows it is in a directory before the first one that `s` lies
below. -/
theorem shadowed_before {parse : ParseFn} {fs : Bytes → FsEntry} {includes : List Bytes} (hfs : SpellingFree fs)
    {s m t : Bytes} {k : Nat} (hs : ¬ SaysNotFound fs s) (h : ShadowedBy parse fs includes s m t k) :
    ∀ {pre j post}, includes = pre ++ j :: post → (∃ n, Path.Calls j s n) → k < pre.length := by
  intro pre j post he ⟨n, hc⟩
  obtain ⟨pre1, j1, post1, e1, f1, c1⟩ := h.called
  obtain ⟨pre2, i2, post2, f, e2, f2, -, rfl, rfl⟩ := h.found
  have hhere : ¬ SaysNotFound fs (Path.includeTarget j1 m) := by
    intro hn
    have heq := hfs _ _ (calls_target c1)
    cases hn with
    | atOpen h1 => exact hs (.atOpen (heq ▸ h1))
    | atRead hk h1 => exact hs (.atRead hk (heq ▸ h1))
  have hle : pre1.length ≤ pre.length := by
    rcases split_lt e1 he with ⟨rfl, _⟩ | ⟨hm, _⟩ | ⟨_, hl⟩
    · exact Nat.le_refl _
    · exact absurd hc (f1 j hm n)
    · omega
  rcases split_lt e2 e1 with ⟨rfl, rfl⟩ | ⟨hm, _⟩ | ⟨_, hl⟩
  · exact absurd (calls_target c1) h.other
  · exact absurd (f2 j1 hm) hhere
  · omega

/-- C76: if the file system does not tell apart two spellings of a path, then passing the file that the error names, as
advised, and doing so again if this one is shadowed as well, leads to a path that is not shadowed. -/
theorem C76_ends (parse : ParseFn) (fs : Bytes → FsEntry) (includes : List Bytes) (hfs : SpellingFree fs) (p : Bytes) :
    ∃ q, Follows parse fs includes p q ∧ ∀ n s k, ¬ ShadowedBy parse fs includes q n s k := by
  have main : ∀ k p n s, ShadowedBy parse fs includes p n s k →
      ∃ q, Follows parse fs includes p q ∧ ∀ n s k, ¬ ShadowedBy parse fs includes q n s k := by
    intro k
    induction k using Nat.strongRecOn with
    | ind k ih =>
      intro p n s h
      by_cases hnext : ∃ m t l, ShadowedBy parse fs includes s m t l
      · obtain ⟨m, t, l, h'⟩ := hnext
        obtain ⟨pre, j, post, -, -, hcall⟩ := h.called
        obtain ⟨pre2, i, post2, f, e2, -, hf, rfl, rfl⟩ := h.found
        have hlt := shadowed_before hfs hf.not_says h' e2 ⟨n, calls_join hcall i⟩
        obtain ⟨q, hq, hend⟩ := ih l hlt _ _ _ h'
        exact ⟨q, .pass h hq, hend⟩
      · exact ⟨s, .pass h .stop, fun m t l hh => hnext ⟨m, t, l, hh⟩⟩
  by_cases h : ∃ n s k, ShadowedBy parse fs includes p n s k
  · obtain ⟨n, s, k, h⟩ := h
    exact main k p n s h
  · exact ⟨p, .stop, fun n s k hh => h ⟨n, s, k, hh⟩⟩

/-- C76: if no include directory lies below another one, the file that the error names is not shadowed itself: it has the
same name `n`, and this name opens it. -/
theorem C76_pass (parse : ParseFn) (fs : Bytes → FsEntry) (text : Bytes → Bytes) (includes : List Bytes)
    (hun : Unnested includes) {p n s : Bytes} {k : Nat} (h : ShadowedBy parse fs includes p n s k) :
    (defaultResolver parse fs text includes).resolvePath s = some n ∧
    (∃ f, (defaultResolver parse fs text includes).openFile n = .ok f ∧ f.path = some s) ∧
    ∀ m t l, ¬ ShadowedBy parse fs includes s m t l := by
  obtain ⟨h1, h2, h3⟩ := (shadowedBy_iff parse fs text includes p n s).1 ⟨k, h⟩
  have hcs : (defaultResolver parse fs text includes).resolvePath s = some n := by
    obtain ⟨pre, j, post, -, -, hcall⟩ := h.called
    obtain ⟨pre2, i, post2, f, e2, -, hf, rfl, rfl⟩ := h.found
    have hi := calls_join hcall i
    cases hr : (defaultResolver parse fs text includes).resolvePath (Path.includeTarget i n) with
    | none =>
      have := (C18_resolve parse fs text includes (Path.includeTarget i n)).symm.trans hr
      rw [List.findSome?_eq_none_iff] at this
      have := this i (by rw [e2]; simp)
      rw [(calls_iff _ _ _).1 hi] at this
      cases this
    | some m =>
      obtain ⟨pre3, x, post3, e3, -, hx⟩ := (resolve_iff parse fs text includes _ _).1 hr
      rcases calls_two hx hi with ⟨-, rfl⟩ | ⟨d, hd⟩ | ⟨d, hd⟩
      · rfl
      · exact absurd hd (hun x (by rw [e3]; simp) i (by rw [e2]; simp) d)
      · exact absurd hd (hun i (by rw [e2]; simp) x (by rw [e3]; simp) d)
  refine ⟨hcs, h2, fun m t l hh => ?_⟩
  obtain ⟨h4, ⟨f', h5, h6⟩, h7⟩ := (shadowedBy_iff parse fs text includes s m t).1 ⟨l, hh⟩
  rw [hcs] at h4; cases h4
  obtain ⟨f, h8, h9⟩ := h2
  rw [h8] at h5; cases h5
  rw [h9] at h6; cases h6
  exact h7 rfl

/-- C76: if there is something at the path `p`, then with the include directory `j` that `p` lies below put first (whatever
comes after it), `p` is not shadowed: it is called `n`, and what `n` opens is what is at `p`. -/
theorem C76_reorder (parse : ParseFn) (fs : Bytes → FsEntry) (text : Bytes → Bytes) (j : Bytes) (rest : List Bytes)
    {p n : Bytes} (hj : Path.Calls j p n) (hat : ¬ SaysNotFound fs (Path.includeTarget j n)) :
    (defaultResolver parse fs text (j :: rest)).resolvePath p = some n ∧
    (defaultResolver parse fs text (j :: rest)).openFile n = fileOpen parse fs n (Path.includeTarget j n) ∧
    Path.Same (Path.includeTarget j n) p ∧ ∀ m t l, ¬ ShadowedBy parse fs (j :: rest) p m t l := by
  have h1 : (defaultResolver parse fs text (j :: rest)).resolvePath p = some n :=
    (resolve_iff parse fs text _ _ _).2 ⟨[], j, rest, rfl, nofun, hj⟩
  have h2 : (defaultResolver parse fs text (j :: rest)).openFile n = fileOpen parse fs n (Path.includeTarget j n) := by
    have hpath : ∀ pre i post, j :: rest = pre ++ i :: post →
        (∀ i ∈ pre, SaysNotFound fs (Path.includeTarget i n)) → i = j ∧ pre = [] := by
      intro pre i post he hpre
      cases pre with
      | nil => simp at he; exact ⟨he.1.symm, rfl⟩
      | cons x pre => simp at he; exact absurd (hpre x (by simp)) (he.1 ▸ hat)
    have ho := opens_default parse fs text (j :: rest) n
    have hone := opens_default parse fs text [j] n
    have hsingle : (defaultResolver parse fs text [j]).openFile n = fileOpen parse fs n (Path.includeTarget j n) := by
      generalize hr : (defaultResolver parse fs text [j]).openFile n = r at hone
      show _ = (includeResolver parse fs j).openFile n
      cases hone with
      | included he hpre hf =>
        have : ¬ Missing ((includeResolver parse fs j).openFile n) := by
          rintro ⟨e, he1, he2⟩
          apply hat
          simp only [includeResolver, fileOpen] at he1
          cases hfs : fs (Path.includeTarget j n) with
          | err io =>
            rw [hfs] at he1
            simp only [Except.error.injEq] at he1
            subst he1
            exact .atOpen (by rw [hfs, mapIoErr_notFound he2])
          | file kk content =>
            rw [hfs] at he1
            simp only at he1
            split at he1
            · cases he1; cases he2
            · rename_i hk
              cases content with
              | error io =>
                simp only [Except.error.injEq] at he1
                subst he1
                exact .atRead (by simp [maxFileLen] at hk; omega) (by rw [hfs, mapIoErr_notFound he2])
              | ok b =>
                simp only at he1
                split at he1
                · split at he1 <;> cases he1
                  cases he2
                · cases he1; cases he2
        rw [← hr]
        exact C16_first_hit [] [googleResolver parse text] (includeResolver parse fs j) n nofun this
      | bundled h => exact absurd (h j (by simp)) hat
      | bundledBad h => exact absurd (h j (by simp)) hat
      | nowhere h => exact absurd (h j (by simp)) hat
    rw [← hsingle]
    generalize (defaultResolver parse fs text [j]).openFile n = r1 at hone
    generalize (defaultResolver parse fs text (j :: rest)).openFile n = r2 at ho
    cases hone with
    | included he hpre hf =>
      cases ho with
      | included he' hpre' hf' =>
        obtain ⟨rfl, -⟩ := hpath _ _ _ he' hpre'
        rename_i pre i post pre' i' post'
        cases pre with
        | nil => simp at he; cases he.1; exact hf'.unique hf
        | cons x pre => simp at he
      | bundled h => exact absurd (h j (by simp)) hat
      | bundledBad h => exact absurd (h j (by simp)) hat
      | nowhere h => exact absurd (h j (by simp)) hat
    | bundled h => exact absurd (h j (by simp)) hat
    | bundledBad h => exact absurd (h j (by simp)) hat
    | nowhere h => exact absurd (h j (by simp)) hat
  refine ⟨h1, h2, calls_target hj, fun m t l hh => ?_⟩
  obtain ⟨h4, ⟨f', h5, h6⟩, h7⟩ := (shadowedBy_iff parse fs text (j :: rest) p m t).1 ⟨l, hh⟩
  rw [h1] at h4; cases h4
  rw [h2] at h5
  unfold fileOpen at h5
  split at h5
  · cases h5
  · split at h5
    · cases h5
    · split at h5
      · cases h5
      · simp only at h5
        split at h5
        · split at h5
          · cases h5
          · cases h5; cases h6; exact h7 (calls_target hj)
        · cases h5

/-- C76: if there is nothing at the path `p`, putting its include directory first does not help: `p` is shadowed by the same
file as before. -/
theorem C76_missing (parse : ParseFn) (fs : Bytes → FsEntry) {j : Bytes} {pre post : List Bytes}
    {p n s : Bytes} {k : Nat} (h : ShadowedBy parse fs (pre ++ j :: post) p n s k) (hj : Path.Calls j p n)
    (hat : SaysNotFound fs (Path.includeTarget j n)) :
    ∃ l, ShadowedBy parse fs (j :: pre ++ post) p n s l := by
  obtain ⟨pre2, i, post2, f, e2, hpre, hf, rfl, rfl⟩ := h.found
  suffices hs : ∃ l, ∃ pre1 i1 post1 f1, j :: pre ++ post = pre1 ++ i1 :: post1 ∧
      (∀ i ∈ pre1, SaysNotFound fs (Path.includeTarget i n)) ∧
      FoundAt parse fs n (Path.includeTarget i n) (.ok f1) ∧ Path.includeTarget i n = Path.includeTarget i1 n ∧
      l = pre1.length by
    obtain ⟨l, hl⟩ := hs
    exact ⟨l, ⟨[], j, pre ++ post, rfl, nofun, hj⟩, hl, h.other⟩
  · rcases List.append_eq_append_iff.1 e2 with ⟨a, ha, hb⟩ | ⟨a, ha, hb⟩
    · cases a with
      | nil =>
        simp at hb
        exact absurd hat (by rw [hb.1]; exact hf.not_says)
      | cons y a =>
        simp at hb
        refine ⟨_, j :: pre ++ a, i, post2, f, by simp [hb.2], ?_, hf, rfl, rfl⟩
        intro x hx
        simp at hx
        rcases hx with rfl | hx | hx
        · exact hat
        · exact hpre x (by rw [ha]; simp [hx])
        · exact hpre x (by rw [ha]; simp [hx])
    · cases a with
      | nil =>
        simp at hb
        exact absurd hat (by rw [← hb.1]; exact hf.not_says)
      | cons y a =>
        simp at hb
        refine ⟨_, j :: pre2, i, a ++ post, f, by simp [ha, hb.1], ?_, hf, rfl, rfl⟩
        intro x hx
        simp at hx
        rcases hx with rfl | hx
        · exact hat
        · exact hpre x hx

section
variable [FloatFmt] [LocSort] {link : Linker}

theorem fails_not_shadowed {opens : Bytes → Except Error File → Prop} (ho : ∀ m n p s, ¬ opens m (.error (.fileShadowed n p s)))
    {st : List Bytes} {pool left : List FileDescriptorProto} {m n p s : Bytes} :
    ¬ Fails opens link st pool m (.fileShadowed n p s) left := by
  intro h
  generalize hee : Error.fileShadowed n p s = e at h
  induction h with
  | inside _ _ _ ih => exact ih hee
  | cannotOpen => subst hee; exact ho _ _ _ _ (by assumption)
  | _ => cases hee

/-- C76: if `compile` returns the error "path `p` is shadowed by `s`", then `p` is one of the paths it was given, and it is
shadowed by `s`. -/
theorem C76_true (hlaw : link.Lawful) (fs : Bytes → FsEntry) (text : Bytes → Bytes) (includes files : List Bytes) {fuel : Nat}
    {p n s : Bytes} (h : compileOn link (fun _ => fs) text includes files fuel = .err (.fileShadowed n p s)) :
    p ∈ files ∧ ∃ k, ShadowedBy parseFn fs includes p n s k := by
  obtain ⟨left, pre, q, post, ns, mid, he, -, -, -, hf⟩ := (C67_exact hlaw fs text includes files _).1 ⟨_, h⟩
  cases hf with
  | shadowed h1 h2 h3 h4 =>
    exact ⟨by rw [he]; simp, (shadowedBy_iff parseFn fs text _ _ _ _).2 ⟨h1, ⟨_, h2, h3⟩, h4⟩⟩
  | cannotOpen _ _ h => exact absurd h (opens_not_shadowed _ _ _ _)
  | inside _ _ _ h => exact absurd h (fails_not_shadowed (fun _ _ _ _ => opens_not_shadowed _ _ _ _))

/-- C76: a single path that is shadowed gives this error. -/
theorem C76_exact (hlaw : link.Lawful) (fs : Bytes → FsEntry) (text : Bytes → Bytes) (includes : List Bytes) (p n s : Bytes) :
    (∃ fuel, compileOn link (fun _ => fs) text includes [p] fuel = .err (.fileShadowed n p s)) ↔
    ∃ k, ShadowedBy parseFn fs includes p n s k := by
  constructor
  · rintro ⟨fuel, h⟩
    exact (C76_true hlaw fs text includes _ h).2
  · rw [C67_exact hlaw, shadowedBy_iff parseFn fs text]
    rintro ⟨h1, ⟨f, h2, h3⟩, h4⟩
    exact ⟨[], [], p, [], [], [], rfl, rfl, nofun, .done, .shadowed h1 h2 h3 h4⟩

/-- C76: the help of the error "path `p` is shadowed by `s`" is to pass `s` or to put the include directory of `p` first. If
no include directory lies below another one, then whatever is compiled with the same include directories never gives this
error for the path `s`; and if there is something at `p`, then whatever is compiled with that directory first never gives
this error for the path `p`. -/
theorem C76_advice (hlaw : link.Lawful) (fs : Bytes → FsEntry) (text : Bytes → Bytes) (includes files : List Bytes) {fuel : Nat}
    {p n s : Bytes} (h : compileOn link (fun _ => fs) text includes files fuel = .err (.fileShadowed n p s)) :
    (Error.fileShadowed n p s).help = some (b!"either pass '" ++ s ++
      b!"' as the input file, or re-order the include paths so that '" ++ p ++ b!"' comes first") ∧
    (Unnested includes → ∀ files' fuel' m t,
      compileOn link (fun _ => fs) text includes files' fuel' ≠ .err (.fileShadowed m s t)) ∧
    ∃ j ∈ includes, Path.Calls j p n ∧ (¬ SaysNotFound fs (Path.includeTarget j n) → ∀ rest files' fuel' m t,
      compileOn link (fun _ => fs) text (j :: rest) files' fuel' ≠ .err (.fileShadowed m p t)) := by
  obtain ⟨-, k, hk⟩ := C76_true hlaw fs text includes files h
  refine ⟨by simp [Error.help], fun hun files' fuel' m t h' => ?_, ?_⟩
  · obtain ⟨-, l, hl⟩ := C76_true hlaw fs text includes files' h'
    exact (C76_pass parseFn fs text includes hun hk).2.2 _ _ _ hl
  · obtain ⟨pre, j, post, he, -, hj⟩ := hk.called
    refine ⟨j, by rw [he]; simp, hj, fun hat rest files' fuel' m t h' => ?_⟩
    obtain ⟨-, l, hl⟩ := C76_true hlaw fs text (j :: rest) files' h'
    exact (C76_reorder parseFn fs text j rest hj hat).2.2.2 _ _ _ hl

end

namespace AdviceDemo
open Verif.Demo CompileDemo

def table : List (Bytes × Bytes) :=
  [(b!"a/x.proto", b!"message A {}"), (b!"b/x.proto", b!"message B {}"),
   (b!"r/d/y.proto", b!"message R {}"), (b!"q/d/y.proto", b!"message Q {}")]

def fs : Bytes → FsEntry := fun p => match table.find? (fun e => e.1 == p) with
  | some (_, t) => .file t.length (.ok t)
  | none => .err .notFound

def run (includes files : List Bytes) : Res (List FileDescriptorProto) :=
  compileOn lk (fun _ => fs) (fun _ => []) includes files 20

theorem of_error {x : Res (List FileDescriptorProto)} {e : Error} (h : error x = some e) : x = .err e := by
  cases x <;> simp_all [error]

/-- The advice helps. -/
example : error (run [b!"a", b!"b"] [b!"b/x.proto"]) = some (.fileShadowed b!"x.proto" b!"b/x.proto" b!"a/x.proto") ∧
    error (run [b!"a", b!"b"] [b!"a/x.proto"]) = none ∧ error (run [b!"b", b!"a"] [b!"b/x.proto"]) = none := by
  decide +kernel

/-- The path does not exist: it is said to be shadowed by a file in a later directory, and its directory is first already. -/
example : error (run [b!"r", b!"a"] [b!"r/x.proto"]) = some (.fileShadowed b!"x.proto" b!"r/x.proto" b!"a/x.proto") := by
  decide +kernel

/-- Nested directories: following the advice once is not enough (`r/d` lies below `r`). -/
example : error (run [b!"q", b!"r", b!"r/d", b!"s"] [b!"s/y.proto"]) =
      some (.fileShadowed b!"y.proto" b!"s/y.proto" b!"r/d/y.proto") ∧
    error (run [b!"q", b!"r", b!"r/d", b!"s"] [b!"r/d/y.proto"]) =
      some (.fileShadowed b!"d/y.proto" b!"r/d/y.proto" b!"q/d/y.proto") ∧
    error (run [b!"q", b!"r", b!"r/d", b!"s"] [b!"q/d/y.proto"]) = none := by decide +kernel

/-- The hypotheses of `C76_advice` and `C76_pass` are met. -/
theorem shadowed : ∃ k, ShadowedBy parseFn fs [b!"a", b!"b"] b!"b/x.proto" b!"x.proto" b!"a/x.proto" k :=
  (C76_exact lk_lawful fs (fun _ => []) [b!"a", b!"b"] _ _ _).1 ⟨20, of_error (by decide +kernel)⟩

example : Unnested [b!"a", b!"b"] := by
  intro i hi j hj n hn
  rw [calls_iff] at hn
  have key : ∀ i ∈ [b!"a", b!"b"], ∀ j ∈ [b!"a", b!"b"], Path.includeResolve i j = none := by decide +kernel
  rw [key i hi j hj] at hn
  cases hn

/-- A file system that does not tell apart spellings: the table, looked up by components. -/
def free : Bytes → FsEntry := fun p =>
  match table.find? (fun e => Path.noCur (Path.components e.1) == Path.noCur (Path.components p)) with
  | some (_, t) => .file t.length (.ok t)
  | none => .err .notFound

example : SpellingFree free := by
  intro p q h
  unfold Path.Same at h
  simp only [free, h]

end AdviceDemo
end Verif
