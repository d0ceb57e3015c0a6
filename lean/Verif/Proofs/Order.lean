import Verif.Spec.Order
import Verif.Proofs.Compiler7
import Verif.Proofs.Path
/-! The depth-first walk: `open_files` and `Builds`. -/
namespace Verif
namespace Builds
variable {opens : Bytes → File → Prop} {link : Linker}

theorem append {p q : List FileDescriptorProto} {ns : List Bytes} (h : Builds opens link p ns q) :
    ∀ {ms r}, Builds opens link q ms r → Builds opens link p (ns ++ ms) r := by
  induction h with
  | done => intro ms r h; exact h
  | held hn _ ih => intro ms r h; exact .held hn (ih h)
  | new hn hf hd hb hl _ _ ih => intro ms r h; exact .new hn hf hd hb hl (ih h)

/-- The walk is determined. -/
theorem unique (hu : ∀ n f g, opens n f → opens n g → f = g) {p q : List FileDescriptorProto} {ns : List Bytes}
    (h : Builds opens link p ns q) : ∀ {q'}, Builds opens link p ns q' → q = q' := by
  induction h with
  | done => intro q' h; cases h; rfl
  | held hn _ ih =>
    intro q' h
    cases h with
    | held _ h => exact ih h
    | new hn' => exact absurd hn hn'
  | new hn hf hd _ hl _ ih1 ih2 =>
    intro q' h
    cases h with
    | held hn' => exact absurd hn' hn
    | new _ hf' _ hb' hl' h' =>
      cases hu _ _ _ hf hf'
      cases ih1 hb'
      rw [hl] at hl'
      cases hl'
      exact ih2 h'

theorem grows {p q : List FileDescriptorProto} {ns : List Bytes} (h : Builds opens link p ns q) : ∃ new, q = p ++ new := by
  induction h with
  | done => exact ⟨[], by simp⟩
  | held _ _ ih => exact ih
  | @new _ _ _ _ _ d _ _ _ _ _ _ _ ih1 ih2 =>
    obtain ⟨a, rfl⟩ := ih1
    obtain ⟨b, rfl⟩ := ih2
    exact ⟨a ++ [d] ++ b, by simp⟩

end Builds

namespace Compiler
open PureResolver
variable {r : PureResolver} {link : Linker}

/-- The files that a resolver opens. -/
abbrev opensOf (r : PureResolver) : Bytes → File → Prop := fun n f => r.openFile n = .ok f

theorem not_held {s : Compiler} (hs : Inv s) {n : Bytes} (h : s.files n = none) : n ∉ fileNames s.pool := fun hm => by
  have := (hs.held_iff n).2 hm
  rw [h] at this
  cases this

theorem finish_builds {s s' : Compiler} {n : Bytes} {f : File} {b : Bool} (hs : Inv s) (hfn : f.name = n)
    (hno : s.files n = none) (h : finish link s n f b = (.ok, s')) : ∃ d, link s.pool f = .ok d ∧ s'.pool = s.pool ++ [d] := by
  obtain ⟨p, hp, rfl⟩ := finish_ok h
  rcases poolAdd_ok hp with ⟨hm, rfl⟩ | ⟨_, d, hd, rfl⟩
  · rw [hfn] at hm
    exact absurd hm (not_held hs hno)
  · exact ⟨d, hd, rfl⟩

/-- What is kept: the pool is in order and made of the files of the resolver. -/
def Sound (r : PureResolver) (link : Linker) (s : Compiler) : Prop := Inv s ∧ PInv r link s

theorem addImport_sound (hwn : r.toResolver.WellNamed) (hlaw : link.Lawful) (fuel : Nat) (stack : List Bytes) (name : Bytes)
    {s : Compiler} (hs : Sound r link s) : Sound r link (addImport r.toResolver link fuel stack name s).2 :=
  ⟨addImport_inv hwn hlaw fuel stack name s hs.1, addImport_pinv hwn hlaw fuel stack name s hs.1 hs.2⟩

theorem importLoop_builds (add : Bytes → Compiler → Out × Compiler) (f : File) (opens : Bytes → File → Prop)
    (hinv : ∀ d s, Sound r link s → Sound r link (add d s).2)
    (hadd : ∀ d s s', Sound r link s → add d s = (.ok, s') → Builds opens link s.pool [d] s'.pool) :
    ∀ ds i seen s s', Sound r link s → importLoop add f i seen ds s = (.ok, s') →
      Builds opens link s.pool ds s'.pool ∧ Sound r link s' := by
  intro ds
  induction ds with
  | nil => intro i seen s s' hs h; simp only [importLoop] at h; cases h; exact ⟨.done, hs⟩
  | cons d ds ih =>
    intro i seen s s' hs h
    rw [importLoop] at h
    split at h
    · split at h <;> cases h
    · cases hx : add d s with
      | mk o s1 =>
        rw [hx] at h
        cases o with
        | ok =>
          simp only at h
          have h1 := hinv d s hs
          rw [hx] at h1
          obtain ⟨h2, h3⟩ := ih _ _ _ _ h1 h
          exact ⟨(hadd d s s1 hs hx).append h2, h3⟩
        | err e => simp only at h; split at h <;> cases h
        | panic => cases h
        | oof => cases h

/-- The part shared by `add_import` and `open_file`. -/
theorem body_builds (hwn : r.toResolver.WellNamed) (hlaw : link.Lawful) {fuel : Nat} {stack : List Bytes} {name : Bytes}
    {f : File} {b : Bool} {s s2 s' : Compiler} (hmem : name ∈ stack)
    (ih : ∀ (d : Bytes) (s s' : Compiler), Sound r link s →
      addImport r.toResolver link fuel stack d s = (.ok, s') → Builds (opensOf r) link s.pool [d] s'.pool)
    (hs : Sound r link s) (hnone : s.files name = none) (hf : r.openFile name = .ok f)
    (hx : imports r.toResolver link fuel stack f s = (.ok, s2)) (h : finish link s2 name f b = (.ok, s')) :
    Builds (opensOf r) link s.pool [name] s'.pool := by
  have hframe := imports_frame (R := r.toResolver) (link := link) fuel stack f s
  have hpinv := imports_pinv hwn hlaw fuel stack f s hs.1 hs.2
  rw [hx] at hframe hpinv
  obtain ⟨h1, h2⟩ := importLoop_builds _ f (opensOf r)
    (fun d s hs => addImport_sound hwn hlaw fuel stack d hs) ih _ _ _ _ _ hs hx
  obtain ⟨d, hd, hpool⟩ := finish_builds h2.1 (hwn [] _ _ hf) ((hframe.2.1 name hmem).trans hnone) h
  rw [hpool]
  exact .new (not_held hs.1 hnone) hf (hpinv.2 rfl) h1 hd .done

theorem addImport_builds (hwn : r.toResolver.WellNamed) (hlaw : link.Lawful) :
    ∀ (fuel : Nat) (stack : List Bytes) (name : Bytes) (s s' : Compiler), Sound r link s →
      addImport r.toResolver link fuel stack name s = (.ok, s') → Builds (opensOf r) link s.pool [name] s'.pool := by
  intro fuel
  induction fuel with
  | zero => intro stack name s s' _ h; cases h
  | succ fuel ih =>
    intro stack name s s' hs h
    rw [addImport] at h
    split at h
    · cases h
    split at h
    · rename_i hh
      cases h
      exact .held ((hs.1.held_iff name).1 hh) .done
    rename_i hh
    have hnone : s.files name = none := by simpa using hh
    simp only at h
    split at h
    · cases h
    rename_i f hf
    have hf' : r.openFile name = .ok f := hf
    cases hx : imports r.toResolver link fuel (stack ++ [name]) f { s with trace := s.trace ++ [.openF name] } with
    | mk o s2 =>
      have hx' := hx
      unfold imports at hx'
      rw [hx'] at h
      cases o with
      | ok =>
        exact body_builds (s := { s with trace := s.trace ++ [.openF name] }) hwn hlaw (by simp)
          (ih (stack ++ [name])) ⟨hs.1.addTrace _, hs.2⟩ hnone hf' hx h
      | err e => cases h
      | panic => cases h
      | oof => cases h

theorem resolve_cases {s : Compiler} {p n : Bytes} {b : Bool} (h : resolveName r.toResolver s p = some (n, b)) :
    r.nameOf p = some n ∧ (b = true → r.resolvePath p = some n) ∧ (b = false → r.resolvePath p = none) := by
  unfold resolveName PureResolver.toResolver at h
  simp only at h
  unfold nameOf
  cases hr : r.resolvePath p with
  | some m => rw [hr] at h; cases h; exact ⟨rfl, fun _ => rfl, nofun⟩
  | none =>
    rw [hr] at h
    simp only at h
    cases hq : pathToFileName p with
    | none => rw [hq] at h; cases h
    | some m => rw [hq] at h; cases h; exact ⟨rfl, nofun, fun _ => rfl⟩

theorem resolve_of_name {p n : Bytes} (h : r.nameOf p = some n) :
    ∃ b, (b = true → r.resolvePath p = some n) ∧ (b = false → r.resolvePath p = none) ∧
      ∀ s, resolveName r.toResolver s p = some (n, b) := by
  unfold nameOf at h
  cases hr : r.resolvePath p with
  | some m =>
    rw [hr] at h; cases h
    refine ⟨true, fun _ => rfl, nofun, fun s => ?_⟩
    unfold resolveName PureResolver.toResolver
    simp only [hr]
  | none =>
    rw [hr] at h
    refine ⟨false, nofun, fun _ => rfl, fun s => ?_⟩
    unfold resolveName PureResolver.toResolver
    simp only [hr]
    simp only at h
    rw [h]

theorem unshadowed_of {p n : Bytes} {b : Bool} {f : File} (hb : b = true → r.resolvePath p = some n)
    (hb' : b = false → r.resolvePath p = none)
    (hf : r.openFile n = .ok f) (h : shadowError b n f.path p = none) : r.Unshadowed p := by
  intro n' f' a h1 h2 h3
  cases b with
  | false => rw [hb' rfl] at h1; cases h1
  | true =>
    rw [hb rfl] at h1; cases h1
    rw [hf] at h2; cases h2
    simp only [shadowError, checkShadow, if_true, h3] at h
    split at h
    · rename_i hpe; exact (Path.pathEq_iff _ _).1 hpe
    · cases h

theorem shadow_none {p n : Bytes} {b : Bool} {f : File} (hb : b = true → r.resolvePath p = some n)
    (hf : r.openFile n = .ok f) (h : r.Unshadowed p) : shadowError b n f.path p = none := by
  cases b with
  | false => rfl
  | true =>
    simp only [shadowError, checkShadow, if_true]
    cases ha : f.path with
    | none => rfl
    | some a =>
      simp only
      rw [if_pos]
      exact (Path.pathEq_iff _ _).2 (h n f a (hb rfl) hf ha)

/-- A successful `open_file`. -/
theorem openFile_builds (hwn : r.toResolver.WellNamed) (hlaw : link.Lawful) {fuel : Nat} {s s' : Compiler} {p : Bytes}
    (hs : Sound r link s) (h : openFile r.toResolver link fuel s p = (.ok, s')) :
    Sound r link s' ∧ ∃ n, r.nameOf p = some n ∧ r.Unshadowed p ∧ Builds (opensOf r) link s.pool [n] s'.pool := by
  have hsound : Sound r link s' := by
    have h1 := openFile_inv hwn hlaw fuel s p hs.1
    have h2 := openFile_pinv hwn hlaw fuel s p hs.1 hs.2
    rw [h] at h1 h2
    exact ⟨h1, h2⟩
  refine ⟨hsound, ?_⟩
  have hc := openFile_cases (R := r.toResolver) (link := link) fuel s p
  rw [h] at hc
  generalize hx : (Out.ok, s') = x at hc
  cases hc with
  | noName | heldShadow | openErr | shadow => cases hx
  | importFail _ _ _ _ _ _ _ hno => rw [← hx] at hno; exact absurd rfl hno
  | held name res m hn hm hsh =>
    cases hx
    obtain ⟨h1, h2, h3⟩ := resolve_cases hn
    obtain ⟨f, _, _, _, hf, _, hpath, _⟩ := hs.2 name m hm
    rw [hpath] at hsh
    refine ⟨name, h1, unshadowed_of h2 h3 hf hsh, .held ((hs.1.held_iff name).1 (by rw [hm]; rfl)) .done⟩
  | finish name res f s2 hn hm hf hsh himp =>
    obtain ⟨h1, h2, h3⟩ := resolve_cases hn
    have hf' : r.openFile name = .ok f := hf
    refine ⟨name, h1, unshadowed_of h2 h3 hf' hsh, ?_⟩
    exact body_builds (s := s.addTrace [.resolve p, .openF name]) hwn hlaw (by simp)
      (fun d s s' hs h => addImport_builds hwn hlaw fuel _ d s s' hs h) ⟨hs.1.addTrace _, hs.2⟩ hm hf' himp hx.symm

/-- A successful `open_files`. -/
theorem openFiles_builds (hwn : r.toResolver.WellNamed) (hlaw : link.Lawful) (fuel : Nat) :
    ∀ (ps : List Bytes) (s s' : Compiler), Sound r link s → openFiles r.toResolver link fuel s ps = (.ok, s') →
      ∃ ns, ps.map r.nameOf = ns.map some ∧ (∀ p ∈ ps, r.Unshadowed p) ∧ Builds (opensOf r) link s.pool ns s'.pool := by
  intro ps
  induction ps with
  | nil => intro s s' _ h; cases h; exact ⟨[], rfl, nofun, .done⟩
  | cons p ps ih =>
    intro s s' hs h
    rw [openFiles] at h
    cases hx : openFile r.toResolver link fuel s p with
    | mk o s1 =>
      rw [hx] at h
      cases o with
      | ok =>
        simp only at h
        obtain ⟨hs1, n, hn, hsh, hb⟩ := openFile_builds hwn hlaw hs hx
        obtain ⟨ns, h1, h2, h3⟩ := ih s1 s' hs1 h
        refine ⟨n :: ns, by simp [hn, h1], ?_, hb.append h3⟩
        intro q hq
        rcases List.mem_cons.1 hq with rfl | hq
        · exact hsh
        · exact h2 q hq
      | err e => cases h
      | panic => cases h
      | oof => cases h

/-! ### The other direction -/

/-- What `Builds` keeps, on lists. -/
structure SoundList (r : PureResolver) (link : Linker) (p : List FileDescriptorProto) : Prop where
  topo : TopoSorted p
  from_ : ∀ d ∈ p, ∃ f, r.openFile d.getName = .ok f ∧ f.descriptor.dependency = d.dependency

theorem Sound.list {s : Compiler} (hlaw : link.Lawful) (h : Sound r link s) : SoundList r link s.pool := by
  refine ⟨h.1.topo, fun d hd => ?_⟩
  have hm : d.getName ∈ fileNames s.pool := List.mem_map_of_mem (f := (·.getName)) hd
  obtain ⟨m, hm⟩ := Option.isSome_iff_exists.1 ((h.1.held_iff _).2 hm)
  obtain ⟨f, pre, d', post, h1, _, _, h4, h5, h6⟩ := h.2 _ m hm
  have hnd := h.1.nodup
  have : d = d' := by
    rw [h4] at hd hnd
    simp only [fileNames, List.map_append, List.map_cons] at hnd
    have hn := List.nodup_append.1 hnd
    rcases List.mem_append.1 hd with hd | hd
    · exact absurd h6.symm (hn.2.2 _ (List.mem_map_of_mem (f := (·.getName)) hd) _ (.head _))
    · rcases List.mem_cons.1 hd with hd | hd
      · exact hd
      · have := (List.nodup_cons.1 hn.2.1).1
        rw [h6] at this
        exact absurd (List.mem_map_of_mem (f := (·.getName)) hd) this
  subst this
  exact ⟨f, h1, (hlaw.deps_eq _ _ _ h5).symm⟩

theorem Builds.sound (hwn : r.toResolver.WellNamed) (hlaw : link.Lawful) {p q : List FileDescriptorProto} {ns : List Bytes}
    (h : Builds (opensOf r) link p ns q) :
    SoundList r link p → SoundList r link q ∧ ∀ n ∈ ns, n ∈ fileNames q := by
  induction h with
  | done => intro hp; exact ⟨hp, nofun⟩
  | @held pool n ns out hn hb ih =>
    intro hp
    obtain ⟨h1, h2⟩ := ih hp
    refine ⟨h1, ?_⟩
    intro m hm
    rcases List.mem_cons.1 hm with rfl | hm
    · obtain ⟨new, rfl⟩ := hb.grows
      simp only [fileNames, List.map_append, List.mem_append] at hn ⊢
      exact .inl hn
    · exact h2 m hm
  | @new pool n ns f mid d out hn hf hd hb1 hl hb2 ih1 ih2 =>
    intro hp
    obtain ⟨h1, h2⟩ := ih1 hp
    have hname : d.getName = n := (hlaw.name_eq _ _ _ hl).trans (hwn [] _ _ hf)
    have hdeps := hlaw.deps_eq _ _ _ hl
    obtain ⟨h3, h4⟩ := ih2 ⟨TopoSorted.snoc h1.topo (by rw [hdeps]; exact h2), by
      intro e he
      rcases List.mem_append.1 he with he | he
      · exact h1.from_ e he
      · rw [List.mem_singleton.1 he]
        exact ⟨f, by rw [hname]; exact hf, hdeps.symm⟩⟩
    refine ⟨h3, ?_⟩
    intro m hm
    rcases List.mem_cons.1 hm with rfl | hm
    · obtain ⟨new, rfl⟩ := hb2.grows
      simp only [fileNames, List.map_append, List.mem_append]
      refine .inl (.inr ?_)
      rw [← hname]
      exact .head _
    · exact h4 m hm

/-- Nothing in a sorted list imports itself. -/
theorem SoundList.acyclic {p : List FileDescriptorProto} (h : SoundList r link p) {a : Bytes} (ha : a ∈ fileNames p) :
    ¬ ReachPlus r a a := by
  have hedge : ∀ a b, a ∈ fileNames p → Edge r a b → b ∈ fileNames p ∧ (fileNames p).idxOf b < (fileNames p).idxOf a := by
    rintro a b ha ⟨f, hf, hb⟩
    obtain ⟨l1, l2, hsplit, hno⟩ : ∃ l1 l2, fileNames p = l1 ++ a :: l2 ∧ a ∉ l1 := by
      generalize fileNames p = l at ha
      induction l with
      | nil => cases ha
      | cons x l ih =>
        by_cases hx : x = a
        · subst hx; exact ⟨[], l, rfl, nofun⟩
        · obtain ⟨l1, l2, h1, h2⟩ := ih ((List.mem_cons.1 ha).resolve_left fun h => hx h.symm)
          exact ⟨x :: l1, l2, by rw [h1]; rfl, by
            intro hm
            rcases List.mem_cons.1 hm with h | h
            · exact hx h.symm
            · exact h2 h⟩
    obtain ⟨pre, rest, rfl, h1, h2⟩ := List.map_eq_append_iff.1 hsplit
    obtain ⟨d, post, rfl, h3, h4⟩ := List.map_eq_cons_iff.1 h2
    obtain ⟨g, hg, hdep⟩ := h.from_ d (by simp)
    rw [h3, hf] at hg
    cases hg
    have hb' : b ∈ fileNames pre := h.topo pre d post rfl b (hdep ▸ hb)
    have hb'' : b ∈ l1 := h1 ▸ hb'
    constructor
    · rw [hsplit]; exact List.mem_append_left _ hb''
    · rw [hsplit, List.idxOf_append, if_pos hb'', List.idxOf_append, if_neg hno]
      have := List.idxOf_lt_length_of_mem hb''
      omega
  have hreach : ∀ a b, Reach r a b → a ∈ fileNames p → (fileNames p).idxOf b ≤ (fileNames p).idxOf a := by
    intro a b hr
    induction hr with
    | refl => intro _; exact Nat.le_refl _
    | step he _ ih =>
      intro ha
      have h1 := hedge _ _ ha he
      have := ih h1.1
      omega
  rintro ⟨b, he, hr⟩
  have h1 := hedge _ _ ha he
  have := hreach _ _ hr h1.1
  omega

theorem finish_of_link {s : Compiler} {n : Bytes} {f : File} {b : Bool} {d : FileDescriptorProto} (hs : Inv s)
    (hfn : f.name = n) (hno : s.files n = none) (hl : link s.pool f = .ok d) :
    finish link s n f b = (.ok, { s with pool := s.pool ++ [d] }.setFile n ⟨n, f.path, b⟩) := by
  unfold finish poolAdd
  rw [if_neg]
  · simp [hl]
  · simp only [List.any_eq_true, beq_iff_eq, not_exists, not_and]
    intro g hg' he
    apply not_held hs hno
    rw [fileNames, List.mem_map]; exact ⟨g, hg', by rw [he, hfn]⟩

/-- The import loop follows a given walk. -/
theorem loop_of_builds (hwn : r.toResolver.WellNamed) (hlaw : link.Lawful) {p q : List FileDescriptorProto} {ns : List Bytes}
    (h : Builds (opensOf r) link p ns q) :
    ∃ N, ∀ fuel, N ≤ fuel → ∀ (s : Compiler), Sound r link s → s.pool = p → ∀ (stack : List Bytes),
      (∀ x ∈ stack, ∀ n ∈ ns, ReachPlus r x n) → ∀ (f : File) (i : Nat) (seen : List Bytes), ns.Nodup →
      (∀ n ∈ ns, n ∉ seen) →
      ∃ s', importLoop (addImport r.toResolver link fuel stack) f i seen ns s = (.ok, s') ∧ s'.pool = q := by
  induction h with
  | done =>
    exact ⟨0, fun fuel _ s _ hp stack _ f i seen _ _ => ⟨s, rfl, hp⟩⟩
  | @held pool n ns out hn hb ih =>
    obtain ⟨N, ih⟩ := ih
    refine ⟨N + 1, ?_⟩
    intro fuel hfuel s hs hp stack hst f i seen hnd hseen
    obtain ⟨k, rfl⟩ : ∃ k, fuel = k + 1 := ⟨fuel - 1, by omega⟩
    subst hp
    have hadd : addImport r.toResolver link (k + 1) stack n s = (.ok, s) := by
      rw [addImport, if_neg, if_pos ((hs.1.held_iff n).2 hn)]
      intro hm
      exact (hs.list hlaw).acyclic hn (hst n hm n (.head _))
    rw [importLoop, if_neg (hseen n (.head _)), hadd]
    simp only
    rw [List.nodup_cons] at hnd
    refine ih (k + 1) (by omega) s hs rfl stack (fun x hx m hm => hst x hx m (.tail _ hm)) f _ _ hnd.2 ?_
    intro m hm hmem
    rcases List.mem_append.1 hmem with h | h
    · exact hseen m (.tail _ hm) h
    · rw [List.mem_singleton.1 h] at hm; exact hnd.1 hm
  | @new pool n ns g mid d out hn hf hd hb1 hl hb2 ih1 ih2 =>
    obtain ⟨N1, ih1⟩ := ih1
    obtain ⟨N2, ih2⟩ := ih2
    refine ⟨N1 + N2 + 1, ?_⟩
    intro fuel hfuel s hs hp stack hst f i seen hnd hseen
    obtain ⟨k, rfl⟩ : ∃ k, fuel = k + 1 := ⟨fuel - 1, by omega⟩
    subst hp
    have hsl := hs.list hlaw
    have hacyc : ¬ ReachPlus r n n := by
      have h1 : Builds (opensOf r) link s.pool [n] (mid ++ [d]) := .new hn hf hd hb1 hl .done
      obtain ⟨h2, h3⟩ := Builds.sound hwn hlaw h1 hsl
      exact h2.acyclic (h3 n (.head _))
    have hnone : s.files n = none := by
      cases hx : s.files n with
      | none => rfl
      | some m => exact absurd ((hs.1.held_iff n).1 (by rw [hx]; rfl)) hn
    have hname : g.name = n := hwn [] _ _ hf
    obtain ⟨s2, hx, hpool⟩ := ih1 k (by omega) { s with trace := s.trace ++ [.openF n] } ⟨hs.1.addTrace _, hs.2⟩ rfl
      (stack ++ [n]) (by
        intro x hx m hm
        have he : Edge r n m := ⟨g, hf, hm⟩
        rcases List.mem_append.1 hx with h | h
        · exact (hst x h n (.head _)).snoc he
        · rw [List.mem_singleton.1 h]; exact ⟨m, he, .refl _⟩) g 0 [] hd (by simp)
    have hframe := imports_frame (R := r.toResolver) (link := link) k (stack ++ [n]) g { s with trace := s.trace ++ [.openF n] }
    have hinv2 := imports_inv hwn hlaw k (stack ++ [n]) g { s with trace := s.trace ++ [.openF n] } (hs.1.addTrace _)
    unfold imports at hframe hinv2
    rw [hx] at hframe hinv2
    subst hpool
    have hfin := finish_of_link (b := true) hinv2 hname ((hframe.2.1 n (by simp)).trans hnone) hl
    have hadd : ∃ s3, addImport r.toResolver link (k + 1) stack n s = (.ok, s3) ∧ s3.pool = s2.pool ++ [d] := by
      refine ⟨({ s2 with pool := s2.pool ++ [d] } : Compiler).setFile n ⟨n, g.path, true⟩, ?_, ?_⟩
      · rw [addImport, if_neg, if_neg]
        · have : r.toResolver.openFile s.trace n = .ok g := hf
          simp only [this, hx]
          exact hfin
        · simp [hnone]
        · exact fun hm => hacyc (hst n hm n (.head _))
      · rfl
    obtain ⟨s3, hadd, hpool3⟩ := hadd
    have hs3 := addImport_sound hwn hlaw (k + 1) stack n hs
    rw [hadd] at hs3
    rw [importLoop, if_neg (hseen n (.head _)), hadd]
    simp only
    rw [List.nodup_cons] at hnd
    refine ih2 (k + 1) (by omega) s3 hs3 hpool3 stack (fun x hx m hm => hst x hx m (.tail _ hm)) f _ _ hnd.2 ?_
    intro m hm hmem
    rcases List.mem_append.1 hmem with h | h
    · exact hseen m (.tail _ hm) h
    · rw [List.mem_singleton.1 h] at hm; exact hnd.1 hm

/-- `open_file` follows a given walk. -/
theorem openFile_of_builds (hwn : r.toResolver.WellNamed) (hlaw : link.Lawful) {q : List FileDescriptorProto}
    {p n : Bytes} {pool : List FileDescriptorProto} (hn : r.nameOf p = some n) (hsh : r.Unshadowed p)
    (h : Builds (opensOf r) link pool [n] q) :
    ∃ N, ∀ fuel, N ≤ fuel → ∀ s : Compiler, Sound r link s → s.pool = pool →
      ∃ s', openFile r.toResolver link fuel s p = (.ok, s') ∧ s'.pool = q := by
  obtain ⟨b, hb, hb', hres⟩ := resolve_of_name hn
  cases h with
  | held hm h =>
    cases h
    refine ⟨0, ?_⟩
    intro fuel _ s hs hpool
    subst hpool
    obtain ⟨m, hm⟩ := Option.isSome_iff_exists.1 ((hs.1.held_iff n).2 hm)
    obtain ⟨f, _, _, _, hf, _, hpath, _⟩ := hs.2 n m hm
    have hno := shadow_none hb hf hsh
    rw [← hpath] at hno
    refine ⟨({ s with trace := s.trace ++ [.resolve p] } : Compiler).setFile n { m with isImport := false }, ?_, ?_⟩
    · rw [openFile]
      simp only [hres s, hm, hno]
    · rfl
  | @new _ _ _ f mid d _ hm hf hd hb1 hl h =>
    cases h
    obtain ⟨N, hloop⟩ := loop_of_builds hwn hlaw hb1
    refine ⟨N, ?_⟩
    intro fuel hfuel s hs hpool
    subst hpool
    have hnone : s.files n = none := by
      cases hx : s.files n with
      | none => rfl
      | some m => exact absurd ((hs.1.held_iff n).1 (by rw [hx]; rfl)) hm
    have hno := shadow_none hb hf hsh
    obtain ⟨s2, hx, hpool⟩ := hloop fuel hfuel { s with trace := s.trace ++ [.resolve p] ++ [.openF n] }
      ⟨(hs.1.addTrace _).addTrace _, hs.2⟩ rfl [n] (by
        intro x hx m hm
        rw [List.mem_singleton.1 hx]; exact ⟨m, ⟨f, hf, hm⟩, .refl _⟩) f 0 [] hd (by simp)
    have hframe := imports_frame (R := r.toResolver) (link := link) fuel [n] f { s with trace := s.trace ++ [.resolve p] ++ [.openF n] }
    have hinv2 := imports_inv hwn hlaw fuel [n] f { s with trace := s.trace ++ [.resolve p] ++ [.openF n] } ((hs.1.addTrace _).addTrace _)
    unfold imports at hframe hinv2
    rw [hx] at hframe hinv2
    subst hpool
    have hfin := finish_of_link (b := false) hinv2 (hwn [] _ _ hf) ((hframe.2.1 n (by simp)).trans hnone) hl
    refine ⟨({ s2 with pool := s2.pool ++ [d] } : Compiler).setFile n ⟨n, f.path, false⟩, ?_, ?_⟩
    · rw [openFile]
      have : ∀ t, r.toResolver.openFile t n = .ok f := fun _ => hf
      simp only [hres s, hnone, this, hno, hx]
      exact hfin
    · rfl

theorem openFiles_of_builds (hwn : r.toResolver.WellNamed) (hlaw : link.Lawful) :
    ∀ (ps ns : List Bytes) (p q : List FileDescriptorProto), ps.map r.nameOf = ns.map some → (∀ p ∈ ps, r.Unshadowed p) →
      Builds (opensOf r) link p ns q →
      ∃ N, ∀ fuel, N ≤ fuel → ∀ s : Compiler, Sound r link s → s.pool = p →
        ∃ s', openFiles r.toResolver link fuel s ps = (.ok, s') ∧ s'.pool = q := by
  intro ps
  induction ps with
  | nil =>
    intro ns p q hn _ hb
    cases ns with
    | cons _ _ => cases hn
    | nil => cases hb; exact ⟨0, fun fuel _ s _ hp => ⟨s, rfl, hp⟩⟩
  | cons a ps ih =>
    intro ns p q hn hsh hb
    cases ns with
    | nil => cases hn
    | cons n ns =>
      simp only [List.map_cons, List.cons.injEq] at hn
      obtain ⟨mid, h1, h2⟩ : ∃ mid, Builds (opensOf r) link p [n] mid ∧ Builds (opensOf r) link mid ns q := by
        cases hb with
        | held hm h => exact ⟨p, .held hm .done, h⟩
        | new hm hf hd hb hl h => exact ⟨_, .new hm hf hd hb hl .done, h⟩
      obtain ⟨N1, h3⟩ := openFile_of_builds hwn hlaw hn.1 (hsh a (.head _)) h1
      obtain ⟨N2, h4⟩ := ih ns mid q hn.2 (fun x hx => hsh x (.tail _ hx)) h2
      refine ⟨N1 + N2, ?_⟩
      intro fuel hfuel s hs hp
      obtain ⟨s1, h5, h6⟩ := h3 fuel (by omega) s hs hp
      have hs1 := (openFile_builds hwn hlaw hs h5).1
      obtain ⟨s2, h7, h8⟩ := h4 fuel (by omega) s1 hs1 h6
      refine ⟨s2, ?_, h8⟩
      rw [openFiles, h5]
      exact h7

end Compiler
end Verif
