import Verif.Proofs.Reads
import Verif.Proofs.Order
/-! The calls made to the resolver and what becomes of the answers. -/
namespace Verif

theorem askedFor_append (a b : List Call) : askedFor (a ++ b) = askedFor a ++ askedFor b := by
  induction a with
  | nil => rfl
  | cons c a ih => cases c <;> simp [askedFor, ih]

theorem askedFor_map (t : List Bytes) : askedFor (t.map .openF) = t := by
  induction t with
  | nil => rfl
  | cons c a ih => simp [askedFor, ih]

theorem Walks.append {R : Resolver} {link : Linker} {calls p ns a q} (h : Walks R link calls p ns a q) :
    ∀ {ms b r}, Walks R link (calls ++ a.map .openF) q ms b r → Walks R link calls p (ns ++ ms) (a ++ b) r := by
  induction h with
  | done => intro ms b r h; simpa using h
  | held hn _ ih => intro ms b r h; exact .held hn (ih h)
  | new hn hf hd hb hl _ _ ih =>
    intro ms b r h
    have := Walks.new hn hf hd hb hl (ih (b := b) (by simpa using h))
    simpa using this

namespace Compiler
variable {R : Resolver} {link : Linker}

/-- The entry of `n` is the answer to the last time it was asked for. -/
def Last (R : Resolver) (link : Linker) (s : Compiler) (n : Bytes) (m : FileMetadata) : Prop :=
  ∃ t1 t2 f, s.trace = t1 ++ .openF n :: t2 ∧ n ∉ askedFor t2 ∧ R.openFile t1 n = .ok f ∧ m.name = n ∧ m.path = f.path ∧
    ∃ pre d post, s.pool = pre ++ d :: post ∧ link pre f = .ok d

/-- All entries are. -/
def AInv (R : Resolver) (link : Linker) (s : Compiler) : Prop := ∀ n m, s.files n = some m → Last R link s n m

theorem Last.mono {s s' : Compiler} {n : Bytes} {m m' : FileMetadata} (h : Last R link s n m) {t : List Call}
    (htr : s'.trace = s.trace ++ t) (hn : n ∉ askedFor t) (hp : ∃ new, s'.pool = s.pool ++ new) (hm : m'.name = m.name)
    (hm2 : m'.path = m.path) : Last R link s' n m' := by
  obtain ⟨t1, t2, f, h1, h2, h3, h4, h5, pre, d, post, h6, h7⟩ := h
  obtain ⟨new, hp⟩ := hp
  refine ⟨t1, t2 ++ t, f, by rw [htr, h1]; simp, ?_, h3, hm.trans h4, hm2.trans h5, pre, d, post ++ new, by rw [hp, h6]; simp, h7⟩
  rw [askedFor_append, List.mem_append]
  exact fun h => h.elim h2 hn

theorem AInv.ask {s : Compiler} (h : AInv R link s) {k : Bytes} (hk : s.files k = none) :
    AInv R link { s with trace := s.trace ++ [.openF k] } := by
  intro n m hn
  refine (h n m hn).mono rfl ?_ ⟨[], by simp⟩ rfl rfl
  intro hm
  simp [askedFor] at hm
  subst hm
  have hn' : s.files n = some m := hn
  rw [hk] at hn'; cases hn'

theorem AInv.resolve {s : Compiler} (h : AInv R link s) (p : Bytes) : AInv R link (s.addTrace [.resolve p]) :=
  fun n m hn => (h n m hn).mono rfl nofun ⟨[], by simp [addTrace]⟩ rfl rfl

theorem finish_ainv {s s2 : Compiler} {name : Bytes} {f : File} {b : Bool} {t : List Bytes} (hs : Inv s2)
    (h : AInv R link s2) (hfn : f.name = name) (hno : s2.files name = none) (hf : R.openFile s.trace name = .ok f)
    (htr : s2.trace = s.trace ++ [.openF name] ++ t.map .openF) (ht : name ∉ t) :
    AInv R link (finish link s2 name f b).2 := by
  rcases finish_files (link := link) s2 name f b with ⟨hok, hfiles⟩ | ⟨_, he⟩
  · obtain ⟨d, hd, hpool⟩ := finish_builds (s' := (finish link s2 name f b).2) hs hfn hno (by rw [← hok])
    intro n m hn
    rw [hfiles] at hn
    by_cases hnn : n = name
    · subst hnn
      simp only [if_pos] at hn
      cases hn
      refine ⟨s.trace, t.map .openF, f, by rw [finish_trace, htr]; simp, by rw [askedFor_map]; exact ht, hf, rfl, rfl, s2.pool, d, [], hpool, hd⟩
    · simp only [if_neg hnn] at hn
      exact (h n m hn).mono (t := []) (by rw [finish_trace]; simp) nofun ⟨[d], hpool⟩ rfl rfl
  · rw [he]; exact h

theorem imports_ainv (hwn : R.WellNamed) (hlaw : link.Lawful) {fuel : Nat}
    (ih : ∀ stack name s, Inv s → AInv R link s → AInv R link (addImport R link fuel stack name s).2) (stack : List Bytes)
    (f : File) (s : Compiler) (hs : Inv s) (h : AInv R link s) : AInv R link (imports R link fuel stack f s).2 := by
  have hloop := importLoop_rule (addImport R link fuel stack) f (fun _ s' => Inv s' ∧ AInv R link s')
    f.descriptor.dependency 0 [] s ⟨hs, h⟩
    (fun _ d s' h _ _ _ => ⟨addImport_inv hwn hlaw fuel stack d s' h.1, ih stack d s' h.1 h.2⟩)
  simp only at hloop
  rcases hloop with ⟨_, h, _⟩ | ⟨_, pre, d, post, s1, _, h1, _, h | h⟩
  · exact h.2
  · rw [imports, h.2]; exact h1.2
  · rw [imports, h.2.2]; exact ih stack d s1 h1.1 h1.2

theorem addImport_ainv (hwn : R.WellNamed) (hlaw : link.Lawful) : ∀ (fuel : Nat) (stack : List Bytes) (name : Bytes)
    (s : Compiler), Inv s → AInv R link s → AInv R link (addImport R link fuel stack name s).2 := by
  intro fuel
  induction fuel with
  | zero => intro stack name s _ h; exact h
  | succ fuel ih =>
    intro stack name s hs h
    rw [addImport]
    split
    · exact h
    split
    · exact h
    rename_i hstack hheld
    have hnone : s.files name = none := by simpa using hheld
    simp only
    split
    · exact h.ask hnone
    · rename_i f hf
      have h1 := imports_ainv hwn hlaw ih (stack ++ [name]) f { s with trace := s.trace ++ [.openF name] } (hs.addTrace _) (h.ask hnone)
      split
      · rename_i s2 hr
        have hr' : imports R link fuel (stack ++ [name]) f { s with trace := s.trace ++ [.openF name] } = (.ok, s2) := hr
        have h2 := imports_inv hwn hlaw fuel (stack ++ [name]) f { s with trace := s.trace ++ [.openF name] } (hs.addTrace _)
        have h3 := imports_frame (R := R) (link := link) fuel (stack ++ [name]) f { s with trace := s.trace ++ [.openF name] }
        obtain ⟨t, h4, h5, _⟩ := imports_reads (link := link) (addImport_reads (R := R) fuel) (stack ++ [name]) f { s with trace := s.trace ++ [.openF name] }
        rw [hr'] at h1 h2 h3 h4
        exact finish_ainv (s := s) h2 h1 (hwn _ _ _ hf) ((h3.2.1 name (by simp)).trans hnone) hf h4.trace (fun h => h5 name h (by simp))
      · exact h1

theorem openFile_ainv (hwn : R.WellNamed) (hlaw : link.Lawful) (fuel : Nat) (s : Compiler) (p : Bytes) (hs : Inv s)
    (h : AInv R link s) : AInv R link (openFile R link fuel s p).2 := by
  have hc := openFile_cases (R := R) (link := link) fuel s p
  generalize openFile R link fuel s p = x at hc
  have hask : ∀ {name}, s.files name = none → AInv R link (s.addTrace [.resolve p, .openF name]) := by
    intro name hm
    have := (h.resolve p).ask (k := name) hm
    simpa [addTrace] using this
  cases hc with
  | noName | heldShadow => exact h.resolve p
  | held name res m hn hm hsh =>
    intro n m' hn'
    simp only [setFile, addTrace] at hn'
    by_cases hk : n = name
    · subst hk
      rw [if_pos rfl] at hn'
      cases hn'
      exact ((h.resolve p) n m hm).mono (t := []) (by simp [setFile]) nofun ⟨[], by simp [setFile]⟩ rfl rfl
    · rw [if_neg hk] at hn'
      exact ((h.resolve p) n m' hn').mono (t := []) (by simp [setFile]) nofun ⟨[], by simp [setFile]⟩ rfl rfl
  | openErr name res e hn hm he => exact hask hm
  | shadow name res f e hn hm hf he => exact hask hm
  | importFail name res f hn hm hf hsh hno =>
    exact imports_ainv hwn hlaw (addImport_ainv hwn hlaw fuel) _ _ _ (hs.addTrace _) (hask hm)
  | finish name res f s2 hn hm hf hsh hr =>
    have h1 := imports_ainv hwn hlaw (addImport_ainv hwn hlaw fuel) [name] f (s.addTrace [.resolve p, .openF name]) (hs.addTrace _) (hask hm)
    have h2 := imports_inv hwn hlaw fuel [name] f (s.addTrace [.resolve p, .openF name]) (hs.addTrace _)
    have h3 := imports_frame (R := R) (link := link) fuel [name] f (s.addTrace [.resolve p, .openF name])
    obtain ⟨t, h4, h5, _⟩ := imports_reads (link := link) (addImport_reads (R := R) fuel) [name] f (s.addTrace [.resolve p, .openF name])
    rw [hr] at h1 h2 h3 h4
    exact finish_ainv (s := s.addTrace [.resolve p]) h2 h1 (hwn _ _ _ hf) ((h3.2.1 name (by simp)).trans hm) hf
      (by rw [h4.trace]; simp [addTrace]) (fun h => h5 name h (by simp))

theorem openFiles_ainv (hwn : R.WellNamed) (hlaw : link.Lawful) (fuel : Nat) : ∀ (ps : List Bytes) (s : Compiler), Inv s →
    AInv R link s → AInv R link (openFiles R link fuel s ps).2
  | [], _, _, h => h
  | p :: ps, s, hs, h => by
    have h1 := openFile_ainv hwn hlaw fuel s p hs h
    have h2 := openFile_inv hwn hlaw fuel s p hs
    rw [openFiles]
    split
    · rename_i s' hx
      rw [hx] at h1 h2
      exact openFiles_ainv hwn hlaw fuel ps s' h2 h1
    · exact h1

theorem reachable_ainv (hwn : R.WellNamed) (hlaw : link.Lawful) {s : Compiler} (h : Reachable R link s) : AInv R link s := by
  induction h with
  | init => exact nofun
  | step fuel s op hr ih =>
    have hs := reachable_inv hwn hlaw hr
    cases op with
    | openFile p => exact openFile_ainv hwn hlaw fuel s p hs ih
    | openFiles ps => exact openFiles_ainv hwn hlaw fuel ps s hs ih
    | setIncludeImports b => exact ih
    | setIncludeSourceInfo b => exact ih

/-! ### The walk -/

/-- From `s` to `s'` by a walk over `ns`. -/
def WalksTo (R : Resolver) (link : Linker) (s s' : Compiler) (ns : List Bytes) : Prop :=
  ∃ a : List Bytes, s'.trace = s.trace ++ a.map .openF ∧ Walks R link s.trace s.pool ns a s'.pool

theorem WalksTo.append {s1 s2 s3 : Compiler} {ns ms : List Bytes} (h1 : WalksTo R link s1 s2 ns) (h2 : WalksTo R link s2 s3 ms) :
    WalksTo R link s1 s3 (ns ++ ms) := by
  obtain ⟨a, ha, w1⟩ := h1
  obtain ⟨b, hb, w2⟩ := h2
  rw [ha] at w2 hb
  exact ⟨a ++ b, by rw [hb]; simp, w1.append w2⟩

theorem imports_walks (hwn : R.WellNamed) (hlaw : link.Lawful) {fuel : Nat} {stack : List Bytes}
    (ih : ∀ d s s', Inv s → addImport R link fuel stack d s = (.ok, s') → WalksTo R link s s' [d])
    {f : File} {s s2 : Compiler} (hs : Inv s) (hx : imports R link fuel stack f s = (.ok, s2)) :
    WalksTo R link s s2 f.descriptor.dependency ∧ f.descriptor.dependency.Nodup := by
  have hloop := importLoop_rule (addImport R link fuel stack) f (fun seen s' => Inv s' ∧ WalksTo R link s s' seen)
    f.descriptor.dependency 0 [] s ⟨hs, [], by simp, .done⟩
    (fun seen d s' h _ _ hok => ⟨addImport_inv hwn hlaw fuel stack d s' h.1,
      h.2.append (ih d s' _ h.1 (Prod.ext hok rfl))⟩)
  simp only at hloop
  have hx' : importLoop (addImport R link fuel stack) f 0 [] f.descriptor.dependency s = (.ok, s2) := hx
  rw [hx'] at hloop
  rcases hloop with ⟨_, h, hd⟩ | ⟨h, _⟩
  · exact ⟨by simpa using h.2, by simpa using hd List.nodup_nil⟩
  · exact absurd rfl h

theorem body_walks (hwn : R.WellNamed) (hlaw : link.Lawful) {fuel : Nat} {stack : List Bytes} {name : Bytes}
    (ih : ∀ d s s', Inv s → addImport R link fuel stack d s = (.ok, s') → WalksTo R link s s' [d])
    {f : File} {b : Bool} {s s2 s' : Compiler} (hmem : name ∈ stack) (hs : Inv s) (hnone : s.files name = none)
    (hf : R.openFile s.trace name = .ok f) (hx : imports R link fuel stack f (s.addTrace [.openF name]) = (.ok, s2))
    (h : finish link s2 name f b = (.ok, s')) : WalksTo R link s s' [name] := by
  have hframe := imports_frame (R := R) (link := link) fuel stack f (s.addTrace [.openF name])
  have hi := imports_inv hwn hlaw fuel stack f (s.addTrace [.openF name]) (hs.addTrace _)
  obtain ⟨⟨a, ha, hw⟩, hd⟩ := imports_walks hwn hlaw ih (hs.addTrace _) hx
  rw [hx] at hframe hi
  obtain ⟨d, hd', hpool⟩ := finish_builds hi (hwn _ _ _ hf) ((hframe.2.1 name hmem).trans hnone) h
  have htr := finish_trace (link := link) s2 name f b
  rw [h] at htr
  refine ⟨name :: (a ++ []), ?_, ?_⟩
  · show s'.trace = _
    rw [show s'.trace = s2.trace from htr, ha]
    simp [addTrace]
  · rw [hpool]
    exact .new (not_held hs hnone) hf hd hw hd' .done

theorem addImport_walks (hwn : R.WellNamed) (hlaw : link.Lawful) : ∀ (fuel : Nat) (stack : List Bytes) (name : Bytes)
    (s s' : Compiler), Inv s → addImport R link fuel stack name s = (.ok, s') → WalksTo R link s s' [name] := by
  intro fuel
  induction fuel with
  | zero => intro stack name s s' _ h; cases h
  | succ fuel ih =>
    intro stack name s s' hs h
    rw [addImport] at h
    split at h
    · cases h
    split at h
    · rename_i hheld
      cases h
      exact ⟨[], by simp, .held ((hs.held_iff name).1 hheld) .done⟩
    rename_i hheld
    have hnone : s.files name = none := by simpa using hheld
    simp only at h
    split at h
    · cases h
    · rename_i f hf
      split at h
      · rename_i s2 hr
        exact body_walks hwn hlaw (ih (stack ++ [name])) (by simp) hs hnone hf hr h
      · rename_i hne
        exact (hne _ h).elim

theorem openFile_walks (hwn : R.WellNamed) (hlaw : link.Lawful) {fuel : Nat} {s s' : Compiler} {p : Bytes} (hs : Inv s)
    (h : openFile R link fuel s p = (.ok, s')) : ∃ n b, resolveName R s p = some (n, b) ∧
      WalksTo R link (s.addTrace [.resolve p]) s' [n] := by
  have hc := openFile_cases (R := R) (link := link) fuel s p
  generalize hx : openFile R link fuel s p = x at hc h
  cases hc with
  | noName | heldShadow | openErr | shadow => cases h
  | held name res m hn hm hsh =>
    cases h
    refine ⟨name, res, hn, [], by simp [setFile], ?_⟩
    exact .held ((hs.held_iff name).1 (by rw [hm]; rfl)) .done
  | importFail _ _ _ _ _ _ _ hno => rw [h] at hno; exact absurd rfl hno
  | finish name res f s2 hn hm hf hsh hr =>
    refine ⟨name, res, hn, body_walks hwn hlaw (addImport_walks hwn hlaw fuel [name]) (by simp)
      (s := s.addTrace [.resolve p]) (hs.addTrace _) hm hf ?_ h⟩
    have : (s.addTrace [.resolve p]).addTrace [.openF name] = s.addTrace [.resolve p, .openF name] := by simp [addTrace]
    rw [this]; exact hr

/-! ### Counting -/

theorem openFile_count (fuel : Nat) (s : Compiler) (p n : Bytes) :
    (askedFor (openFile R link fuel s p).2.trace).count n ≤ (askedFor s.trace).count n + 1 ∧
    ((s.files n).isSome → (askedFor (openFile R link fuel s p).2.trace).count n = (askedFor s.trace).count n) ∧
    ((openFile R link fuel s p).1 = .ok → ((openFile R link fuel s p).2.files n) = none →
      (askedFor (openFile R link fuel s p).2.trace).count n = (askedFor s.trace).count n) := by
  obtain ⟨t, h1, h2, h3, h4, h5⟩ := openFile_reads (R := R) (link := link) fuel s p
  have e : askedFor (openFile R link fuel s p).2.trace = askedFor s.trace ++ t := by
    rw [h1, askedFor_append]; simp [askedFor, askedFor_map]
  rw [e, List.count_append]
  have hc : t.count n ≤ 1 := List.nodup_iff_count.1 h2 n
  refine ⟨by omega, ?_, ?_⟩
  · intro hh
    have : n ∉ t := fun hm => by rw [h3 n hm] at hh; cases hh
    rw [List.count_eq_zero.2 this]; omega
  · intro hok hno
    have : n ∉ t := fun hm => by have := h5 hok n hm; rw [hno] at this; cases this
    rw [List.count_eq_zero.2 this]; omega

/-- At most `k` times, and once more if the file is held. -/
def Counted (s : Compiler) (n : Bytes) (k : Nat) : Prop :=
  (askedFor s.trace).count n ≤ k + if (s.files n).isSome then 1 else 0

theorem openFile_counted {fuel : Nat} {s : Compiler} {p n : Bytes} {k : Nat} (h : Counted s n k) :
    ((openFile R link fuel s p).1 = .ok → Counted (openFile R link fuel s p).2 n k) ∧
    Counted (openFile R link fuel s p).2 n (k + 1) := by
  obtain ⟨h1, h2, h3⟩ := openFile_count (R := R) (link := link) fuel s p n
  have h4 := openFile_keeps_held (R := R) (link := link) fuel s p n
  unfold Counted at *
  cases hs : (s.files n).isSome with
  | true =>
    rw [hs] at h
    have a := h2 hs
    have b := h4 hs
    rw [a, b]
    simp only [if_true] at h ⊢
    exact ⟨fun _ => by omega, by omega⟩
  | false =>
    rw [hs] at h
    cases hb : ((openFile R link fuel s p).2.files n) with
    | none =>
      simp at h ⊢
      exact ⟨fun hok => by rw [h3 hok hb]; exact h, by omega⟩
    | some m => simp at h ⊢; exact ⟨fun _ => by omega, by omega⟩

theorem openFiles_counted {fuel : Nat} {n : Bytes} {k : Nat} : ∀ (ps : List Bytes) {s : Compiler}, Counted s n k →
    ((openFiles R link fuel s ps).1 = .ok → Counted (openFiles R link fuel s ps).2 n k) ∧
    Counted (openFiles R link fuel s ps).2 n (k + 1)
  | [], s, h => ⟨fun _ => h, by
    have h' : Counted s n (k + 1) := by unfold Counted at *; split <;> rename_i hx <;> simp only [hx] at h <;> simp at h <;> omega
    exact h'⟩
  | p :: ps, s, h => by
    have h1 := openFile_counted (R := R) (link := link) (fuel := fuel) (p := p) h
    rw [openFiles]
    split
    · rename_i s' hx
      rw [hx] at h1
      exact openFiles_counted ps (h1.1 rfl)
    · exact h1

theorem failures_counted {s : Compiler} {k : Nat} (h : Failures R link s k) (n : Bytes) : Counted s n k := by
  induction h with
  | init => exact Nat.zero_le _
  | ok fuel op _ hok ih =>
    cases op with
    | openFile p => exact (openFile_counted ih).1 hok
    | openFiles ps => exact (openFiles_counted ps ih).1 hok
    | setIncludeImports b => exact ih
    | setIncludeSourceInfo b => exact ih
  | fail fuel op _ hno ih =>
    cases op with
    | openFile p => exact (openFile_counted ih).2
    | openFiles ps => exact (openFiles_counted ps ih).2
    | setIncludeImports b => exact absurd rfl hno
    | setIncludeSourceInfo b => exact absurd rfl hno

end Compiler
end Verif
