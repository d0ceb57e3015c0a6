import Verif.Proofs.Sib2
/-!
The elements of a file are written one after the other.
-/
namespace Verif.Nesting
open Verif.Ast Verif.Spec Verif.Places Verif.Gen
variable [FloatFmt]

/-- The tokens of a file item. -/
inductive FItemG : List ATok → FileItem → Prop where
  | message {ts x} : MessageG AnyBodyG ts x → FItemG ts (.message x)
  | enum {ts x} : EnumG ts x → FItemG ts (.enum x)
  | extend {ts x} : ExtendG AnyBodyG ts x → FItemG ts (.extend x)
  | service {ts x} : ServiceG ts x → FItemG ts (.service x)

def fMsgs : FileItem → List MsgSrc
  | .message m => [.message m]
  | .extend e => e.fields.flatMap fieldMsgs
  | _ => []
def fEnumSpans : FileItem → List Span
  | .enum e => [e.span]
  | _ => []
def fServiceSpans : FileItem → List Span
  | .service e => [e.span]
  | _ => []
def fExtSpans : FileItem → List Span
  | .extend e => e.fields.map (·.span)
  | _ => []

def FItemS (x : FileItem) : Prop := (∀ y ∈ fMsgs x, SrcS y) ∧ (∀ e, x = .enum e → EnumS e) ∧
  ∀ e, x = .service e → Follow (e.methods.map (·.span))

theorem fitem_s {ts x} (h : FItemG ts x) (ho : Str ts) : FItemS x := by
  cases h with
  | extend h =>
    refine ⟨fun y hy => ?_, nofun, nofun⟩
    obtain ⟨f, hf, hy⟩ := List.mem_flatMap.1 hy
    exact extend_srcs anyBody_spart h ho f hf y hy
  | message h => exact ⟨fun y hy => by rw [List.mem_singleton.1 hy]; exact message_srcs anyBody_spart h ho, nofun, nofun⟩
  | enum h => exact ⟨nofun, fun e he => by cases he; exact (enum_s h ho).1, nofun⟩
  | service h => exact ⟨nofun, nofun, fun e he => by cases he; exact (service_s h ho).1⟩

structure PartsS (p : Grammar.Parts) : Prop where
  items : ∀ x ∈ p.items, FItemS x
  msgs : Follow (p.items.flatMap fun x => (fMsgs x).map srcSpan)
  enums : Follow (p.items.flatMap fEnumSpans)
  services : Follow (p.items.flatMap fServiceSpans)
  exts : Follow (p.items.flatMap fExtSpans)
  imports : Follow (p.imports.map (·.span))
  mods : ∀ k, Follow (modSpans k p.imports)

theorem fitems_sq {ts p} (h : Many StatementG ts {} p) (ho : Str ts) (π : FileItem → List Span)
    (hπ : ∀ t x, FItemG t x → Str t → Sq t (π x)) : Follow (p.items.flatMap π) := by
  obtain ⟨l, e, h⟩ := many_seq (fun b : Grammar.Parts => b.items.flatMap π) (by
    intro t s s' h ho
    have one : ∀ x, FItemG t x → ∃ l, (s.items ++ [x]).flatMap π = s.items.flatMap π ++ l ∧ Sq t l :=
      fun x hx => ⟨_, List.flatMap_append, by simpa using hπ t x hx ho⟩
    cases h with
    | message h => exact one _ (.message h)
    | enum h => exact one _ (.enum h)
    | extend h => exact one _ (.extend h)
    | service h => exact one _ (.service h)
    | package _ _ => exact ⟨[], by simp, Sq.nil⟩
    | _ _ => exact ⟨[], by simp, Sq.nil⟩) h ho
  simp only [List.flatMap_nil, List.nil_append] at e
  rw [e]; exact h.2

omit [FloatFmt] in
theorem import_inn {ts x} (h : ImportG ts x) : Inn ts x.span := (importIn_of h).1

omit [FloatFmt] in
theorem mod_sq {ts x} (h : ImportG ts x) (k) : Sq ts (modSpans k [x]) := by
  have := (importIn_of h).2
  rcases x with ⟨kind, v, vs, c, sp⟩
  rcases kind with _ | ⟨kd, ksp⟩
  · exact Sq.nil
  · have := this kd ksp rfl
    by_cases hk : kd = k
    · simpa [modSpans, hk] using Sq.one this
    · simpa [modSpans, hk] using Sq.nil

theorem parts_s {ts p} (h : Many StatementG ts {} p) (ho : Str ts) : PartsS p := by
  have one : ∀ t (f : Field), Inn t f.span → Sq t [f.span] := fun _ _ h => Sq.one h
  have msg : ∀ t (f : Field), Inn t f.span → Sq t ((fieldMsgs f).map srcSpan) := fun _ _ h => fieldMsgs_sq h
  have fl : ∀ fs : List Field, fs.flatMap (fun f => [f.span]) = fs.map (·.span) := fun fs => by
    induction fs with
    | nil => rfl
    | cons f fs ih => simp [ih]
  have ml : ∀ fs : List Field, fs.flatMap (fun f => (fieldMsgs f).map srcSpan) = (fs.flatMap fieldMsgs).map srcSpan := fun fs => by
    simp [List.map_flatMap]
  refine ⟨?_, ?_, ?_, ?_, ?_, ?_, fun k => ?_⟩
  · refine many_str (fun b : Grammar.Parts => ∀ x ∈ b.items, FItemS x) ?_ h ho nofun
    intro t s s' h ho h0
    cases h with
    | message h => exact snoc h0 (fitem_s (.message h) ho)
    | enum h => exact snoc h0 (fitem_s (.enum h) ho)
    | extend h => exact snoc h0 (fitem_s (.extend h) ho)
    | service h => exact snoc h0 (fitem_s (.service h) ho)
    | package _ _ => exact h0
    | _ _ => exact h0
  · refine fitems_sq h ho _ fun t x hx ht => ?_
    cases hx with
    | extend h => have := extend_sq h ht _ msg; rw [ml] at this; exact this
    | message h => exact Sq.one (message_inn h)
    | _ _ => exact Sq.nil
  · refine fitems_sq h ho _ fun t x hx ht => ?_
    cases hx with
    | enum h => exact Sq.one (enum_s h ht).2
    | _ _ => exact Sq.nil
  · refine fitems_sq h ho _ fun t x hx ht => ?_
    cases hx with
    | service h => exact Sq.one (service_s h ht).2
    | _ _ => exact Sq.nil
  · refine fitems_sq h ho _ fun t x hx ht => ?_
    cases hx with
    | extend h => have := extend_sq h ht _ one; rw [fl] at this; exact this
    | _ _ => exact Sq.nil
  · obtain ⟨l, e, h⟩ := many_seq (fun p : Grammar.Parts => p.imports.map (·.span)) (by
      intro t s s' h ho
      cases h with
      | import' h => exact ⟨[_], by simp, Sq.one (import_inn h)⟩
      | package _ _ => exact ⟨[], by simp, Sq.nil⟩
      | _ _ => exact ⟨[], by simp, Sq.nil⟩) h ho
    simp only [List.map_nil, List.nil_append] at e
    rw [e]; exact h.2
  · obtain ⟨l, e, h⟩ := many_seq (fun p : Grammar.Parts => modSpans k p.imports) (by
      intro t s s' h ho
      cases h with
      | import' h => exact ⟨_, List.filterMap_append, mod_sq h k⟩
      | package _ _ => exact ⟨[], by simp, Sq.nil⟩
      | _ _ => exact ⟨[], by simp, Sq.nil⟩) h ho
    rw [show modSpans k ([] : List Import) = [] from rfl, List.nil_append] at e
    rw [e]; exact h.2

omit [FloatFmt] in
theorem rest_spart {f : File} (h : PartsS ⟨f.package, f.imports, f.options, f.items⟩) :
    SPart [4, 5, 6, 7, 2, 3, 10, 11, 8, 12] (· ∈ restMarks f) := by
  obtain ⟨hi, hm, he, hs, hx, him, hmd⟩ := h
  simp only at hi hm he hs hx him hmd
  have e1 : fileMsgs f = f.items.flatMap fMsgs := by
    unfold fileMsgs
    congr 1
  have e2 : (Spec.fileEnums f).map (·.span) = f.items.flatMap fEnumSpans := by
    unfold Spec.fileEnums
    generalize f.items = xs
    induction xs with
    | nil => rfl
    | cons x xs ih => cases x <;> simp_all [fEnumSpans]
  have e3 : (Spec.fileServices f).map (·.span) = f.items.flatMap fServiceSpans := by
    unfold Spec.fileServices
    generalize f.items = xs
    induction xs with
    | nil => rfl
    | cons x xs ih => cases x <;> simp_all [fServiceSpans]
  have e4 : (Spec.fileExts f).map (·.2.span) = f.items.flatMap fExtSpans := by
    unfold Spec.fileExts
    generalize f.items = xs
    induction xs with
    | nil => rfl
    | cons x xs ih => cases x <;> simp_all [fExtSpans, extendFields, Function.comp_def]
  have pM : SPart [4] (At 0 4 (fileMsgs f) (srcMarks f.syntax')) := SPart.at 4 (sp := srcSpan) (fun y hy => by
    rw [e1] at hy
    obtain ⟨x, hx, hy⟩ := List.mem_flatMap.1 hy
    exact (hi x hx).1 y hy _) (by rw [e1, List.map_flatMap]; exact hm)
  have pE : SPart [5] (At 0 5 (Spec.fileEnums f) enumMarks) := SPart.at 5 (sp := fun e => e.span) (fun y hy => by
    obtain ⟨x, hx, hy⟩ := List.mem_filterMap.1 hy
    have hx := hi x hx
    cases x with
    | enum e => cases hy; exact enum_swhole (hx.2.1 _ rfl)
    | _ => cases hy) (by rw [e2]; exact he)
  have pS : SPart [6] (At 0 6 (Spec.fileServices f) serviceMarks) := SPart.at 6 (sp := fun e => e.span) (fun y hy => by
    obtain ⟨x, hx, hy⟩ := List.mem_filterMap.1 hy
    have hx := hi x hx
    cases x with
    | service e => cases hy; exact service_swhole (hx.2.2 _ rfl)
    | _ => cases hy) (by rw [e3]; exact hs)
  have pX : SPart [7] (fun m => BlockMark 7 (Gen.fileExtends f) m ∨ At 0 7 (Spec.fileExts f) (placeMarks f.syntax') m) :=
    SPart.block (by rintro _ ⟨_, _, rfl⟩; rfl)
      (SPart.at 7 (sp := fun z => z.2.span) (fun y _ => field_swhole _ y) (by rw [e4]; exact hx))
  have pP : SPart [2] (· ∈ packageMarks f.package) := by
    refine SPart.flat fun m hm => ?_
    cases hk : f.package <;> simp [packageMarks, hk] at hm; subst hm; rfl
  have pY : SPart [12] (· ∈ syntaxMarks f.syntaxSpan) := by
    refine SPart.flat fun m hm => ?_
    cases hk : f.syntaxSpan <;> simp [syntaxMarks, hk] at hm; subst hm; rfl
  have pI : SPart ([3] ++ ([10] ++ [11])) (· ∈ importMarks 0 0 0 f.imports) := by
    refine ((SPart.at (b := 0) (g := fun (x : Import) => [⟨[], x.span, x.comments⟩]) 3 (sp := fun (x : Import) => x.span) (fun y _ => SWhole.single) him).or
      ((SPart.at (b := 0) (g := fun s => [⟨[], s, {}⟩]) 10 (sp := id) (fun y _ => SWhole.single) (by rw [List.map_id]; exact hmd .publ)).or
      (SPart.at (b := 0) (g := fun s => [⟨[], s, {}⟩]) 11 (sp := id) (fun y _ => SWhole.single) (by rw [List.map_id]; exact hmd .weak))
      (by decide)) (by decide)).congr fun m => ?_
    rw [importMarks_at]
  refine (pM.or (pE.or (pS.or (pX.or (pP.or (pI.or ((SPart.opts (t := 8) (os := f.options)).or pY (by decide)) (by decide))
    (by decide)) (by decide)) (by decide)) (by decide)) (by decide)).congr fun m => ?_
  rw [restMarks_at]
  exact Iff.of_eq (by ac_rfl)

/-- The marks of the elements of a file follow each other. -/
theorem file_sib {len ts f} (h : FileG len ts f) (ho : Str ts) : Sib (· ∈ fileMarks f) := by
  have key : SPart [4, 5, 6, 7, 2, 3, 10, 11, 8, 12] (· ∈ restMarks f) := by
    cases h with
    | noSyntax h _ => exact rest_spart (parts_s h ho)
    | withSyntax _ h => exact rest_spart (parts_s h (ho.sub (List.sublist_append_right ..)))
  refine ((SWhole.mk' (sp := f.span) (c := {}) key).congr (Q := (· ∈ fileMarks f)) fun m => ?_).sib
  simp only [fileMarks, List.mem_cons]

end Verif.Nesting
