import Verif.Proofs.Wire2
import Verif.Props.Resolver
/-!
Properties C23 and C24: `DescriptorSetFileResolver::decode`.
-/
namespace Verif.Wire

/-- C23: decoding the serialization of any list of files interleaved with any unknown fields gives the decoded
files in order, each with exactly its original bytes. -/
theorem C23_decode_exact (dec : Bytes → Option FileDescriptorProto) (es : List Entry) (fds : List FileDescriptorProto)
    (hok : ∀ e ∈ es, e.Ok) (hdec : (Entry.files es).mapM dec = some fds) :
    decodeSet dec (es.flatMap Entry.enc) = .ok (fds.zip ((Entry.files es).map some)) [] := by
  have := decodeLoop_enc dec es (es.flatMap Entry.enc).length [] fds hok (Nat.le_refl _) hdec
  simpa [decodeSet] using this

/-- C23: a single serialized file: it is accepted iff its bytes decode, without a panic; all of the input is taken, and the
bytes are kept as they are beside the decoded file; there is no path and no source. -/
theorem C23_decode_file (dec : Bytes → Option FileDescriptorProto) (buf : Bytes) :
    decodeFile dec buf ≠ .panic ∧ (decodeFile dec buf = .err ↔ dec buf = none) ∧
    ∀ f rest, decodeFile dec buf = .ok f rest →
      rest = [] ∧ f.encoded = some buf ∧ dec buf = some f.descriptor ∧ f.path = none ∧ f.source = none := by
  have e : decodeFile dec buf = match dec buf with | none => .err | some fd => .ok ⟨none, none, fd, some buf⟩ [] := by
    unfold decodeFile copyToBytes
    simp [DRes.bind]
    rfl
  rw [e]
  cases dec buf with
  | none => exact ⟨nofun, ⟨fun _ => rfl, fun _ => rfl⟩, nofun⟩
  | some d => exact ⟨nofun, ⟨nofun, nofun⟩, fun f rest h => by cases h; exact ⟨rfl, rfl, rfl, rfl, rfl⟩⟩

/-- C23 with C25: the file opened by name from such a set carries the bytes that were serialized for it. -/
theorem C23_open_original_bytes (dec : Bytes → Option FileDescriptorProto) (es : List Entry)
    (fds : List FileDescriptorProto) (hok : ∀ e ∈ es, e.Ok) (hdec : (Entry.files es).mapM dec = some fds)
    (set : List (FileDescriptorProto × Option Bytes)) (rest : Bytes)
    (hset : decodeSet dec (es.flatMap Entry.enc) = .ok set rest) (name : Bytes) (f : File)
    (hf : (setResolver set).openFile name = .ok f) :
    f.name = name ∧ ∃ b, f.encoded = some b ∧ b ∈ Entry.files es ∧ dec b = some f.descriptor := by
  rw [C23_decode_exact dec es fds hok hdec] at hset
  cases hset
  have key : ∀ (bs : List Bytes) (ds : List FileDescriptorProto), bs.mapM dec = some ds →
      setOpen (ds.zip (bs.map some)) name = .ok f →
      f.name = name ∧ ∃ b, f.encoded = some b ∧ b ∈ bs ∧ dec b = some f.descriptor := by
    intro bs
    induction bs with
    | nil => intro ds h h2; simp at h; subst h; simp [setOpen] at h2
    | cons b bs ih =>
      intro ds h h2
      simp only [List.mapM_cons, Option.pure_def, Option.bind_eq_bind] at h
      cases hd : dec b with
      | none => rw [hd] at h; simp at h
      | some d =>
        rw [hd] at h
        cases hr : bs.mapM dec with
        | none => rw [hr] at h; simp at h
        | some r =>
          rw [hr] at h
          simp at h; subst h
          simp only [List.map_cons, List.zip_cons_cons, setOpen] at h2
          split at h2
          · rename_i hn
            cases h2
            exact ⟨hn, b, rfl, by simp, hd⟩
          · obtain ⟨h1, b', h2', h3, h4⟩ := ih r hr h2
            exact ⟨h1, b', h2', by simp [h3], h4⟩
  exact key _ _ hdec hf

/-- C24: decoding any bytes never panics; if it succeeds, the files' bytes are disjoint contiguous substrings of
the input in order, each of which decoded to its descriptor. -/
theorem C24_safe (dec : Bytes → Option FileDescriptorProto) (buf : Bytes) :
    decodeSet dec buf ≠ .panic ∧
    ∀ out rest, decodeSet dec buf = .ok out rest → ∃ es : List (FileDescriptorProto × Bytes),
      out = es.map (fun x => (x.1, some x.2)) ∧ Chunks (es.map (·.2)) buf ∧ ∀ x ∈ es, dec x.2 = some x.1 := by
  obtain ⟨h1, h2⟩ := decodeLoop_safe dec buf.length buf []
  refine ⟨h1, ?_⟩
  intro out rest h
  obtain ⟨_, es, h3, h4, h5⟩ := h2 out rest h
  exact ⟨es, by simpa using h3, h4, h5⟩

/-- C24: the bound on the number of iterations used to define the model's loops is never the reason for the
outcome: more iterations change nothing, so the unbounded loop ends with this outcome. -/
theorem C24_terminates (dec : Bytes → Option FileDescriptorProto) (buf : Bytes) (n : Nat) (h : buf.length ≤ n) :
    decodeLoop dec n buf [] = decodeSet dec buf ∧
    ∀ depth tag m, buf.length < m →
      skipGroup (skipField depth) tag m buf = skipGroup (skipField depth) tag (buf.length + 1) buf :=
  ⟨decodeLoop_iters dec _ _ buf [] h (Nat.le_refl _),
   fun depth tag m hm => skipGroup_iters (skipField_safe depth) tag m _ buf hm (by omega)⟩

/-- C24: a length prefix larger than the rest of the input is an error, after any valid entries. -/
theorem C24_underflow (dec : Bytes → Option FileDescriptorProto) (es : List Entry) (fds : List FileDescriptorProto)
    (hok : ∀ e ∈ es, e.Ok) (hdec : (Entry.files es).mapM dec = some fds)
    (len : Nat) (rest : Bytes) (hlen : len < 2 ^ 64) (hshort : rest.length < len) :
    decodeSet dec (es.flatMap Entry.enc ++ (encKey 1 2 ++ encVarint len ++ rest)) = .err := by
  have key : ∀ (es : List Entry) (n : Nat) (set : List (FileDescriptorProto × Option Bytes)) (fds : List FileDescriptorProto),
      (∀ e ∈ es, e.Ok) → (Entry.files es).mapM dec = some fds →
      (es.flatMap Entry.enc ++ (encKey 1 2 ++ encVarint len ++ rest)).length ≤ n →
      decodeLoop dec n (es.flatMap Entry.enc ++ (encKey 1 2 ++ encVarint len ++ rest)) set = .err := by
    intro es
    induction es with
    | nil =>
      intro n set fds _ _ hn
      have hpos := encKey_pos 1 2
      simp only [List.flatMap_nil, List.nil_append, List.length_append, List.append_assoc] at hn ⊢
      cases n with
      | zero => omega
      | succ n =>
        have hne : (encKey 1 2 ++ (encVarint len ++ rest)).isEmpty = false := by
          cases hh : encKey 1 2 with
          | nil => rw [hh] at hpos; simp at hpos
          | cons => rfl
        simp only [decodeLoop, hne]
        rw [decodeKey_enc 1 2 .lengthDelimited _ (by omega) (by omega) (by omega) rfl]
        simp only [DRes.bind, if_true]
        rw [decodeVarint_enc _ _ hlen]
        simp only
        rw [if_pos hshort]; rfl
    | cons e es ih =>
      intro n set fds hok hdec hn
      have hpos := e.enc_pos
      simp only [List.flatMap_cons, List.length_append, List.append_assoc] at hn ⊢
      cases n with
      | zero => omega
      | succ n =>
        have hne : (e.enc ++ (es.flatMap Entry.enc ++ (encKey 1 2 ++ (encVarint len ++ rest)))).isEmpty = false := by
          cases hh : e.enc with
          | nil => rw [hh] at hpos; simp at hpos
          | cons => rfl
        have hok' : ∀ e ∈ es, e.Ok := fun x hx => hok x (by simp [hx])
        simp only [decodeLoop, hne]
        cases e with
        | file b =>
          have hb : b.length < 2 ^ 64 := hok (.file b) (by simp)
          simp only [Entry.files, List.mapM_cons, Option.pure_def, Option.bind_eq_bind] at hdec
          cases hd : dec b with
          | none => rw [hd] at hdec; simp at hdec
          | some d =>
            rw [hd] at hdec
            cases hr : (Entry.files es).mapM dec with
            | none => rw [hr] at hdec; simp at hdec
            | some r =>
              simp only [Entry.enc, List.append_assoc] at hn ⊢
              rw [decodeKey_enc 1 2 .lengthDelimited _ (by omega) (by omega) (by omega) rfl]
              simp only [DRes.bind, if_true]
              rw [decodeVarint_enc _ _ hb]
              simp only
              rw [if_neg (by simp)]
              have hone : ∀ tl, decodeOne dec b.length (b ++ tl) = .ok (d, some b) tl := by
                intro tl
                unfold decodeOne copyToBytes
                rw [if_pos (by omega), Nat.min_eq_left (by simp)]
                simp [DRes.bind, hd]
              rw [hone]
              simp only
              have := ih n (set ++ [(d, some b)]) r hok' hr (by simp only [Entry.enc, List.length_append] at hn hpos ⊢; omega)
              simpa using this
        | unknown f =>
          obtain ⟨ht, hf⟩ := hok (.unknown f) (by simp)
          have hf' : 1 ≤ f.tag ∧ f.tag ≤ 536870911 := ⟨hf.1, hf.2.1⟩
          simp only [Entry.enc] at hn hpos ⊢
          rw [decodeKey_field f _ hf'.1 hf'.2]
          simp only [DRes.bind, Bool.false_eq_true, if_false]
          rw [if_neg ht, show recursionLimit = 100 from rfl, skipField_enc 100 f _ hf]
          simp only
          have := ih n set fds hok' (by simpa [Entry.files] using hdec) (by simp only [List.length_append] at hn ⊢; omega)
          simpa using this
  exact key es _ [] fds hok hdec (Nat.le_refl _)

theorem decodeKey_bad {k : Nat} (h : BadKey k) (rest : Bytes) : decodeKey (encVarint k ++ rest) = .err := by
  obtain ⟨h1, h2⟩ := h
  unfold decodeKey
  rw [decodeVarint_enc _ _ h1]
  simp only [DRes.bind]
  split
  · rfl
  · rename_i h3
    have h4 : k % 8 = 0 ∨ k % 8 = 1 ∨ k % 8 = 2 ∨ k % 8 = 3 ∨ k % 8 = 4 ∨ k % 8 = 5 ∨ k % 8 = 6 ∨ k % 8 = 7 := by omega
    rcases h4 with h4 | h4 | h4 | h4 | h4 | h4 | h4 | h4 <;> rw [h4] <;> simp only [WireType.tryFrom] <;>
      first | rfl | exact if_pos (by omega)

theorem Field.Ok.mono : ∀ {d e : Nat} {f : Field}, f.Ok d → d ≤ e → f.Ok e := by
  intro d
  induction d with
  | zero => intro e f h; exact h.elim
  | succ d ih =>
    intro e f h he
    cases e with
    | zero => omega
    | succ e =>
      obtain ⟨h1, h2, h3⟩ := h
      refine ⟨h1, h2, ?_⟩
      cases f with
      | group tag fs => exact fun g hg => ih (h3 g hg) (by omega)
      | _ => exact h3

theorem Field.Ok.tags : ∀ {d : Nat} {f : Field}, f.Ok d → 1 ≤ f.tag ∧ f.tag ≤ 536870911
  | 0, _, h => h.elim
  | _ + 1, _, h => ⟨h.1, h.2.1⟩

theorem skipGroup_fields {skip : WireType → Nat → Bytes → DRes Unit} (tag : Nat) (tail : Bytes) :
    ∀ (fs : List Field) (n : Nat),
      (∀ f ∈ fs, 1 ≤ f.tag ∧ f.tag ≤ 536870911 ∧
        ((∀ r, skip f.wire f.tag (f.body ++ r) = .ok () r) ∨ ∀ r, skip f.wire f.tag (f.body ++ r) = .err)) →
      ((∃ f ∈ fs, ∀ r, skip f.wire f.tag (f.body ++ r) = .err) ∨
        ∀ m, tail.length < m → skipGroup skip tag m tail = .err) →
      (Field.enc.encFields fs ++ tail).length < n →
      skipGroup skip tag n (Field.enc.encFields fs ++ tail) = .err := by
  intro fs
  induction fs with
  | nil =>
    intro n _ h hn
    rcases h with ⟨f, hf, _⟩ | h
    · simp at hf
    · simpa [Field.enc.encFields] using h n (by simpa [Field.enc.encFields] using hn)
  | cons f fs ih =>
    intro n hf h hn
    cases n with
    | zero => omega
    | succ n =>
      obtain ⟨a1, a2, a3⟩ := hf f (by simp)
      simp only [Field.enc.encFields, skipGroup, List.append_assoc]
      rw [decodeKey_field f _ a1 a2]
      simp only [DRes.bind]
      rw [if_neg (by cases f <;> simp [Field.wire])]
      rcases a3 with a3 | a3
      · rw [a3]
        simp only
        have hlen : 0 < f.enc.length := by rw [Field.enc_eq]; have := encKey_pos f.tag (wireNo f.wire); simp; omega
        refine ih n (fun g hg => hf g (by simp [hg])) ?_ (by
          simp only [Field.enc.encFields, List.length_append] at hn ⊢; omega)
        rcases h with ⟨g, hg, he⟩ | h
        · rcases List.mem_cons.1 hg with rfl | hg
          · have h1 := a3 []
            rw [he []] at h1
            simp at h1
          · exact .inl ⟨g, hg, he⟩
        · exact .inr h
      · rw [a3]

/-- A well-formed field is skipped, or is an error for its nesting, whatever follows. -/
theorem skipField_either : ∀ (depth : Nat) (f : Field), (∃ d, f.Ok d) →
    (∀ r, skipField depth f.wire f.tag (f.body ++ r) = .ok () r) ∨
      ∀ r, skipField depth f.wire f.tag (f.body ++ r) = .err := by
  intro depth
  induction depth with
  | zero => intro f _; exact .inr fun r => rfl
  | succ depth ih =>
    intro f ⟨d, h⟩
    have ht := h.tags
    cases d with
    | zero => exact h.elim
    | succ d =>
      obtain ⟨h1, h2, h3⟩ := h
      cases f with
      | group tag fs =>
        have hall : ∀ f ∈ fs, 1 ≤ f.tag ∧ f.tag ≤ 536870911 ∧
            ((∀ r, skipField depth f.wire f.tag (f.body ++ r) = .ok () r) ∨
              ∀ r, skipField depth f.wire f.tag (f.body ++ r) = .err) :=
          fun f hf => ⟨(h3 f hf).tags.1, (h3 f hf).tags.2, ih f ⟨d, h3 f hf⟩⟩
        by_cases hb : ∃ f ∈ fs, ∀ r, skipField depth f.wire f.tag (f.body ++ r) = .err
        · refine .inr fun r => ?_
          simp only [Field.wire, Field.body, skipField, Field.tag, List.append_assoc]
          exact skipGroup_fields tag _ fs _ hall (.inl hb) (by omega)
        · refine .inl fun r => ?_
          simp only [Field.wire, Field.body, skipField, Field.tag]
          refine skipGroup_enc tag h1 h2 fs _ r (fun f hf => ?_) (by omega)
          obtain ⟨b1, b2, b3⟩ := hall f hf
          refine ⟨b1, b2, ?_⟩
          rcases b3 with b3 | b3
          · exact b3
          · exact absurd ⟨f, hf, b3⟩ hb
      | _ => exact .inl fun r => skipField_enc (depth + 1) _ r ⟨h1, h2, h3⟩

theorem skipField_open (tail : Bytes) :
    ∀ (gs : List (Nat × List Field)) (depth tag : Nat) (fs : List Field),
      (∀ f ∈ fs, ∃ d, f.Ok d) → OpenOk gs →
      (∀ d m, tail.length < m → skipGroup (skipField d) ((gs.map (·.1)).getLastD tag) m tail = .err) →
      skipField depth .startGroup tag (Field.enc.encFields fs ++ (openGroups gs ++ tail)) = .err := by
  intro gs
  induction gs with
  | nil =>
    intro depth tag fs hfs _ ht
    cases depth with
    | zero => rfl
    | succ depth =>
      simp only [skipField, openGroups, List.nil_append]
      exact skipGroup_fields tag _ fs _ (fun f hf => by
        obtain ⟨d, h⟩ := hfs f hf
        exact ⟨h.tags.1, h.tags.2, skipField_either depth f ⟨d, h⟩⟩) (.inr (by simpa using ht depth)) (by omega)
  | cons g gs ih =>
    intro depth tag fs hfs hgs ht
    cases depth with
    | zero => rfl
    | succ depth =>
      simp only [skipField]
      refine skipGroup_fields tag _ fs _ (fun f hf => by
        obtain ⟨d, h⟩ := hfs f hf
        exact ⟨h.tags.1, h.tags.2, skipField_either depth f ⟨d, h⟩⟩) (.inr ?_) (by omega)
      intro m hm
      cases m with
      | zero => omega
      | succ m =>
        obtain ⟨g1, g2, g3⟩ := hgs g (by simp)
        simp only [skipGroup, openGroups, List.append_assoc]
        rw [decodeKey_enc g.1 3 .startGroup _ g1 g2 (by omega) rfl]
        simp only [DRes.bind]
        rw [if_neg (by simp), ih depth g.1 g.2 g3 (fun x hx => hgs x (by simp [hx])) ?_]
        intro d m hm
        have h := ht d m hm
        rw [List.map_cons, List.getLastD_cons] at h
        exact h

theorem skipField_deep (tail : Bytes) :
    ∀ (gs : List (Nat × List Field)) (depth tag : Nat) (fs : List Field),
      (∀ f ∈ fs, ∃ d, f.Ok d) → OpenOk gs → depth ≤ gs.length →
      skipField depth .startGroup tag (Field.enc.encFields fs ++ (openGroups gs ++ tail)) = .err := by
  intro gs
  induction gs with
  | nil => intro depth tag fs _ _ hd; cases depth with
    | zero => rfl
    | succ => simp at hd
  | cons g gs ih =>
    intro depth tag fs hfs hgs hd
    cases depth with
    | zero => rfl
    | succ depth =>
      simp only [skipField]
      refine skipGroup_fields tag _ fs _ (fun f hf => by
        obtain ⟨d, h⟩ := hfs f hf
        exact ⟨h.tags.1, h.tags.2, skipField_either depth f ⟨d, h⟩⟩) (.inr ?_) (by omega)
      intro m hm
      cases m with
      | zero => omega
      | succ m =>
        obtain ⟨g1, g2, g3⟩ := hgs g (by simp)
        simp only [skipGroup, openGroups, List.append_assoc]
        rw [decodeKey_enc g.1 3 .startGroup _ g1 g2 (by omega) rfl]
        simp only [DRes.bind]
        rw [if_neg (by simp), ih depth g.1 g.2 g3 (fun x hx => hgs x (by simp [hx])) (by simpa using hd)]

theorem decodeLoop_prefix (dec : Bytes → Option FileDescriptorProto) (tail : Bytes)
    (ht : ∀ n set, tail.length ≤ n → decodeLoop dec n tail set = .err) :
    ∀ (es : List Entry) (n : Nat) (set : List (FileDescriptorProto × Option Bytes)),
      (∀ e ∈ es, e.Ok) → (es.flatMap Entry.enc ++ tail).length ≤ n →
      decodeLoop dec n (es.flatMap Entry.enc ++ tail) set = .err := by
  intro es
  induction es with
  | nil => intro n set _ hn; simpa using ht n set (by simpa using hn)
  | cons e es ih =>
    intro n set hok hn
    have hpos := e.enc_pos
    simp only [List.flatMap_cons, List.length_append, List.append_assoc] at hn ⊢
    cases n with
    | zero => omega
    | succ n =>
      have hne : (e.enc ++ (es.flatMap Entry.enc ++ tail)).isEmpty = false := by
        cases hh : e.enc with
        | nil => rw [hh] at hpos; simp at hpos
        | cons => rfl
      have hok' : ∀ e ∈ es, e.Ok := fun x hx => hok x (by simp [hx])
      have step := fun set => ih n set hok' (by simp only [List.length_append]; omega)
      simp only [decodeLoop, hne]
      cases e with
      | file b =>
        have hb : b.length < 2 ^ 64 := hok (.file b) (by simp)
        simp only [Entry.enc, List.append_assoc]
        rw [decodeKey_enc 1 2 .lengthDelimited _ (by omega) (by omega) (by omega) rfl]
        simp only [DRes.bind, if_true]
        rw [decodeVarint_enc _ _ hb]
        simp only
        rw [if_neg (by simp)]
        have hone : ∀ tl, decodeOne dec b.length (b ++ tl) =
            match dec b with | none => .err | some d => .ok (d, some b) tl := by
          intro tl
          unfold decodeOne copyToBytes
          rw [if_pos (by omega), Nat.min_eq_left (by simp)]
          simp [DRes.bind]
          rfl
        rw [hone]
        cases dec b with
        | none => simp
        | some d => simpa using step _
      | unknown f =>
        obtain ⟨ht, hf⟩ := hok (.unknown f) (by simp)
        simp only [Entry.enc]
        rw [decodeKey_field f _ hf.tags.1 hf.tags.2]
        simp only [DRes.bind, Bool.false_eq_true, if_false]
        rw [if_neg ht, show recursionLimit = 100 from rfl, skipField_enc 100 f _ hf]
        simpa using step _

theorem decodeSet_open (dec : Bytes → Option FileDescriptorProto) (es : List Entry) (hok : ∀ e ∈ es, e.Ok)
    (gs : List (Nat × List Field)) (tail : Bytes)
    (h0 : gs = [] → ∀ n set, tail.length ≤ n → decodeLoop dec n tail set = .err)
    (h1 : ∀ g gs', gs = g :: gs' → skipField recursionLimit .startGroup g.1
      (Field.enc.encFields g.2 ++ (openGroups gs' ++ tail)) = .err)
    (hgs : OpenOk gs) :
    decodeSet dec (es.flatMap Entry.enc ++ (openGroups gs ++ tail)) = .err := by
  refine decodeLoop_prefix dec _ ?_ es _ [] hok (Nat.le_refl _)
  intro n set hn
  cases gs with
  | nil => exact h0 rfl n set (by simpa [openGroups] using hn)
  | cons g gs =>
    have hpos := encKey_pos g.1 3
    obtain ⟨g1, g2, g3⟩ := hgs g (by simp)
    simp only [openGroups, List.append_assoc, List.length_append] at hn ⊢
    cases n with
    | zero => omega
    | succ n =>
      simp only [decodeLoop]
      rw [if_neg (by simp; intro h; rw [h] at hpos; simp at hpos),
        decodeKey_enc g.1 3 .startGroup _ g1 g2 (by omega) rfl]
      simp only [DRes.bind]
      split
      · rfl
      · rw [h1 g gs rfl]

/-- C24: a number that is no key of a field (wire type 6 or 7, field number 0, or more than 32 bits) where a key must
stand is an error: after any valid entries, and also within unknown groups, at any nesting. -/
theorem C24_bad_key (dec : Bytes → Option FileDescriptorProto) (es : List Entry) (hok : ∀ e ∈ es, e.Ok)
    (gs : List (Nat × List Field)) (hgs : OpenOk gs) (k : Nat) (hk : BadKey k) (rest : Bytes) :
    decodeSet dec (es.flatMap Entry.enc ++ (openGroups gs ++ (encVarint k ++ rest))) = .err := by
  refine decodeSet_open dec es hok gs _ ?_ ?_ hgs
  · intro _ n set hn
    have hne := encVarint_ne_nil k
    cases n with
    | zero => simp at hn; exact absurd hn.1 hne
    | succ n =>
      simp only [decodeLoop]
      rw [if_neg (by simp [hne]), decodeKey_bad hk]
      rfl
  · intro g gs' e
    subst e
    refine skipField_open _ gs' _ _ _ (hgs g (by simp)).2.2 (fun x hx => hgs x (by simp [hx])) ?_
    intro d m hm
    cases m with
    | zero => omega
    | succ m => simp only [skipGroup]; rw [decodeKey_bad hk]; rfl

/-- C24: an end of a group that is not the end of the innermost group that is open (so any, if none is) is an error. -/
theorem C24_wrong_end (dec : Bytes → Option FileDescriptorProto) (es : List Entry) (hok : ∀ e ∈ es, e.Ok)
    (gs : List (Nat × List Field)) (hgs : OpenOk gs) (t : Nat) (ht : 1 ≤ t ∧ t ≤ 536870911)
    (hw : (gs.map (·.1)).getLast? ≠ some t) (rest : Bytes) :
    decodeSet dec (es.flatMap Entry.enc ++ (openGroups gs ++ (encKey t 4 ++ rest))) = .err := by
  have hpos := encKey_pos t 4
  refine decodeSet_open dec es hok gs _ ?_ ?_ hgs
  · intro _ n set hn
    simp only [List.length_append] at hn
    cases n with
    | zero => omega
    | succ n =>
      simp only [decodeLoop]
      rw [if_neg (by simp; intro h; rw [h] at hpos; simp at hpos),
        decodeKey_enc t 4 .endGroup _ ht.1 ht.2 (by omega) rfl]
      simp only [DRes.bind]
      split <;> rfl
  · intro g gs' e
    subst e
    refine skipField_open _ gs' _ _ _ (hgs g (by simp)).2.2 (fun x hx => hgs x (by simp [hx])) ?_
    intro d m hm
    cases m with
    | zero => omega
    | succ m =>
      simp only [skipGroup]
      rw [decodeKey_enc t 4 .endGroup _ ht.1 ht.2 (by omega) rfl]
      simp only [DRes.bind, if_true]
      rw [if_pos]
      intro h
      apply hw
      rw [h, List.map_cons, List.getLast?_cons]
      simp

/-- C24: an input that ends within a group is an error. -/
theorem C24_unclosed (dec : Bytes → Option FileDescriptorProto) (es : List Entry) (hok : ∀ e ∈ es, e.Ok)
    (gs : List (Nat × List Field)) (hgs : OpenOk gs) (hne : gs ≠ []) :
    decodeSet dec (es.flatMap Entry.enc ++ openGroups gs) = .err := by
  rw [← List.append_nil (openGroups gs)]
  refine decodeSet_open dec es hok gs [] (fun h => absurd h hne) ?_ hgs
  intro g gs' e
  subst e
  refine skipField_open _ gs' _ _ _ (hgs g (by simp)).2.2 (fun x hx => hgs x (by simp [hx])) ?_
  intro d m hm
  cases m with
  | zero => omega
  | succ m => rfl

/-- C24: groups nested more than 100 deep are an error, whatever follows (the decoder's own nesting is bounded). -/
theorem C24_too_deep (dec : Bytes → Option FileDescriptorProto) (es : List Entry) (hok : ∀ e ∈ es, e.Ok)
    (gs : List (Nat × List Field)) (hgs : OpenOk gs) (hlen : 100 < gs.length) (rest : Bytes) :
    decodeSet dec (es.flatMap Entry.enc ++ (openGroups gs ++ rest)) = .err := by
  refine decodeSet_open dec es hok gs rest (fun h => by subst h; simp at hlen) ?_ hgs
  intro g gs' e
  subst e
  exact skipField_deep rest gs' _ _ _ (hgs g (by simp)).2.2 (fun x hx => hgs x (by simp [hx]))
    (by simp only [List.length_cons] at hlen; unfold recursionLimit; omega)

/-- C24: the files of a set are field 1 with a length; field 1 with any other wire type is an error. -/
theorem C24_file_wire_type (dec : Bytes → Option FileDescriptorProto) (es : List Entry) (hok : ∀ e ∈ es, e.Ok)
    (w : Nat) (hw : w < 8) (hne : w ≠ 2) (rest : Bytes) :
    decodeSet dec (es.flatMap Entry.enc ++ (encKey 1 w ++ rest)) = .err := by
  by_cases h6 : 6 ≤ w
  · exact C24_bad_key dec es hok [] (fun _ h => by simp at h) (8 * 1 + w) ⟨by omega, .inl (by omega)⟩ rest
  · have hpos := encKey_pos 1 w
    refine decodeSet_open dec es hok [] (encKey 1 w ++ rest) ?_ (fun _ _ h => by simp at h) (fun _ h => by simp at h)
    intro _ n set hn
    simp only [List.length_append] at hn
    cases n with
    | zero => omega
    | succ n =>
      simp only [decodeLoop]
      have hwt : ∃ wt, WireType.tryFrom w = some wt ∧ wt ≠ .lengthDelimited := by
        have h4 : w = 0 ∨ w = 1 ∨ w = 3 ∨ w = 4 ∨ w = 5 := by omega
        rcases h4 with rfl | rfl | rfl | rfl | rfl <;> exact ⟨_, rfl, by decide⟩
      obtain ⟨wt, e1, e2⟩ := hwt
      rw [if_neg (by simp; intro h; rw [h] at hpos; simp at hpos),
        decodeKey_enc 1 w wt _ (by omega) (by omega) hw e1]
      simp only [DRes.bind, if_true]
      rw [if_neg e2]

/-! ### Concrete cases -/

/-- The hypotheses of `C24_too_deep`: 101 groups. -/
example : OpenOk (List.replicate 101 (5, [])) ∧ 100 < (List.replicate 101 ((5, []) : Nat × List Field)).length := by
  refine ⟨?_, by simp⟩
  intro g hg
  rw [List.eq_of_mem_replicate hg]
  exact ⟨by decide, by decide, by simp⟩

/-- The hypotheses of `C24_bad_key`, `C24_wrong_end` and `C24_unclosed`: the key 22 (field 2, wire type 6), or the end of
group 5, or the end of the input, within two groups, the innermost of them group 7. -/
example : BadKey 22 ∧ (([(5, [Field.varint 1 300]), (7, [])] : List (Nat × List Field)).map (·.1)).getLast? ≠ some 5 ∧
    OpenOk [(5, [Field.varint 1 300]), (7, [])] := by
  refine ⟨by unfold BadKey; omega, by decide, ?_⟩
  intro g hg
  simp only [List.mem_cons, List.not_mem_nil, or_false] at hg
  rcases hg with rfl | rfl
  · refine ⟨by decide, by decide, ?_⟩
    intro f hf
    simp only [List.mem_cons, List.not_mem_nil, or_false] at hf
    subst hf
    exact ⟨1, by decide, by decide, by decide⟩
  · exact ⟨by decide, by decide, by simp⟩

/-- Two files around a nested unknown group and an unknown length-delimited field. -/
def demo : List Entry :=
  [.file b!"abc", .unknown (.group 5 [.varint 1 300, .group 7 [], .fixed32 2 [1, 2, 3, 4]]), .unknown (.len 9 b!"zz"),
   .file []]

example : (∀ e ∈ demo, e.Ok) ∧ (Entry.files demo).mapM (fun b => some ({ name := some b } : FileDescriptorProto)) =
    some [{ name := some b!"abc" }, { name := some [] }] := by
  refine ⟨?_, rfl⟩
  intro e he
  simp only [demo, List.mem_cons, List.not_mem_nil, or_false] at he
  rcases he with rfl | rfl | rfl | rfl
  · show (3 : Nat) < 2 ^ 64; decide
  · refine ⟨by decide, by decide, by decide, ?_⟩
    intro g hg
    simp only [List.mem_cons, List.not_mem_nil, or_false] at hg
    rcases hg with rfl | rfl | rfl
    · exact ⟨by decide, by decide, by decide⟩
    · exact ⟨by decide, by decide, by intro g hg; simp at hg⟩
    · exact ⟨by decide, by decide, by decide⟩
  · exact ⟨by decide, by decide, by decide, by decide⟩
  · show (0 : Nat) < 2 ^ 64; decide

example : demo.flatMap Entry.enc =
    [10, 3, 97, 98, 99, 43, 8, 172, 2, 59, 60, 21, 1, 2, 3, 4, 44, 74, 2, 122, 122, 10, 0] := by
  simp [demo, Entry.enc, Field.enc, Field.enc.encFields, encKey, encVarint]

end Verif.Wire
