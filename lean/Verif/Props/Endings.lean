import Verif.Proofs.Endings5
import Verif.Proofs.MoveMarks
import Verif.Props.Rules
/-! C75: Windows line endings make no difference. -/
namespace Verif
open Verif.Spec Verif.Ast Verif.Gen Verif.Endings

section
variable [FloatFmt]

/-- The tree of the text with Windows line endings is the tree of the text, moved. -/
theorem dos_tree {s : Bytes} {f : File} (hl : lexOk s = true) (h : PlacedTree s f) :
    PlacedTree (dos (unix s)) (mv (shift s (dos (unix s))) f) := by
  obtain ⟨hE, hA, _⟩ := unix_same _ (Nat.lt_succ_self s.length)
  generalize dos (unix s) = m at *
  have hr := (source_go hE hl).2
  have hg : ∀ o o', Place s m o o' → shift s m o = o' := by
    rintro o o' ⟨x, y, s1, t1, rfl, rfl, h0, rfl, rfl⟩
    exact shift_place h0 s1 t1
  refine ⟨hr.some, ?_⟩
  have h0 : shift s m 0 = 0 := by cases s <;> cases m <;> rfl
  have hlen : shift s m s.length = m.length := by
    have := shift_place hA.any [] []
    rwa [List.append_nil, List.append_nil] at this
  have := Pos.FileG.mv h0 hlen h.2
  have ha : annotated m = (annotated s).map (Pos.mvA (shift s m)) := hr.annotate hg true []
  rw [ha]
  exact this

/-- The lines and columns of the text with Windows line endings are those of the text. -/
theorem dos_span {s : Bytes} {sp : Span} (h1 : sp.start ≤ s.length) (h2 : sp.stop ≤ s.length) :
    encSpan (dos (unix s)) (mv (shift s (dos (unix s))) sp) = encSpan s sp := by
  obtain ⟨_, hA, _⟩ := unix_same _ (Nat.lt_succ_self s.length)
  generalize dos (unix s) = m at *
  obtain ⟨a1, a2⟩ := place_line (hA.place _ h1)
  obtain ⟨b1, b2⟩ := place_line (hA.place _ h2)
  unfold encSpan
  rw [a1, a2, b1, b2]
  rfl

theorem unix_words {s t : Bytes} (h : E false s t) (hl : lexOk s = true) : words s = words t := (source_go h hl).2.words

variable [LocSort]

theorem endings_half {name s t : Bytes} {fd} (h : unix s = unix t) (ht : t.length ≤ 2147483647)
    (hp : parse name s = some (.ok fd)) : parse name t = some (.ok fd) := by
  obtain ⟨es, _, _⟩ := unix_same _ (Nat.lt_succ_self s.length)
  obtain ⟨et, _, _⟩ := unix_same _ (Nat.lt_succ_self t.length)
  have hls := (C49_rejects hp).1
  have hlt : lexOk t = true := by
    rw [lexOk_same et, ← h, ← lexOk_same es]
    exact hls
  have hw : words s = words t := by
    rw [unix_words es hls, unix_words et hlt, h]
  obtain ⟨fd', hp'⟩ := C48_same_acceptance hw hp ht hlt
  have hd := C48_same_descriptor hw hp hp'
  obtain ⟨f, ts, P⟩ := parsed_of_ok hp
  obtain ⟨f', ts', P'⟩ := parsed_of_ok hp'
  have T := dos_tree hls ((C49_exact s f).1 P.run).2
  have T' := dos_tree hlt ((C49_exact t f').1 P'.run).2
  have hm := lexOk_same es
  rw [hls] at hm
  have locs : ∀ {s : Bytes} {fd f ts}, Parsed name s fd f ts →
      (fileMarks f).map (Mark.loc s) = (fileMarks (mv (shift s (dos (unix s))) f)).map (Mark.loc (dos (unix s))) := by
    intro s fd f ts P
    rw [fileMarks_mv (by cases s <;> cases dos _ <;> rfl)]
    unfold mks
    rw [List.map_map]
    refine List.map_congr_left fun x hx => ?_
    have hin : x.span.start ≤ s.length ∧ x.span.stop ≤ s.length := by
      cases hx with
      | head =>
        rcases P.span with ⟨_, h⟩ | h
        · rw [h]; exact ⟨Nat.le_refl _, Nat.zero_le _⟩
        · dsimp only; omega
      | tail _ hx =>
        have := P.marks x hx
        exact ⟨Nat.le_trans (Nat.le_of_lt this.2.1) this.2.2, this.2.2⟩
    have := dos_span hin.1 hin.2
    unfold Mark.loc Function.comp Mark.mv
    dsimp only
    rw [this]
  have l1 := locs P
  have l2 := locs P'
  rw [← h] at T' l2
  rw [C49_one_tree hm.symm T T', ← l2] at l1
  have hsci : fd.sourceCodeInfo = fd'.sourceCodeInfo := by
    rw [P.desc, P'.desc]
    dsimp only
    rw [l1]
  have : fd = fd' := by
    cases fd
    cases fd'
    cases hsci
    simp only [FileDescriptorProto.mk.injEq] at hd ⊢
    simp_all
  rw [this]
  exact hp'

/-- C75: two sources that are the same up to line endings (each `\r\n` written as `\n` gives the same text) are accepted or
rejected alike, and have the same descriptor, with the same source locations (lines and columns) and comments. -/
theorem C75_endings {name s t : Bytes} (h : unix s = unix t) (hs : s.length ≤ 2147483647) (ht : t.length ≤ 2147483647) (fd) :
    parse name s = some (.ok fd) ↔ parse name t = some (.ok fd) :=
  ⟨endings_half h ht, endings_half h.symm hs⟩

/-- Writing all line endings of a text with a carriage return changes nothing. -/
theorem unix_dos : ∀ {s : Bytes}, 13 ∉ s → unix (dos s) = s ∧ unix s = s
  | [], _ => ⟨rfl, rfl⟩
  | b :: s, h => by
    obtain ⟨h1, h2⟩ := unix_dos (s := s) fun h' => h (.tail _ h')
    have hb : b ≠ 13 := fun h' => h (h' ▸ .head _)
    have hu : unix (b :: s) = b :: s := by rw [unix_cons (.inl hb), h2]
    refine ⟨?_, hu⟩
    by_cases h10 : b = 10
    · subst h10
      show 10 :: unix (dos s) = _
      rw [h1]
    · have : dos (b :: s) = b :: dos s := by
        rw [dos]
        exact fun h => h10 h
      rw [this, unix_cons (.inl hb), h1]

/-- C75: a source saved with Windows line endings has the descriptor of the source saved with Unix line endings. -/
theorem C75_windows {name s : Bytes} (h : 13 ∉ s) (hs : (dos s).length ≤ 2147483647) (hs' : s.length ≤ 2147483647) (fd) :
    parse name (dos s) = some (.ok fd) ↔ parse name s = some (.ok fd) :=
  C75_endings ((unix_dos h).1.trans (unix_dos h).2.symm) hs hs' fd

end

namespace EndingsDemo
open Demo

/-- A source with Unix line endings, with Windows line endings, and with a mixture. -/
def src : Bytes := b!"// one\n// two\nmessage A { /* first\n   * second */\n  optional string x = 1; // \"x\"\n\n  /* y */\n  optional int32 y = 2;\n}\n"
def win : Bytes := dos src
def mixed : Bytes := b!"// one\r\n// two\nmessage A { /* first\n   * second */\r\n  optional string x = 1; // \"x\"\n\r\n  /* y */\n  optional int32 y = 2;\r\n}\n"

/-- The hypotheses hold, and the texts differ. -/
example : unix win = unix src ∧ unix mixed = unix src ∧ win.length = src.length + 9 ∧ mixed ≠ win ∧ 13 ∉ src := by decide +kernel

def paths (s : Bytes) : Option (List Location) :=
  match parse b!"a.proto" s with
  | some (.ok fd) => fd.sourceCodeInfo
  | _ => none

/-- All are accepted, with the same locations; a comment has its line endings in the Unix form. -/
example : (paths src).isSome = true ∧ paths win = paths src ∧ paths mixed = paths src := by decide +kernel
example : ((paths win).getD []).any (fun l => l.leadingComments = some b!" one\n two\n") = true := by decide +kernel
/-- The end of the message is in the ninth line, after its first column, in both. -/
example : ((paths win).getD []).any (fun l => l.path = [4, 0] && l.span = [2, 0, 8, 1]) = true := by decide +kernel

/-- A carriage return that is no part of a line ending is not ignored: it stays in the comment. -/
def lone : Bytes := b!"// one\r// two\nmessage A {}"
example : unix lone = lone ∧ ((paths lone).getD []).any (fun l => l.leadingComments = some b!" one\r// two\n") = true := by decide +kernel

/-- Rejected alike. -/
example : paths b!"message A {\r\n \"x\r\n" = none ∧ paths b!"message A {\n \"x\n" = none := by decide +kernel

end EndingsDemo
end Verif
