import Verif.Spec.Shown
import Verif.Props.Compile
import Verif.Props.Imports
import Verif.Props.Rules
import Verif.Props.Failing
/-!
C69: what an error prints (`Told`, Spec/Shown.lean).
-/
namespace Verif
open Verif.Spec Verif.Ast Verif.Places
open Compiler PureResolver

section
variable [FloatFmt] [LocSort] [Miette]

omit [LocSort] [Miette] [FloatFmt] in
theorem kind_spans (k : ParseErrorKind) : (placeless k ∧ k.span? = none) ∨ ∃ sp, k.spans = [sp] ∧ k.span? = some sp := by
  cases k <;> first
    | exact .inl ⟨trivial, rfl⟩
    | exact .inr ⟨_, rfl, rfl⟩

/-- C69: `Display` of a parse error is the message of its first diagnostic; `Debug` puts the name of the file and the line
and column before it, unless the diagnostic has no place. -/
theorem C69_parse (hm : Shows ‹_›) {name src : Bytes} {e : ParseError} (h : parse name src = some (.error e)) :
    e.kinds.head? = some e.kind ∧ e.display = e.kind.message ∧ ShownKind name src e.kind e.debug := by
  refine ⟨rfl, rfl, ?_⟩
  have hname := ((C28_at_least_one_error name src).1 e h).2
  rcases kind_spans e.kind with ⟨h1, h2⟩ | ⟨sp, h1, h2⟩
  · have : e.debug = e.kind.message := by
      unfold ParseError.debug
      rw [h2]
      rfl
    rw [this]
    exact .bare h1
  · have hin := C29_error_spans name src e h e.kind (.head _) sp (by rw [h1]; exact .head _)
    have hsrc : e.source = src := by
      rcases C29_error_source name src e h with h' | ⟨_, h'⟩
      · exact h'
      · have := h' e.kind (.head _)
        rw [h1] at this
        cases this
    cases hp : Miette.place src (sp.start, sp.stop - sp.start) with
    | none => exact absurd hp (hm src _ _ (by omega))
    | some p =>
      have : e.debug = located name p.1 p.2 e.kind.message := by
        unfold ParseError.debug
        rw [h2]
        simp only [hsrc, hp, hname]
        simp [located, lineColumn, ParseError.display]
      rw [this]
      exact .placed h1 hin.1 hin.2 hp

omit [Miette] in
/-- A file that the default resolver opens is the text of a file, parsed. -/
theorem opened_parsed {fs : Bytes → FsEntry} {text : Bytes → Bytes} {includes : List Bytes} {n : Bytes} {f : File}
    (ht : ∀ n, utf8Valid (text n) = true) (h : Opens parseFn fs text includes n (.ok f)) :
    ∃ src, f = ⟨f.path, some src, f.descriptor, none⟩ ∧ utf8Valid src = true ∧ parse n src = some (.ok f.descriptor) := by
  generalize hr : (Except.ok f : Except Error File) = r at h
  cases h with
  | included _ _ hf =>
    subst hr
    cases hf with
    | proto _ _ hu hp => exact ⟨_, rfl, hu, by rw [C27_parseFn, hp]⟩
  | bundled _ _ hp => cases hr; exact ⟨_, rfl, ht _, by rw [C27_parseFn, hp]⟩
  | bundledBad => cases hr
  | nowhere => cases hr

omit [Miette] in
theorem opens_missing {fs : Bytes → FsEntry} {text : Bytes → Bytes} {includes : List Bytes} {n : Bytes} {e : Error}
    (h : Opens parseFn fs text includes n (.error e)) (he : e.isFileNotFound = true) :
    e = .fileNotFound n ∧ NoFile fs includes n := by
  generalize hr : (Except.error e : Except Error File) = r at h
  cases h with
  | included _ _ hf => subst hr; cases hf <;> cases he
  | bundled => cases hr
  | bundledBad => cases hr; cases he
  | nowhere h1 h2 => cases hr; exact ⟨rfl, h1, h2⟩

/-- The place in the text of an error about an import. -/
def importPlace (src : Bytes) : Option (Nat × Nat) → Bytes
  | some sp => match Miette.place src sp with
    | some p => lineColumn p
    | none => []
  | none => []

theorem shown_import (hm : Shows ‹_›) {n src : Bytes} {fd : FileDescriptorProto} {path : Option Bytes} (hv : utf8Valid src = true)
    (hp : parse n src = some (.ok fd)) {pre d post span} (hd : fd.dependency = pre ++ d :: post)
    (hs : findImportSpan ⟨path, some src, fd, none⟩ pre.length = some span) :
    ∃ tree imp, PlacedTree src tree ∧ tree.imports[pre.length]? = some imp ∧ imp.value = d ∧
      (tree.imports.map (·.value)).take pre.length = pre ∧ ∀ words, ShownImport n src imp words
        (n ++ b!":" ++ importPlace src span ++ words) := by
  obtain ⟨tree, ht, _, hdep, hall⟩ := C56_import_span hp hv path none
  rw [hdep] at hd
  have hlen : pre.length < tree.imports.length := by
    have := congrArg List.length hd
    simp at this
    omega
  obtain ⟨imp, himp⟩ : ∃ imp, tree.imports[pre.length]? = some imp := ⟨_, List.getElem?_eq_getElem hlen⟩
  have hval : imp.value = d := by
    have := congrArg (·[pre.length]?) hd
    simpa [himp] using this
  refine ⟨tree, imp, ht, himp, hval, by rw [hd]; simp, fun words => ?_⟩
  obtain ⟨h1, h2, h3⟩ := hall _ _ himp
  have hx := C53_accepts n src |>.1 ⟨fd, hp⟩
  have hin := (placed_in hx.2.1 ht).imports imp (List.mem_of_getElem? himp)
  have hspan : imp.span.start < imp.span.stop ∧ imp.span.stop ≤ src.length := hin.2.2.2
  have hloc : ∀ p : Nat × Nat, n ++ b!":" ++ lineColumn p ++ words = located n p.1 p.2 words := by
    intro p; simp [located, lineColumn]
  by_cases hl : lineOf src imp.span.start = lineOf src imp.span.stop
  · by_cases ha : AsciiBefore src imp.span.start
    · rw [h1 hl ha] at hs
      cases hs
      cases hp : Miette.place src (imp.span.start, imp.span.stop - imp.span.start) with
      | none => exact absurd hp (hm src _ _ (by omega))
      | some p => simp only [importPlace, hp]; rw [hloc]; exact .placed hl ha hp
    · obtain ⟨off, h2⟩ := h2 hl
      rw [h2] at hs
      cases hs
      cases hp : Miette.place src (off, imp.span.stop - imp.span.start) with
      | none => simp only [importPlace, hp]; rw [List.append_nil]; exact .inexactNone hl ha
      | some p => simp only [importPlace, hp]; rw [hloc]; exact .inexact hl ha
  · rw [h3 hl] at hs
    cases hs
    simp only [importPlace]
    rw [List.append_nil]
    exact .lines hl

variable [ErrorTexts] {link : Linker}

/-- C69: what `Display` and `Debug` print for an error of `compile` is one of the texts of `Told`, with the fact that goes
with it. -/
theorem C69_compile (hm : Shows ‹_›) (hlaw : link.Lawful) (fs : Bytes → FsEntry) (text : Bytes → Bytes)
    (ht : ∀ n, utf8Valid (text n) = true) (includes files : List Bytes) (fuel : Nat) {e}
    (h : compileOn link (fun _ => fs) text includes files fuel = .err e) :
    Told parseFn fs text includes files link e.display e.debug e.file? := by
  obtain ⟨p, hp, ho⟩ := C57_justified hlaw fs text includes files fuel h
  have opens : ∀ {n x}, (defaultResolver parseFn fs text includes).openFile n = x → Opens parseFn fs text includes n x :=
    fun hn => (C57_opens fs text includes _ _).1 hn
  -- a file that cannot be opened
  have bad : ∀ {n e}, Involved parseFn fs text includes files n → Opens parseFn fs text includes n (.error e) →
      e.isFileNotFound = false → Told parseFn fs text includes files link e.display e.debug e.file? := by
    intro n e hi hn he
    have hn' := hn
    generalize hr : (Except.error e : Except Error File) = r at hn
    have hparse : ∀ {src pe}, parseFn n src = .error pe → Opens parseFn fs text includes n (.error (.parse pe)) →
        Told parseFn fs text includes files link (Error.parse pe).display (Error.parse pe).debug (Error.parse pe).file? := by
      intro src pe hpe ho
      have := C69_parse hm (e := pe) (by rw [C27_parseFn, hpe])
      have hf : (Error.parse pe).file? = some n :=
        congrArg some ((C28_at_least_one_error n src).1 pe (by rw [C27_parseFn, hpe])).2
      rw [hf]
      exact .notProto hi ho hpe this.2.2
    cases hn with
    | included _ _ hf =>
      subst hr
      cases hf with
      | refused => simpa [Error.display, Error.debug, Error.file?] using Told.cannotRead (link := link) hi hn'
      | unreadable => simpa [Error.display, Error.debug, Error.file?] using Told.cannotRead (link := link) hi hn'
      | invalid => exact .notText hi hn'
      | invalidRead => exact .notText hi hn'
      | large => exact .tooLarge hi hn'
      | notText => exact .notText hi hn'
      | notProto _ _ _ hpe => exact hparse hpe hn'
    | bundled => cases hr
    | bundledBad _ _ hpe => cases hr; exact hparse hpe hn'
    | nowhere => cases hr; cases he
  cases ho with
  | noName h1 => exact .noName hp h1
  | notThere h1 h2 h3 => exact .notThere hp h1 (opens_missing (opens h2) h3).2
  | shadowed h1 h2 h3 h4 => exact .shadowed hp h1 (opens h2) h3 h4
  | cannotOpen h1 h2 h3 => exact bad ⟨p, hp, _, h1, .refl _⟩ (opens h2) h3
  | inside h1 h2 h3 =>
    rename_i n0 f0
    cases h3 with
    | cannotOpen hr hn hne =>
      refine bad ⟨p, hp, _, h1, hr⟩ (opens hn) ?_
      cases hx : e.isFileNotFound with
      | false => rfl
      | true => exact absurd (opens_missing (opens hn) hx).1 (hne _)
    | importNotFound hr hn hd hk hs =>
      obtain ⟨src, hf, hv, hpa⟩ := opened_parsed ht (opens hn)
      rename_i n f pre d post k span
      obtain ⟨e1, hno⟩ := opens_missing (opens hk) rfl
      cases e1
      rw [hf] at hs
      obtain ⟨tree, imp, g1, g2, g3, g4, g5⟩ := shown_import hm hv hpa hd hs
      have hfn : f.name = n := by
        rw [hf]
        exact (congrArg (·.getD []) (Gen.made_of_tree hpa (Pos.treeOf_placed g1) |>.desc |> congrArg FileDescriptorProto.name))
      have hsrc : f.source.getD [] = src := by rw [hf]; rfl
      rw [hfn, hsrc]
      exact .importMissing ⟨p, hp, _, h1, hr⟩ ⟨f, tree, opens hn, by rw [hf], g1, g2, g3, g4⟩ hno (g5 _)
    | duplicateImport hr hn hd hmem hs =>
      obtain ⟨src, hf, hv, hpa⟩ := opened_parsed ht (opens hn)
      rename_i n f pre d post span
      rw [hf] at hs
      obtain ⟨tree, imp, g1, g2, g3, g4, g5⟩ := shown_import hm hv hpa hd hs
      have hfn : f.name = n := by
        rw [hf]
        exact (congrArg (·.getD []) (Gen.made_of_tree hpa (Pos.treeOf_placed g1) |>.desc |> congrArg FileDescriptorProto.name))
      have hsrc : f.source.getD [] = src := by rw [hf]; rfl
      rw [hfn, hsrc]
      exact .importTwice ⟨p, hp, _, h1, hr⟩ ⟨f, tree, opens hn, by rw [hf], g1, g2, g3, g4⟩ hmem (g5 _)
    | cycle hl hc hmem =>
      have := Told.cycle (parse := parseFn) (fs := fs) (text := text) (includes := includes) (files := files) (link := link)
        (fun m hm => by rw [hl] at hm; cases hm; exact ⟨p, hp, h1⟩) hc hmem
      simpa [Error.display, Error.debug, Error.file?] using this
    | check hr hn h4 h5 h6 h7 => exact .rejected ⟨p, hp, _, h1, hr⟩ (opens hn) h7

end

namespace ShownDemo
open Verif.Demo CompileDemo

/-- What miette does for a source with one-byte characters: the line, and the column in the line. -/
instance miette : Miette where
  place src sp :=
    if sp.1 + sp.2 ≤ src.length then
      some ((src.take sp.1).count 10, ((src.take sp.1).reverse.takeWhile (· ≠ 10)).length)
    else none

instance texts : ErrorTexts where
  check _ := b!"name 'Foo' is not defined"
  checkDebug _ := b!"name 'Foo' is not defined"
  io _ := b!"Permission denied (os error 13)"
  custom _ := b!"custom"
  customDebug _ := b!"custom"

/-- The hypothesis of C69_parse and C69_compile is met. -/
theorem shows : Shows miette := by
  intro src off len h
  unfold Miette.place miette
  simp [h]

/-- The two texts of an error. -/
def told (r : Res (List FileDescriptorProto)) : Option (Bytes × Bytes) := (error r).map fun e => (e.display, e.debug)

/-- The file of an error. -/
def toldFile (r : Res (List FileDescriptorProto)) : Option (Option Bytes) := (error r).map fun e => e.file?

def table : List (Bytes × Bytes) :=
  [(b!"./ok.proto", b!"message Ok {}"),
   (b!"./lost.proto", b!"import \"ok.proto\";\n  import \"gone.proto\";"),
   (b!"./lines.proto", b!"import\n \"gone.proto\";"),
   (b!"./wide.proto", b!"/* é */ import \"gone.proto\"; enum E { A = 0; }"),
   (b!"./twice.proto", b!"import \"ok.proto\"; import \"ok.proto\";"),
   (b!"./bad.proto", b!"// text\n\nmessage M {\n  foo\n}\n"),
   (b!"./short.proto", b!"message M {"),
   (b!"./package.proto", b!"package a; package b;"),
   (b!"./a.proto", b!"import \"b.proto\";"),
   (b!"./b.proto", b!"import \"c.proto\";"),
   (b!"./c.proto", b!"import \"b.proto\";"),
   (b!"x/ok.proto", b!""),
   (b!"y/ok.proto", b!"")]

def fs : Bytes → FsEntry := fun p =>
  if p = b!"./locked.proto" then .err (.other 13)
  else match table.find? (fun e => e.1 == p) with
    | some (_, t) => .file t.length (.ok t)
    | none => .err .notFound

def run (files : List Bytes) (includes : List Bytes := [b!"."]) : Option (Bytes × Bytes) :=
  told (compileOn lk (fun _ => fs) (fun _ => []) includes files 20)

example : run [b!"lost.proto"] = some (b!"import 'gone.proto' not found", b!"lost.proto:2:3: import 'gone.proto' not found") ∧
    run [b!"twice.proto"] = some (b!"import 'ok.proto' was listed twice", b!"twice.proto:1:20: import 'ok.proto' was listed twice") ∧
    run [b!"none.proto"] = some (b!"file 'none.proto' is not in any include path", b!"file 'none.proto' is not in any include path") ∧
    run [b!"locked.proto"] = some (b!"error opening file './locked.proto'",
      b!"error opening file './locked.proto': Permission denied (os error 13)") ∧
    run [b!"a.proto"] = some (b!"import cycle detected: a.proto -> b.proto -> c.proto -> b.proto",
      b!"import cycle detected: a.proto -> b.proto -> c.proto -> b.proto") ∧
    run [b!"y/ok.proto"] [b!"x", b!"y"] = some (b!"path 'y/ok.proto' is shadowed by 'x/ok.proto' in the include paths",
      b!"path 'y/ok.proto' is shadowed by 'x/ok.proto' in the include paths") := by decide +kernel

/-- Errors of the parser, and what is not so good: no file if there is no place, and no space if an import has no place. -/
example : run [b!"bad.proto"] = some (b!"expected '.' or an identifier, but found '}'", b!"bad.proto:5:1: expected '.' or an identifier, but found '}'") ∧
    run [b!"short.proto"] = some (b!"expected a message field, oneof, reserved range, enum, message, option or '}', but reached end of file",
      b!"expected a message field, oneof, reserved range, enum, message, option or '}', but reached end of file") ∧
    run [b!"package.proto"] = some (b!"multiple package names specified", b!"multiple package names specified") ∧
    run [b!"wide.proto"] = some (b!"import 'gone.proto' not found", b!"wide.proto:1:11: import 'gone.proto' not found") ∧
    run [b!"lines.proto"] = some (b!"import 'gone.proto' not found", b!"lines.proto:import 'gone.proto' not found") := by decide +kernel

/-- The file in which the error is: that with the import statement; that which closes the circle; none for a path that has no name. -/
example : [[b!"lost.proto"], [b!"twice.proto"], [b!"bad.proto"], [b!"a.proto"], [b!"none.proto"]].map
    (fun fl => toldFile (compileOn lk (fun _ => fs) (fun _ => []) [b!"."] fl 20)) =
    [some (some b!"lost.proto"), some (some b!"twice.proto"), some (some b!"bad.proto"), some (some b!"b.proto"), some none] := by
  decide +kernel

end ShownDemo
end Verif
