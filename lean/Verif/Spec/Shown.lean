import Verif.Model.Message
import Verif.Spec.Opening
import Verif.Spec.Errors
import Verif.Spec.Places
import Verif.Spec.Lines
/-!
What an error of the compiler prints: `Display` and `Debug` of `protox::Error` and of `protox_parse::ParseError`.  Written in
terms of the files, without the error type: each case is a fact about the files together with the two texts.
-/
namespace Verif.Spec
open Verif.Ast

/-- Spans inside the source can be shown (a contract of miette: `read_span` fails only for spans out of bounds). -/
def Shows (_ : Miette) : Prop := ∀ src off len, off + len ≤ src.length → Miette.place src (off, len) ≠ none

/-- `file:line:column: message`; lines and columns are counted from one. -/
def located (file : Bytes) (line col : Nat) (message : Bytes) : Bytes :=
  file ++ b!":" ++ decimal (line + 1) ++ b!":" ++ decimal (col + 1) ++ b!": " ++ message

/-- The kinds of errors that have no place: they are about the end of the file, about two places, or about the file. -/
def placeless : ParseErrorKind → Prop
  | .unexpectedEof _ | .duplicatePackage _ _ | .fileTooLarge => True
  | _ => False

/-- `ShownKind name src k debug`: how the first diagnostic `k` of a source is printed with `Debug`. -/
inductive ShownKind [Miette] [FloatFmt] (name src : Bytes) (k : ParseErrorKind) : Bytes → Prop where
  /-- With its place, which is inside the source. -/
  | placed {sp line col} : k.spans = [sp] → sp.start ≤ sp.stop → sp.stop ≤ src.length →
      Miette.place src (sp.start, sp.stop - sp.start) = some (line, col) → ShownKind name src k (located name line col k.message)
  /-- Without a place. -/
  | bare : placeless k → ShownKind name src k k.message

/-- `ShownImport name src imp words debug`: how an error about the import `imp` of the source is printed with `Debug`. -/
inductive ShownImport [Miette] (name src : Bytes) (imp : Import) (words : Bytes) : Bytes → Prop where
  /-- A statement on one line, with only ASCII before it: with its place. -/
  | placed {line col} : lineOf src imp.span.start = lineOf src imp.span.stop → AsciiBefore src imp.span.start →
      Miette.place src (imp.span.start, imp.span.stop - imp.span.start) = some (line, col) →
      ShownImport name src imp words (located name line col words)
  /-- A statement on one line after other text: some place, or none if it would be out of the source. -/
  | inexact {line col} : lineOf src imp.span.start = lineOf src imp.span.stop → ¬ AsciiBefore src imp.span.start →
      ShownImport name src imp words (located name line col words)
  | inexactNone : lineOf src imp.span.start = lineOf src imp.span.stop → ¬ AsciiBefore src imp.span.start →
      ShownImport name src imp words (name ++ b!":" ++ words)
  /-- A statement on several lines: only the file. -/
  | lines : lineOf src imp.span.start ≠ lineOf src imp.span.stop →
      ShownImport name src imp words (name ++ b!":" ++ words)

section
variable [Miette] [FloatFmt] [ErrorTexts] (parse : ParseFn) (fs : Bytes → FsEntry) (text : Bytes → Bytes)
  (includes files : List Bytes) (link : Linker)

/-- The file is one of those given to the compiler or is imported by it, directly or not. -/
def Involved (n : Bytes) : Prop :=
  ∃ p ∈ files, ∃ m, (defaultResolver parse fs text includes).nameOf p = some m ∧ (defaultResolver parse fs text includes).Reach m n

/-- There is no file of this name. -/
def NoFile (n : Bytes) : Prop := (∀ i ∈ includes, SaysNotFound fs (Path.includeTarget i n)) ∧ n ∉ googleNames

/-- `HasImport n src imp pre d`: the file `n` has the text `src`; the import after those of the names `pre` is `imp`, of the
name `d`. -/
def HasImport (n src : Bytes) (imp : Import) (pre : List Bytes) (d : Bytes) : Prop :=
  ∃ f tree, Opens parse fs text includes n (.ok f) ∧ f.source = some src ∧ PlacedTree src tree ∧
    tree.imports[pre.length]? = some imp ∧ imp.value = d ∧ (tree.imports.map (·.value)).take pre.length = pre

/-- `Told … display debug file`: what the compiler may say about the files, as text, and the file that it says it is about
(`Error::file`). -/
inductive Told : Bytes → Bytes → Option Bytes → Prop where
  /-- A path that has no name, or for which there is no file. -/
  | noName {p} : p ∈ files → (defaultResolver parse fs text includes).nameOf p = none →
      Told (b!"file '" ++ p ++ b!"' is not in any include path") (b!"file '" ++ p ++ b!"' is not in any include path") none
  | notThere {p n} : p ∈ files → (defaultResolver parse fs text includes).nameOf p = some n → NoFile fs includes n →
      Told (b!"file '" ++ p ++ b!"' is not in any include path") (b!"file '" ++ p ++ b!"' is not in any include path") none
  /-- A path whose name stands for another file. -/
  | shadowed {p n f a} : p ∈ files → (defaultResolver parse fs text includes).resolvePath p = some n →
      Opens parse fs text includes n (.ok f) → f.path = some a → ¬ Path.pathEq (Path.components a) (Path.components p) = true →
      Told (b!"path '" ++ p ++ b!"' is shadowed by '" ++ a ++ b!"' in the include paths")
        (b!"path '" ++ p ++ b!"' is shadowed by '" ++ a ++ b!"' in the include paths") (some n)
  /-- A file that cannot be read. -/
  | cannotRead {n path c} : Involved parse fs text includes files n →
      Opens parse fs text includes n (.error (.openFile n path (.other c))) →
      Told (b!"error opening file '" ++ path ++ b!"'") (b!"error opening file '" ++ path ++ b!"': " ++ ErrorTexts.io (.other c)) (some n)
  | tooLarge {n} : Involved parse fs text includes files n → Opens parse fs text includes n (.error (.fileTooLarge n)) →
      Told (b!"file '" ++ n ++ b!"' is too large") (b!"file '" ++ n ++ b!"' is too large") (some n)
  | notText {n} : Involved parse fs text includes files n → Opens parse fs text includes n (.error (.fileInvalidUtf8 n)) →
      Told (b!"file '" ++ n ++ b!"' is not valid utf-8") (b!"file '" ++ n ++ b!"' is not valid utf-8") (some n)
  /-- A file that does not parse: the first diagnostic. -/
  | notProto {n src e debug} : Involved parse fs text includes files n → Opens parse fs text includes n (.error (.parse e)) →
      parse n src = .error e → ShownKind n src e.kind debug → Told e.kind.message debug (some n)
  /-- An import of a file that is not there, or that is listed twice. -/
  | importMissing {n src imp pre d debug} : Involved parse fs text includes files n → 
      HasImport parse fs text includes n src imp pre d → NoFile fs includes d →
      ShownImport n src imp (b!"import '" ++ d ++ b!"' not found") debug →
      Told (b!"import '" ++ d ++ b!"' not found") debug (some n)
  | importTwice {n src imp pre d debug} : Involved parse fs text includes files n →
      HasImport parse fs text includes n src imp pre d → d ∈ pre →
      ShownImport n src imp (b!"import '" ++ d ++ b!"' was listed twice") debug →
      Told (b!"import '" ++ d ++ b!"' was listed twice") debug (some n)
  /-- Files that import each other in a circle: `a -> b -> c -> b`. -/
  | cycle {l n} : (∀ m, l.head? = some m → ∃ p ∈ files, (defaultResolver parse fs text includes).nameOf p = some m) →
      (defaultResolver parse fs text includes).IsChain (l ++ [n]) → n ∈ l →
      Told (b!"import cycle detected: " ++ l.flatMap (· ++ b!" -> ") ++ n) (b!"import cycle detected: " ++ l.flatMap (· ++ b!" -> ") ++ n)
        (some n)
  /-- What the descriptor pool says about a file. (Which file it says it is about is not modelled.) -/
  | rejected {n f pool code file} : Involved parse fs text includes files n → Opens parse fs text includes n (.ok f) →
      link pool f = .error code → Told (ErrorTexts.check code) (ErrorTexts.checkDebug code) file

end
end Verif.Spec
