import Verif.Model.Ast
import Verif.Model.Token
/-!
Errors: `protox-parse/src/error.rs` and `protox/src/error.rs`.
-/
namespace Verif

/-- `ParseErrorKind` (protox-parse/src/error.rs:22-216). The `String` fields `expected`
(of the two parser errors), `found`, `actual`, `min` and `max` are kept as what they are the text of (Model/Message.lean
has the texts). -/
inductive ParseErrorKind where
  | invalidToken (span : Span)
  | integerOutOfRange (span : Span)
  | invalidStringCharacters (span : Span)
  | unterminatedString (span : Span)
  | invalidStringEscape (span : Span)
  | invalidUtf8String (span : Span)
  | nestedBlockComment (span : Span)
  | unknownSyntax (syntax' : Bytes) (span : Span)
  | invalidIdentifier (span : Span)
  | invalidGroupName (span : Span)
  | invalidImport (span : Span)
  | duplicatePackage (first second : Span)
  | noSpaceBetweenIntAndIdent (span : Span)
  | hashCommentOutsideTextFormat (span : Span)
  | floatSuffixOutsideTextFormat (span : Span)
  | unexpectedToken (expected : Parse.Expect) (found : Token) (span : Span)
  | unexpectedEof (expected : Parse.Expect)
  | negativeIdentOutsideDefault (span : Span)
  | invalidMessageNumber (span : Span)
  | invalidEnumNumber (span : Span)
  | invalidDefault (kind : Bytes) (span : Span)
  | proto3DefaultValue (span : Span)
  | invalidExtendFieldKind (kind : Bytes) (span : Span)
  | requiredExtendField (span : Span)
  | mapFieldWithLabel (span : Span)
  | oneofFieldWithLabel (span : Span)
  | proto2FieldMissingLabel (span : Span)
  | proto3GroupField (span : Span)
  | proto3RequiredField (span : Span)
  | invalidOneofFieldKind (kind : Bytes) (span : Span)
  | invalidMapFieldKeyType (span : Span)
  | valueInvalidType (expected : Bytes) (actual : Ast.OptionValue) (span : Span)
  | integerValueOutOfRange (expected : Bytes) (actual : Ast.Int') (min max : Int) (span : Span)
  | emptyOneof (span : Span)
  | fileTooLarge
  deriving DecidableEq, Repr

/-- All spans in a `ParseErrorKind` (the labelled fields of protox-parse/src/error.rs:22-216). -/
def ParseErrorKind.spans : ParseErrorKind → List Span
  | .invalidToken s | .integerOutOfRange s | .invalidStringCharacters s | .unterminatedString s
  | .invalidStringEscape s | .invalidUtf8String s | .nestedBlockComment s | .unknownSyntax _ s
  | .invalidIdentifier s | .invalidGroupName s | .invalidImport s
  | .noSpaceBetweenIntAndIdent s | .hashCommentOutsideTextFormat s | .floatSuffixOutsideTextFormat s
  | .unexpectedToken _ _ s | .negativeIdentOutsideDefault s | .invalidMessageNumber s
  | .invalidEnumNumber s | .invalidDefault _ s | .proto3DefaultValue s | .invalidExtendFieldKind _ s
  | .requiredExtendField s | .mapFieldWithLabel s | .oneofFieldWithLabel s
  | .proto2FieldMissingLabel s | .proto3GroupField s | .proto3RequiredField s
  | .invalidOneofFieldKind _ s | .invalidMapFieldKeyType s | .valueInvalidType _ _ s
  | .integerValueOutOfRange _ _ _ _ s | .emptyOneof s => [s]
  | .duplicatePackage a b => [a, b]
  | .unexpectedEof _ | .fileTooLarge => []

/-- `ParseErrorKind → ParseError::span` (protox-parse/src/error.rs:241-279). -/
def ParseErrorKind.span? : ParseErrorKind → Option Span
  | .duplicatePackage _ _ => none
  | .unexpectedEof _ => none
  | .fileTooLarge => none
  | .unknownSyntax _ s => some s
  | k => k.spans.head?

/-- `ParseError` (protox-parse/src/error.rs:13-19): first kind, other kinds, file name, source. -/
structure ParseError where
  kind : ParseErrorKind
  related : List ParseErrorKind
  file : Bytes
  source : Bytes
  deriving DecidableEq, Repr

/-- `ParseError::new` (protox-parse/src/error.rs:219-227); `related.remove(0)` panics on an empty
list, modelled by `none`. -/
def ParseError.new (errs : List ParseErrorKind) (name source : Bytes) : Option ParseError :=
  match errs with
  | [] => none
  | k :: ks => some ⟨k, ks, name, source⟩

/-- All kinds in the error, `ParseError::into_inner` (protox-parse/src/error.rs:230-233). -/
def ParseError.kinds (e : ParseError) : List ParseErrorKind := e.kind :: e.related

/-- `std::io::ErrorKind`, as far as `File::open` distinguishes it. -/
inductive IoError where
  | notFound | invalidData | other (code : Nat)
  deriving DecidableEq, Repr

/-- `protox::ErrorKind` (protox/src/error.rs:18-70). `SourceSpan`s are (offset, length).  The error of the
descriptor pool (`Check`) and boxed custom errors are opaque numbers. -/
inductive Error where
  | parse (err : ParseError)
  | check (code : Nat)
  | openFile (name path : Bytes) (err : IoError)
  | fileTooLarge (name : Bytes)
  | fileInvalidUtf8 (name : Bytes)
  | fileNotFound (name : Bytes)
  | importNotFound (span : Option (Nat × Nat)) (inFile : Bytes) (source : Bytes) (name : Bytes)
  | circularImport (name : Bytes) (cycle : Bytes)
  | fileNotIncluded (path : Bytes)
  | fileShadowed (name path shadow : Bytes)
  | duplicateImport (span : Option (Nat × Nat)) (inFile : Bytes) (source : Bytes) (name : Bytes)
  | custom (isIo : Bool) (code : Nat)
  deriving DecidableEq, Repr

namespace Error

/-- `Error::is_file_not_found` (protox/src/error.rs:120-127). -/
def isFileNotFound : Error → Bool
  | .fileNotFound _ | .importNotFound .. | .fileNotIncluded _ => true
  | _ => false

/-- `Error::is_parse` (protox/src/error.rs:130-137). -/
def isParse : Error → Bool
  | .parse _ | .fileTooLarge _ | .fileInvalidUtf8 _ => true
  | _ => false

/-- `Error::is_io` (protox/src/error.rs:140-146). -/
def isIo : Error → Bool
  | .openFile .. => true
  | .custom isIo _ => isIo
  | _ => false

/-- `Error::file` (protox/src/error.rs:91-106); the file named by a pool error is not modelled. -/
def file? : Error → Option Bytes
  | .parse err => some err.file
  | .check _ => none
  | .openFile n _ _ | .fileTooLarge n | .fileInvalidUtf8 n | .fileNotFound n | .circularImport n _
  | .fileShadowed n _ _ => some n
  | .fileNotIncluded _ => none
  | .custom .. => none
  | .importNotFound _ f _ _ | .duplicateImport _ f _ _ => some f

end Error
end Verif
