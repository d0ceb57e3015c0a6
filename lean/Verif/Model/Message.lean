import Verif.Model.Generate
/-!
The texts of errors: `Display` and `Debug` in protox-parse/src/error.rs, protox-parse/src/parse/mod.rs and
protox/src/error.rs.
-/
namespace Verif
open Parse

section
variable [FloatFmt]

/-- `Display for ExpectedToken` (parse/mod.rs:1319-1326). -/
def Parse.Expected.display : Expected → Bytes
  | .token t => b!"'" ++ t.display ++ b!"'"
  | .ident => b!"an identifier"

/-- The part of `fmt_expected` after the first token (parse/mod.rs:1348-1355): the last one is joined with `or`, the others
with commas. -/
def fmtRest : List Expected → Bytes
  | [] => []
  | [t] => b!" or " ++ t.display
  | t :: ts => b!", " ++ t.display ++ fmtRest ts

/-- `fmt_expected` (parse/mod.rs:1343-1357). The code panics on an empty list (`ts[0]`); all lists it is given begin with a
fixed token. -/
def fmtExpected : List Expected → Bytes
  | [] => []
  | t :: ts => t.display ++ fmtRest ts

/-- The `expected` text of `unexpected_token` (parse/mod.rs:1275). -/
def Parse.Expect.render : Expect → Bytes
  | .text s => s
  | .oneOf ts => fmtExpected ts

/-- `Display for ParseErrorKind`, derived from the `#[error(…)]` attributes (protox-parse/src/error.rs:22-215). -/
def ParseErrorKind.message : ParseErrorKind → Bytes
  | .invalidToken _ => b!"invalid token"
  | .integerOutOfRange _ => b!"integer is too large"
  | .invalidStringCharacters _ => b!"invalid string character"
  | .unterminatedString _ => b!"unterminated string"
  | .invalidStringEscape _ => b!"invalid string escape"
  | .invalidUtf8String _ => b!"string is not valid utf-8"
  | .nestedBlockComment _ => b!"nested block comments are not supported"
  | .unknownSyntax s _ => b!"unknown syntax '" ++ s ++ b!"'"
  | .invalidIdentifier _ => b!"invalid identifier"
  | .invalidGroupName _ => b!"invalid group name"
  | .invalidImport _ => b!"invalid group name"
  | .duplicatePackage _ _ => b!"multiple package names specified"
  | .noSpaceBetweenIntAndIdent _ => b!"whitespace is required between an integer literal and an identifier"
  | .hashCommentOutsideTextFormat _ => b!"'#' comments are not allowed here"
  | .floatSuffixOutsideTextFormat _ => b!"'f' suffix for float literals is not allowed"
  | .unexpectedToken ex found _ => b!"expected " ++ ex.render ++ b!", but found '" ++ found.display ++ b!"'"
  | .unexpectedEof ex => b!"expected " ++ ex.render ++ b!", but reached end of file"
  | .negativeIdentOutsideDefault _ => b!"identifiers may not be negative"
  | .invalidMessageNumber _ => b!"message numbers must be between 1 and 536870911"
  | .invalidEnumNumber _ => b!"enum numbers must be between -2147483648 and 2147483647"
  | .invalidDefault kind _ => kind ++ b!" fields may not have default values"
  | .proto3DefaultValue _ => b!"default values are not allowed in proto3"
  | .invalidExtendFieldKind kind _ => kind ++ b!" fields are not allowed in extensions"
  | .requiredExtendField _ => b!"extension fields may not be required"
  | .mapFieldWithLabel _ => b!"map fields cannot have labels"
  | .oneofFieldWithLabel _ => b!"oneof fields cannot have labels"
  | .proto2FieldMissingLabel _ =>
    b!"fields must have a label with proto2 syntax (expected one of 'optional', 'repeated' or 'required')"
  | .proto3GroupField _ => b!"groups are not allowed in proto3 syntax"
  | .proto3RequiredField _ => b!"required fields are not allowed in proto3 syntax"
  | .invalidOneofFieldKind kind _ => kind ++ b!" fields are not allowed in a oneof"
  | .invalidMapFieldKeyType _ => b!"a map field key type must be an integer, boolean or string"
  | .valueInvalidType ex actual _ => b!"expected value to be " ++ ex ++ b!", but found '" ++ actual.display ++ b!"'"
  | .integerValueOutOfRange ex actual _ _ _ =>
    b!"expected value to be " ++ ex ++ b!", but the value " ++ actual.display ++ b!" is out of range"
  | .emptyOneof _ => b!"a oneof must have at least one field"
  | .fileTooLarge => b!"file is too large"

/-- `Diagnostic::help` of `ParseErrorKind`, from the `help(…)` attributes (protox-parse/src/error.rs:22-215). -/
def ParseErrorKind.help : ParseErrorKind → Option Bytes
  | .unknownSyntax .. => some b!"possible values are 'proto2' and 'proto3'"
  | .invalidIdentifier _ =>
    some b!"identifiers must consist of letters, numbers and underscores, and may not start with a number"
  | .invalidGroupName _ =>
    some b!"group names must consist of a capital letter followed by letters, numbers and underscores"
  | .invalidImport _ =>
    some b!"imports may not contain backslashes, repeated forward slashes, '.' or '..' components"
  | .integerValueOutOfRange _ _ min max _ =>
    some (b!"the value must be between " ++ decimalInt min ++ b!" and " ++ decimalInt max ++ b!" inclusive")
  | .fileTooLarge => some b!"the maximum file length is 2,147,483,647 bytes"
  | _ => none

/-- `SourceCode::read_span(span, 0, 0)` of miette for a named source, as far as the code uses it: the line and the column
(both counted from zero) of the start of the span (offset, length), `none` if the span is not in the source. It is not part
of /repo and stays a parameter. -/
class Miette where
  place : Bytes → Nat × Nat → Option (Nat × Nat)

/-- `write!(f, "{}:{}: ", line + 1, column + 1)` (protox-parse/src/error.rs:290-295, protox/src/error.rs:238-243). -/
def lineColumn (p : Nat × Nat) : Bytes := decimal (p.1 + 1) ++ b!":" ++ decimal (p.2 + 1) ++ b!": "

/-- `Display for ParseError` (protox-parse/src/error.rs:11). -/
def ParseError.display (e : ParseError) : Bytes := e.kind.message

/-- `Debug for ParseError` (protox-parse/src/error.rs:282-301). A named source always has a name. `span.into()` turns the
range into an offset and a length. -/
def ParseError.debug [Miette] (e : ParseError) : Bytes :=
  (match e.kind.span? with
    | some sp =>
      match Miette.place e.source (sp.start, sp.stop - sp.start) with
      | some p => e.file ++ b!":" ++ lineColumn p
      | none => []
    | none => []) ++ e.display

/-- The texts of errors that come from outside the code: the descriptor pool, `std::io` and custom errors. -/
class ErrorTexts where
  check : Nat → Bytes
  checkDebug : Nat → Bytes
  io : IoError → Bytes
  custom : Nat → Bytes
  customDebug : Nat → Bytes

/-- `Display for Error`, from the `#[error(…)]` attributes (protox/src/error.rs:12, 18-70). Paths are displayed as they are
(paths that are not UTF-8 are not modelled). -/
def Error.display [ErrorTexts] : Error → Bytes
  | .parse err => err.display
  | .check c => ErrorTexts.check c
  | .openFile _ path _ => b!"error opening file '" ++ path ++ b!"'"
  | .fileTooLarge n => b!"file '" ++ n ++ b!"' is too large"
  | .fileInvalidUtf8 n => b!"file '" ++ n ++ b!"' is not valid utf-8"
  | .fileNotFound n => b!"file '" ++ n ++ b!"' not found"
  | .importNotFound _ _ _ n => b!"import '" ++ n ++ b!"' not found"
  | .circularImport _ cycle => b!"import cycle detected: " ++ cycle
  | .fileNotIncluded path => b!"file '" ++ path ++ b!"' is not in any include path"
  | .fileShadowed _ path shadow => b!"path '" ++ path ++ b!"' is shadowed by '" ++ shadow ++ b!"' in the include paths"
  | .duplicateImport _ _ _ n => b!"import '" ++ n ++ b!"' was listed twice"
  | .custom _ c => ErrorTexts.custom c

/-- `Debug for Error` (protox/src/error.rs:216-250). -/
def Error.debug [Miette] [ErrorTexts] (e : Error) : Bytes :=
  match e with
  | .parse err => err.debug
  | .check c => ErrorTexts.checkDebug c
  | .openFile _ _ err => e.display ++ b!": " ++ ErrorTexts.io err
  | .fileTooLarge _ | .fileInvalidUtf8 _ | .fileNotFound _ | .circularImport .. | .fileNotIncluded _ | .fileShadowed .. =>
    e.display
  | .custom _ c => ErrorTexts.customDebug c
  | .duplicateImport span file source _ | .importNotFound span file source _ =>
    file ++ b!":" ++
      (match span with
        | some sp => match Miette.place source sp with
          | some p => lineColumn p
          | none => []
        | none => []) ++ e.display

/-- `Diagnostic::help` of `Error`, from the `help(…)` attributes (protox/src/error.rs:12-14, 18-70). Paths are displayed as
they are. The help of a linker error is that of prost-reflect and is not modelled. -/
def Error.help : Error → Option Bytes
  | .parse e => e.kind.help
  | .fileTooLarge _ => some b!"the maximum file length is 2,147,483,647 bytes"
  | .fileShadowed _ path shadow =>
    some (b!"either pass '" ++ shadow ++ b!"' as the input file, or re-order the include paths so that '" ++ path ++
      b!"' comes first")
  | _ => none

end
end Verif
