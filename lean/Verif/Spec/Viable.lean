import Verif.Spec.Expect
/-! Diagnostics about the syntax of a file. -/
namespace Verif.Spec

/-- Diagnostics of the lexer, or about a token or the end of the file that the parser did not expect. -/
def aboutTokens : ParseErrorKind → Bool
  | .integerOutOfRange _ | .invalidStringCharacters _ | .unterminatedString _ | .invalidStringEscape _
  | .nestedBlockComment _ | .noSpaceBetweenIntAndIdent _ | .hashCommentOutsideTextFormat _
  | .floatSuffixOutsideTextFormat _ | .invalidToken _ | .unexpectedToken .. | .unexpectedEof _ => true
  | _ => false

/-- Diagnostics that say that the tokens are not those of a file: a piece of source that is no token, a token or an end of the
file that is not expected by the grammar (not: the end of a string or of a comment), an unknown syntax. -/
def ungrammatical : ParseErrorKind → Bool
  | .invalidToken _ | .unexpectedToken .. | .unknownSyntax .. => true
  | .unexpectedEof ex => !lexEnd ex
  | _ => false

end Verif.Spec
