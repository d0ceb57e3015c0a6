import Verif.Model.Error
/-! Line endings. -/
namespace Verif.Spec

/-- The text with its line endings in the Unix form: `\r\n` becomes `\n`, and all else stays. -/
def unix : Bytes → Bytes
  | 13 :: 10 :: r => 10 :: unix r
  | b :: r => b :: unix r
  | [] => []

/-- The text with a carriage return in front of every line feed. -/
def dos : Bytes → Bytes
  | 10 :: r => 13 :: 10 :: dos r
  | b :: r => b :: dos r
  | [] => []

end Verif.Spec
