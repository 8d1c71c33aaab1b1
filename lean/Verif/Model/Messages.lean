import Verif.Model.Syntax

/-
The texts of nodes and of errors: nodehead.go:16-18, syntaxhead.go:73-83.  `%s` and `%d` of fmt are the text and the decimal digits.
-/

namespace Treerack

/-- nodehead.go:16-18 -/
def Node.string (n : Node) : Res (List Rune) :=
  n.text.bind fun t => .ok (n.name ++ runes ":" ++ itoa n.from_ ++ runes ":" ++ itoa n.to ++ runes ":" ++ t)

/-- syntaxhead.go:73-83; the texts of the errors of the reader are not known -/
def Err.message : Err → Option (List Rune)
  | .parseError _ line column definition =>
    some (runes "<input>" ++ runes ":" ++ itoa (line + 1) ++ runes ":" ++ itoa (column + 1) ++ runes ":parse failed, parsing: " ++ definition)
  | .invalidUnicode => some (runes "invalid unicode character")
  | .readErr _ => none

end Treerack
