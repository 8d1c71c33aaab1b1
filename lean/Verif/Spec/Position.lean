import Verif.Model.Basic

/-
Specification: lines and columns.
-/

namespace Treerack.Spec

/-- The number of newline characters among the first `offset` characters. -/
def lineOf (text : List Rune) (offset : Nat) : Nat := (text.take offset).count newline

/-- The number of characters between the last newline before `offset` and `offset`. -/
def columnOf (text : List Rune) (offset : Nat) : Nat :=
  ((text.take offset).reverse.takeWhile (· != newline)).length

end Treerack.Spec
