import Verif.Model.Examples
import Verif.Proofs.ExampleDocs
import Verif.Proofs.ReadDoc
import Verif.Proofs.Dependable
import Verif.Proofs.FirmRoot
import Verif.Proofs.ExampleJson

/-
What is calculated of the syntax in examples/sexpr.treerack.  (ExampleJson is imported so that
these calculations are not made at the same time, they need memory.)
-/

namespace Treerack
open Spec

set_option maxRecDepth 100000

theorem sexpr_read : readDocument 3000 sexprText = some sexprDoc := by decide +kernel

/-- How deep the sequences are nested. -/
def sexprRanks : List Nat :=
  [0, 0, 0, 0, 0, 0, 1, 0, 0, 0, 0, 0, 0, 0, 0, 1, 0, 0, 0, 0, 0, 1, 0, 0, 0, 0, 0, 0, 1, 2, 0, 0, 0, 0, 0, 0, 0, 0, 1, 0, 0, 0,
  1, 0, 0, 0, 0, 0, 0, 1, 0, 0, 0, 0, 0, 0, 0, 0, 0, 0, 0, 0, 1, 2, 0, 1]

theorem sexpr_dependable : dependableTest sexprRanks sexprText sexprDoc = true := by decide +kernel

/-- The root is an expression between spaces, the last option of the expressions is the list. -/
def sexprSolid : Solid where
  root := 65
  before := 59
  body := 64
  after := 59
  choice := 57
  options := [29, 42, 51]
  last := 63
  items := [53, 62, 59, 55]
  ranges := [(1, 1), (0, 1), (0, -1), (1, 1)]
  spaces := [59, 1, 6, 0, 3, 60, 2, 4]

theorem sexpr_solid : solidTest sexprSolid sexprDoc = true := by decide +kernel

theorem sexpr_left : leftTest 2 7 sexprDoc = true := by decide +kernel

end Treerack
