import Verif.Proofs.JsonRank
import Verif.Proofs.Dependable
import Verif.Proofs.FirmRoot
import Verif.Proofs.Bootstrap

/-
What is calculated of the syntax in examples/json.treerack, in addition to Proofs/JsonRank.lean.
(Bootstrap is imported so that these calculations are not made at the same time, they need memory.)
-/

namespace Treerack
open Spec

set_option maxRecDepth 100000

/-- How deep the sequences are nested. -/
def jsonRanks : List Nat :=
  [0, 0, 0, 0, 0, 0, 0, 0, 0, 0, 0, 0, 0, 0, 0, 0, 0, 0, 0, 0, 0, 0, 0, 0, 0, 0, 0, 0, 0, 0, 1, 0, 1, 0, 0, 0, 1, 0, 0, 0, 0, 0,
  0, 0, 0, 1, 0, 0, 0, 0, 0, 1, 0, 0, 0, 0, 0, 0, 1, 2, 0, 0, 0, 0, 0, 0, 0, 0, 0, 0, 0, 0, 0, 0, 0, 0, 0, 0, 0, 0, 0, 0, 0, 0, 2,
  3, 4, 5, 6, 7, 1, 2, 3, 4, 5, 0, 1]

theorem json_dependable : dependableTest jsonRanks jsonText jsonDoc = true := by decide +kernel

/-- The root is an expression between spaces, the last option of the expressions is the object. -/
def jsonSolid : Solid where
  root := 96
  before := 83
  body := 95
  after := 83
  choice := 81
  options := [6, 12, 17, 36, 59, 89]
  last := 94
  items := [73, 83, 93, 83, 79]
  ranges := [(1, 1), (0, -1), (0, 1), (0, -1), (1, 1)]
  spaces := [83, 1, 0]

theorem json_solid : solidTest jsonSolid jsonDoc = true := by decide +kernel

theorem json_left : leftTest 2 10 jsonDoc = true := by decide +kernel

end Treerack
