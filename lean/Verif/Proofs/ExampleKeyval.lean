import Verif.Model.Examples
import Verif.Proofs.ExampleDocs
import Verif.Proofs.ReadDoc
import Verif.Proofs.Dependable
import Verif.Proofs.ExampleScheme

/-
What is calculated of the syntax in examples/keyval.treerack.  (ExampleScheme is imported so that
these calculations are not made at the same time, they need memory.)
-/

namespace Treerack
open Spec

set_option maxRecDepth 100000

theorem keyval_read : readDocument 3000 keyvalText = some keyvalDoc := by decide +kernel

/-- How deep the sequences are nested. -/
def keyvalRanks : List Nat :=
  [0, 0, 0, 0, 0, 0, 0, 0, 0, 0, 0, 0, 0, 0, 0, 0, 0, 0, 0, 1, 0, 0, 0, 1, 0, 0, 0, 0, 0, 0, 1, 0, 0, 0, 0, 0, 0, 0, 0, 0, 0, 0,
  0, 0, 0, 0, 0, 0, 0, 0, 0, 0, 0, 0, 1, 0, 0, 0, 0, 0, 0, 0, 0, 0, 0, 0, 0, 0, 0, 0, 0, 0, 0, 0, 1, 2, 3, 4, 5, 6, 7, 1, 2, 1, 2,
  3, 4, 5, 8, 9, 1, 2, 8, 6, 9, 0, 1, 2, 3]

theorem keyval_dependable : dependableTest keyvalRanks keyvalText keyvalDoc = true := by decide +kernel

theorem keyval_left : leftTest 2 16 keyvalDoc = true := by decide +kernel

end Treerack
