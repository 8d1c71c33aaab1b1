import Verif.Model.Examples
import Verif.Proofs.ExampleDocs
import Verif.Proofs.ReadDoc
import Verif.Proofs.Dependable
import Verif.Proofs.ExampleKeyval

/-
What is calculated of the syntax in examples/eskip.treerack.  (ExampleKeyval is imported so that
these calculations are not made at the same time, they need memory.)
-/

namespace Treerack
open Spec

set_option maxRecDepth 100000

theorem eskip_read : readDocument 3000 eskipText = some eskipDoc := by decide +kernel

/-- How deep the sequences are nested. -/
def eskipRanks : List Nat :=
  [0, 0, 0, 0, 0, 0, 0, 0, 0, 1, 0, 0, 0, 0, 0, 0, 0, 0, 1, 0, 0, 1, 0, 0, 0, 0, 1, 0, 0, 0, 0, 0, 1, 0, 0, 2, 0, 0, 2, 2, 0, 0,
  0, 0, 1, 0, 0, 0, 0, 0, 0, 0, 0, 1, 0, 0, 0, 1, 0, 0, 0, 0, 0, 0, 0, 0, 1, 0, 0, 0, 1, 0, 0, 0, 0, 1, 0, 0, 0, 0, 0, 0, 0, 0, 0,
  0, 0, 0, 0, 0, 0, 0, 0, 0, 0, 0, 0, 0, 0, 0, 0, 0, 0, 0, 0, 0, 0, 0, 0, 0, 0, 0, 0, 0, 0, 0, 0, 0, 0, 0, 0, 0, 0, 0, 0, 0, 0, 0,
  0, 0, 0, 0, 0, 0, 0, 0, 0, 0, 0, 0, 0, 0, 0, 0, 0, 0, 0, 0, 1, 2, 3, 4, 5, 6, 7, 8, 9, 10, 6, 7, 8, 9, 10, 2, 11, 12, 2, 13, 1,
  14, 1, 2, 15, 16, 1, 2, 17, 1]

theorem eskip_dependable : dependableTest eskipRanks eskipText eskipDoc = true := by decide +kernel

theorem eskip_left : leftTest 2 10 eskipDoc = true := by decide +kernel

end Treerack
