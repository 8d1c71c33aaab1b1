import Verif.Model.Examples
import Verif.Proofs.ExampleDocs
import Verif.Proofs.ReadDoc
import Verif.Proofs.Dependable
import Verif.Proofs.ExampleSexpr

/-
What is calculated of the syntax in examples/scheme.treerack.  (ExampleSexpr is imported so that
these calculations are not made at the same time, they need memory.)
-/

namespace Treerack
open Spec

set_option maxRecDepth 100000

theorem scheme_read : readDocument 3000 schemeText = some schemeDoc := by decide +kernel

/-- How deep the sequences are nested. -/
def schemeRanks : List Nat :=
  [0, 0, 0, 0, 0, 0, 1, 0, 0, 0, 0, 0, 0, 0, 0, 1, 0, 0, 0, 0, 0, 1, 0, 0, 0, 0, 0, 0, 1, 2, 0, 0, 0, 0, 0, 0, 0, 0, 1, 0, 0, 0,
  1, 0, 0, 0, 0, 0, 0, 1, 0, 0, 0, 0, 0, 0, 0, 0, 0, 0, 0, 0, 0, 0, 0, 0, 0, 0, 0, 0, 0, 0, 1, 2, 0, 1, 2, 0, 0, 0, 1, 2, 3]

theorem scheme_dependable : dependableTest schemeRanks schemeText schemeDoc = true := by decide +kernel

theorem scheme_left : leftTest 2 8 schemeDoc = true := by decide +kernel

end Treerack
