import Verif.Proofs.JsonDoc
import Verif.Proofs.ReadDoc
import Verif.Proofs.LookaheadWsTest
import Verif.Proofs.SpacedParse

/-
What is calculated of the syntax in examples/json.treerack.
-/

namespace Treerack
open Spec

section
variable {N : Type}

/-- The highest rank of the items a sequence can begin with. -/
def leadMax (rank : N → Nat) : List (N × Int × Int) → Nat
  | [] => 0
  | x :: xs => max (rank x.1) (if 0 < x.2.1 then 0 else leadMax rank xs)

/-- How deep the definitions can be nested at one position. -/
def rankOf (G : Grammar N) : Nat → N → Nat
  | 0, _ => 0
  | k + 1, n => match G n with
    | some ⟨_, _, .char _ _ _⟩ => 0
    | some ⟨_, _, .choice os⟩ => os.foldr (fun o m => max (rankOf G k o) m) 0 + 1
    | some ⟨_, _, .seq items⟩ => leadMax (rankOf G k) items + 1
    | none => 0
end

def jsonCalls : List Call := documentCalls jsonDoc

set_option maxRecDepth 100000

theorem json_read : readDocument 1000 jsonText = some jsonDoc := by decide +kernel

theorem json_descends : descends (spaced (wgrammarOf jsonCalls)) (fun _ => false) (rankOf (spaced (wgrammarOf jsonCalls)) 20)
    (spacedDefs jsonCalls) = true := by decide +kernel

theorem json_recursion : recursion (spaced (wgrammarOf jsonCalls)) (fun _ => false) (fun _ => false) (spacedDefs jsonCalls) = true := by
  decide +kernel

theorem json_wll1 : wll1Test 7 (wgrammarOf jsonCalls) (jsonCalls.flatMap Call.defs) = true := by decide +kernel

end Treerack
