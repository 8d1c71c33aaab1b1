import Verif.Model.Builder

/-
Specification: nodes of a tree.
-/

namespace Treerack.Spec

/-- `Sub m n`: `m` is `n` or a node below it. -/
inductive Sub : Node → Node → Prop
  | refl {n : Node} : Sub n n
  | child {m k n : Node} : k ∈ n.nodes → Sub m k → Sub m n

/-- The nodes are between the positions `i` and `j`, one after the other. -/
def InOrder : Nat → List Node → Nat → Prop
  | i, [], j => i ≤ j
  | i, n :: ns, j => i ≤ n.from_ ∧ n.from_ ≤ n.to ∧ InOrder n.to ns j

/-- Every node encloses its children, which follow each other in the order of the text without overlapping. -/
def Nested (t : Node) : Prop := ∀ m, Sub m t → InOrder m.from_ m.nodes m.to

end Treerack.Spec
