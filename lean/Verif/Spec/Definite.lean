import Verif.Spec.Lookahead
import Verif.Spec.LookaheadWs
import Verif.Spec.Trees

/-
Specification: grammars whose texts have a single derivation tree, provided that one character of lookahead is enough
(Spec/Lookahead.lean, Spec/LookaheadWs.lean).  Nothing in this file refers to the parser.
-/

namespace Treerack.Spec

/-- An empty text is derived in a single way. -/
structure Definite {N : Type} (G : Grammar N) : Prop where
  /-- only one of the options may be empty -/
  options : ∀ {n d os o o'}, G n = some d → d.expr = .choice os → o ∈ os → o' ∈ os → o' ≠ o → Nullable G o → ¬ Nullable G o'
  /-- an item that may be empty is there exactly once -/
  items : ∀ {n d items x mn mx}, G n = some d → d.expr = .seq items → (x, mn, mx) ∈ items → Nullable G x → mn = 1 ∧ mx = 1

/-! ### With whitespace -/

/-- The definition matches single characters, without a node. -/
inductive Quiet {N : Type} (W : WGrammar N) : N → Prop
  | char {n : N} {d : GDef N} {neg : Bool} {chars : List Rune} {ranges : List (Rune × Rune)} :
      W.G n = some d → d.expr = .char neg chars ranges → Quiet W n
  | choice {n : N} {d : GDef N} {os : List N} :
      W.G n = some d → d.expr = .choice os → ¬ Shown W n d → (∀ o ∈ os, Quiet W o) → Quiet W n
  | seq {n : N} {d : GDef N} {x : N} :
      W.G n = some d → d.expr = .seq [(x, 1, 1)] → ¬ Shown W n d → Quiet W x → Quiet W n

/-- It is certain where the whitespace belongs. -/
structure WDefinite {N : Type} (W : WGrammar N) : Prop where
  /-- the whitespace has no nodes -/
  quiet : ∀ w ∈ W.ws, Quiet W w
  /-- where whitespace is allowed between the items, a single item that may be left out has an item behind it that may not -/
  closed : ∀ {n d front x mn back}, W.G n = some d → d.expr = .seq (front ++ (x, mn, 1) :: back) → W.tight n = false → mn ≤ 0 →
    ∃ y ∈ back, 0 < y.2.1

end Treerack.Spec
