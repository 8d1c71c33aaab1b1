import Verif.Spec.Reference

/-
Specification: what a left recursive choice matches, as a base followed by a number of tails.
-/

namespace Treerack.Spec

/-- `Tails G B input ss k i ts j`: tails of the left recursive options `ss` one after the other, from `i` to `j`, found by
attempting the options in turn, beginning with the one with the number `k`, where the first one follows the last one.  A tail is
what follows the first item of the option.  For each of them: the option, where the tail ends, and its nodes. -/
inductive Tails {N : Type} (G : Grammar N) (B : N → Nat → Nat → Prop) (input : List Rune) (ss : List N) :
    Nat → Nat → List (GDef N × Nat × List Node) → Nat → Prop
  | nil {k i : Nat} : Tails G B input ss k i [] i
  /-- the option has a tail -/
  | hit {k i m j : Nat} {s : N} {e : GDef N} {x : N × Int × Int} {tail : List (N × Int × Int)} {ms : List Node}
      {ts : List (GDef N × Nat × List Node)} :
      ss[k % ss.length]? = some s → G s = some e → e.expr = .seq (x :: tail) → RefItems G B input tail 0 i (some (m, ms)) → i < m →
      Tails G B input ss (k + 1) m ts j → Tails G B input ss k i ((e, m, ms) :: ts) j
  /-- the option has no tail here -/
  | miss {k i j : Nat} {s : N} {e : GDef N} {x : N × Int × Int} {tail : List (N × Int × Int)}
      {ts : List (GDef N × Nat × List Node)} :
      ss[k % ss.length]? = some s → G s = some e → e.expr = .seq (x :: tail) → RefItems G B input tail 0 i none →
      Tails G B input ss (k + 1) i ts j → Tails G B input ss k i ts j

/-- The left associative tree: with every tail, the nodes so far and those of the tail become the nodes of the sequence `e`,
and this becomes the node of the choice `d`. -/
def leftAssoc {N : Type} (d : GDef N) (input : List Rune) (i : Nat) : List Node → List (GDef N × Nat × List Node) → List Node
  | ns, [] => ns
  | ns, (e, m, ms) :: ts => leftAssoc d input i (d.wrap input i m (e.wrap input i m (ns ++ ms))) ts

end Treerack.Spec
