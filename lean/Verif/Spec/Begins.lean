import Verif.Spec.Grammar

/-
Specification: beginnings of the texts that a grammar derives.
-/

namespace Treerack.Spec

/-- `Begins G input n i o`: going from left to right, a reader that looks for `n` at `i` can get to `o`.  The part of the input from
`i` to `o` is nothing, or what `n` derives, or the beginning of an option, or items that are derived and then the beginning of the
next occurrence of an item that can still occur. -/
inductive Begins {N : Type} (G : Grammar N) (input : List Rune) : N → Nat → Nat → Prop
  | here {n : N} {i : Nat} : Begins G input n i i
  | done {n : N} {i o : Nat} : Derives G input n i o → Begins G input n i o
  | choice {n : N} {d : GDef N} {os : List N} {x : N} {i o : Nat} :
      G n = some d → d.expr = .choice os → x ∈ os → Begins G input x i o → Begins G input n i o
  | seq {n : N} {d : GDef N} {items before after : List (N × Int × Int)} {x : N} {mn mx : Int} {k i a b o : Nat} :
      G n = some d → d.expr = .seq items → items = before ++ (x, mn, mx) :: after → DerivesItems G input before i a →
      DerivesTimes G input x k a b → (0 < mx → (k : Int) < mx) → Begins G input x b o → Begins G input n i o

/-- The definition derives a text. -/
def Lives {N : Type} (G : Grammar N) (n : N) : Prop := ∃ text, Derives G text n 0 text.length

end Treerack.Spec
