import Verif.Model.Basic

/-
Specification: grammars and what they derive.  Nothing in this file refers to the parser.

A grammar maps names (of any type `N`) to definitions.  `Derives` reads it as a context free grammar.
-/

namespace Treerack.Spec

/-- The right hand side of a definition. -/
inductive Expr (N : Type) where
  /-- one character: listed or in one of the ranges; or, with `not`, neither of them -/
  | char (not : Bool) (chars : List Rune) (ranges : List (Rune × Rune))
  | choice (options : List N)
  /-- items with their minimum and maximum number of occurrences; a maximum that is not positive means
  that there is no maximum -/
  | seq (items : List (N × Int × Int))

/-- The definitions that the right hand side refers to. -/
def Expr.refs {N : Type} : Expr N → List N
  | .char _ _ _ => []
  | .choice os => os
  | .seq items => items.map Prod.fst

/-- A definition: the name of its nodes, whether its nodes are hidden, and its right hand side. -/
structure GDef (N : Type) where
  name : Name
  alias : Bool
  expr : Expr N

abbrev Grammar (N : Type) := N → Option (GDef N)

/-- With other references. -/
def Expr.map {N M : Type} (f : N → M) : Expr N → Expr M
  | .char neg cs rs => .char neg cs rs
  | .choice os => .choice (os.map f)
  | .seq items => .seq (items.map fun x => (f x.1, x.2.1, x.2.2))

def GDef.map {N M : Type} (f : N → M) (d : GDef N) : GDef M := { name := d.name, alias := d.alias, expr := d.expr.map f }

/-- Membership in a character class. -/
def InClass (not : Bool) (chars : List Rune) (ranges : List (Rune × Rune)) (t : Rune) : Prop :=
  (t ∈ chars ∨ ∃ r ∈ ranges, r.1 ≤ t ∧ t ≤ r.2) ↔ not = false

/-- Is `k` an allowed number of occurrences?  For a range with a minimum above its maximum, which the
code accepts, it is the maximum. -/
def InRange (mn mx : Int) (k : Nat) : Prop :=
  (mn ≤ k ∧ (0 < mx → (k : Int) ≤ mx)) ∨ (0 < mx ∧ mx < mn ∧ (k : Int) = mx)

mutual

/-- `Derives G input n i j`: the part of the input from `i` to `j` is derived by the definition `n`. -/
inductive Derives {N : Type} (G : Grammar N) (input : List Rune) : N → Nat → Nat → Prop
  | char {n : N} {d : GDef N} {neg : Bool} {chars : List Rune} {ranges : List (Rune × Rune)}
      {i : Nat} {t : Rune} :
      G n = some d → d.expr = .char neg chars ranges → input[i]? = some t →
      InClass neg chars ranges t → Derives G input n i (i + 1)
  | choice {n : N} {d : GDef N} {os : List N} {o : N} {i j : Nat} :
      G n = some d → d.expr = .choice os → o ∈ os → Derives G input o i j → Derives G input n i j
  | seq {n : N} {d : GDef N} {items : List (N × Int × Int)} {i j : Nat} :
      G n = some d → d.expr = .seq items → DerivesItems G input items i j → Derives G input n i j

/-- The concatenation of the items, each with an allowed number of occurrences. -/
inductive DerivesItems {N : Type} (G : Grammar N) (input : List Rune) :
    List (N × Int × Int) → Nat → Nat → Prop
  | nil {i : Nat} : DerivesItems G input [] i i
  | cons {n : N} {mn mx : Int} {items : List (N × Int × Int)} {k i m j : Nat} :
      DerivesTimes G input n k i m → InRange mn mx k → DerivesItems G input items m j →
      DerivesItems G input ((n, mn, mx) :: items) i j

/-- `k` consecutive occurrences of `n`. -/
inductive DerivesTimes {N : Type} (G : Grammar N) (input : List Rune) : N → Nat → Nat → Nat → Prop
  | zero {n : N} {i : Nat} : DerivesTimes G input n 0 i i
  | succ {n : N} {k i m j : Nat} :
      DerivesTimes G input n k i m → Derives G input n m j → DerivesTimes G input n (k + 1) i j

end

end Treerack.Spec
