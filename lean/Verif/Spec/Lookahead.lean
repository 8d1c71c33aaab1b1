import Verif.Spec.Reference

/-
Specification: grammars for which one character tells how to continue, LL(1) in the theory of parsing.  Nothing in this file
refers to the parser.
-/

namespace Treerack.Spec

section

variable {N : Type} (G : Grammar N)

/-- All the items may match the empty text. -/
def NullItems (items : List (N × Int × Int)) : Prop := ∀ x ∈ items, 0 < x.2.1 → Nullable G x.1

mutual

/-- A text of `n` may start with the character. -/
inductive FirstChar : N → Rune → Prop
  | char {n : N} {d : GDef N} {neg : Bool} {chars : List Rune} {ranges : List (Rune × Rune)} {t : Rune} :
      G n = some d → d.expr = .char neg chars ranges → InClass neg chars ranges t → FirstChar n t
  | choice {n : N} {d : GDef N} {os : List N} {o : N} {t : Rune} :
      G n = some d → d.expr = .choice os → o ∈ os → FirstChar o t → FirstChar n t
  | seq {n : N} {d : GDef N} {items : List (N × Int × Int)} {t : Rune} :
      G n = some d → d.expr = .seq items → FirstCharItems items t → FirstChar n t

/-- A text of the items may start with the character. -/
inductive FirstCharItems : List (N × Int × Int) → Rune → Prop
  | here {x : N} {mn mx : Int} {items : List (N × Int × Int)} {t : Rune} : FirstChar x t → FirstCharItems ((x, mn, mx) :: items) t
  | next {x : N} {mn mx : Int} {items : List (N × Int × Int)} {t : Rune} :
      (0 < mn → Nullable G x) → FirstCharItems items t → FirstCharItems ((x, mn, mx) :: items) t

end

/-- `Follow G root n c`: in a text of the root, `c` may come behind the part of `n`; `none` is the end of the text. -/
inductive Follow (root : N) : N → Option Rune → Prop
  | root : Follow root root none
  | option {n : N} {d : GDef N} {os : List N} {o : N} {c : Option Rune} :
      Follow root n c → G n = some d → d.expr = .choice os → o ∈ os → Follow root o c
  /-- the next item -/
  | next {n : N} {d : GDef N} {front back : List (N × Int × Int)} {x : N} {mn mx : Int} {t : Rune} :
      G n = some d → d.expr = .seq (front ++ (x, mn, mx) :: back) → FirstCharItems G back t → Follow root x (some t)
  /-- the same item again -/
  | again {n : N} {d : GDef N} {front back : List (N × Int × Int)} {x : N} {mn mx : Int} {t : Rune} :
      G n = some d → d.expr = .seq (front ++ (x, mn, mx) :: back) → mx ≠ 1 → FirstChar G x t → Follow root x (some t)
  /-- what comes behind the sequence -/
  | last {n : N} {d : GDef N} {front back : List (N × Int × Int)} {x : N} {mn mx : Int} {c : Option Rune} :
      Follow root n c → G n = some d → d.expr = .seq (front ++ (x, mn, mx) :: back) → NullItems G back → Follow root x c

/-- One character decides which option of a choice to take, and whether there is another occurrence of an item. -/
structure LL1 (root : N) : Prop where
  /-- two options do not start with the same character -/
  options : ∀ {n d os o o' t}, G n = some d → d.expr = .choice os → o ∈ os → o' ∈ os → o' ≠ o → FirstChar G o t → ¬ FirstChar G o' t
  /-- when an option may be empty, the others do not start with what may follow -/
  empty : ∀ {n d os o o' t}, G n = some d → d.expr = .choice os → o ∈ os → o' ∈ os → o' ≠ o → Nullable G o → FirstChar G o' t →
    ¬ Follow G root n (some t)
  /-- an item whose number of occurrences may vary does not start like the next items -/
  items : ∀ {n d front x mn mx back t}, G n = some d → d.expr = .seq (front ++ (x, mn, mx) :: back) → ¬ (0 < mx ∧ mx ≤ mn) →
    FirstChar G x t → ¬ FirstCharItems G back t
  /-- nor like what may follow the sequence -/
  ends : ∀ {n d front x mn mx back t}, G n = some d → d.expr = .seq (front ++ (x, mn, mx) :: back) → ¬ (0 < mx ∧ mx ≤ mn) →
    FirstChar G x t → NullItems G back → ¬ Follow G root n (some t)

variable (input : List Rune)

/-- `Within G input root n i j`: a derivation of the whole text from the root contains one of the text from `i` to `j`
from `n`. -/
inductive Within (root : N) : N → Nat → Nat → Prop
  | root : Derives G input root 0 input.length → Within root root 0 input.length
  | option {n : N} {d : GDef N} {os : List N} {o : N} {i j : Nat} :
      Within root n i j → G n = some d → d.expr = .choice os → o ∈ os → Derives G input o i j → Within root o i j
  | item {n : N} {d : GDef N} {front back : List (N × Int × Int)} {x : N} {mn mx : Int} {i j a k b c l e : Nat} :
      Within root n i j → G n = some d → d.expr = .seq (front ++ (x, mn, mx) :: back) → DerivesItems G input front i a →
      DerivesTimes G input x k a b → Derives G input x b c → DerivesTimes G input x l c e → InRange mn mx (k + 1 + l) →
      DerivesItems G input back e j → Within root x b c

/-- The derivations of the text are those that take as much as possible: no other option is longer than the one of the
derivation, and no further occurrence of an item is possible behind those in the derivation.  `B`: the texts that a sequence is
not allowed to match. -/
structure Decisive (B : N → Nat → Nat → Prop) (root : N) : Prop where
  options : ∀ {n d os o o' i j j'}, Within G input root n i j → G n = some d → d.expr = .choice os → o ∈ os → Derives G input o i j →
    o' ∈ os → o' ≠ o → Derives G input o' i j' → j' ≤ j
  items : ∀ {n d front x mn mx back i a k b j c}, Within G input root n i j → G n = some d →
    d.expr = .seq (front ++ (x, mn, mx) :: back) → DerivesItems G input front i a → DerivesTimes G input x k a b → InRange mn mx k →
    ¬ (0 < mx ∧ (k : Int) = mx) → DerivesItems G input back b j → Derives G input x b c → c ≤ b
  allowed : ∀ {n d items i j}, Within G input root n i j → G n = some d → d.expr = .seq items → ¬ B n i j

end

end Treerack.Spec
