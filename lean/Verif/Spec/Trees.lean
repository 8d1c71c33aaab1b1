import Verif.Spec.Whitespace
import Verif.Spec.Reference
import Verif.Spec.Api

/-
Specification: derivation trees.  These are the derivations of Spec/Grammar and Spec/Whitespace, together with the nodes that
stand for them: one node for every definition that is not hidden, with the nodes of what it is made of as its children.  Nothing
in this file refers to the parser; from the model it only uses the type of the nodes.
-/

namespace Treerack.Spec

/-! ### Without whitespace -/

mutual

/-- `Tree G input n i j ns`: the part of the input from `i` to `j` is derived by the definition `n`, and `ns` are the nodes. -/
inductive Tree {N : Type} (G : Grammar N) (input : List Rune) : N → Nat → Nat → List Node → Prop
  | char {n : N} {d : GDef N} {neg : Bool} {chars : List Rune} {ranges : List (Rune × Rune)} {i : Nat} {t : Rune} :
      G n = some d → d.expr = .char neg chars ranges → input[i]? = some t → InClass neg chars ranges t →
      Tree G input n i (i + 1) []
  | choice {n : N} {d : GDef N} {os : List N} {o : N} {i j : Nat} {ns : List Node} :
      G n = some d → d.expr = .choice os → o ∈ os → Tree G input o i j ns → Tree G input n i j (d.wrap input i j ns)
  | seq {n : N} {d : GDef N} {items : List (N × Int × Int)} {i j : Nat} {ns : List Node} :
      G n = some d → d.expr = .seq items → TreeItems G input items i j ns → Tree G input n i j (d.wrap input i j ns)

inductive TreeItems {N : Type} (G : Grammar N) (input : List Rune) : List (N × Int × Int) → Nat → Nat → List Node → Prop
  | nil {i : Nat} : TreeItems G input [] i i []
  | cons {n : N} {mn mx : Int} {items : List (N × Int × Int)} {k i m j : Nat} {ns ms : List Node} :
      TreeTimes G input n k i m ns → InRange mn mx k → TreeItems G input items m j ms →
      TreeItems G input ((n, mn, mx) :: items) i j (ns ++ ms)

inductive TreeTimes {N : Type} (G : Grammar N) (input : List Rune) : N → Nat → Nat → Nat → List Node → Prop
  | zero {n : N} {i : Nat} : TreeTimes G input n 0 i i []
  | succ {n : N} {k i m j : Nat} {ns ms : List Node} :
      TreeTimes G input n k i m ns → Tree G input n m j ms → TreeTimes G input n (k + 1) i j (ns ++ ms)

end

/-- The minimum of the occurrences of an item is not above the maximum. -/
def Ranged {N : Type} (G : Grammar N) : Prop :=
  ∀ n d items x, G n = some d → d.expr = .seq items → x ∈ items → 0 < x.2.2 → x.2.1 ≤ x.2.2

/-- The same for the calls of the definition API. -/
def RangedCalls (cs : List Call) : Prop :=
  ∀ n ct items, Call.sequence n ct items ∈ cs → ∀ it ∈ items, 0 < it.max → it.min ≤ it.max

/-! ### With whitespace -/

/-- The definition has a node: it is not an alias, not a whitespace definition, and not a single character. -/
def Shown {N : Type} (W : WGrammar N) (n : N) (d : GDef N) : Prop :=
  d.alias = false ∧ n ∉ W.ws ∧ ∀ neg chars ranges, d.expr ≠ .char neg chars ranges

mutual

/-- The tree of a definition; the root is always shown, and its node includes the whitespace around it. -/
inductive WTree {N : Type} (W : WGrammar N) (input : List Rune) : N → Nat → Nat → List Node → Prop
  | shown {n : N} {d : GDef N} {i j : Nat} {ns : List Node} : n ≠ W.root → W.G n = some d → Shown W n d → WTreeBody W input n i j ns →
      WTree W input n i j [Node.mk d.name i j input ns]
  | hidden {n : N} {d : GDef N} {i j : Nat} {ns : List Node} : n ≠ W.root → W.G n = some d → ¬ Shown W n d → WTreeBody W input n i j ns →
      WTree W input n i j ns
  | root {d : GDef N} {i a b j : Nat} {us ns vs : List Node} : W.G W.root = some d → TreeGap W input i a us →
      WTreeBody W input W.root a b ns → TreeGap W input b j vs → WTree W input W.root i j [Node.mk d.name i j input (us ++ ns ++ vs)]

inductive WTreeBody {N : Type} (W : WGrammar N) (input : List Rune) : N → Nat → Nat → List Node → Prop
  | char {n : N} {d : GDef N} {neg : Bool} {chars : List Rune} {ranges : List (Rune × Rune)} {i : Nat} {t : Rune} :
      W.G n = some d → d.expr = .char neg chars ranges → input[i]? = some t → InClass neg chars ranges t →
      WTreeBody W input n i (i + 1) []
  | choice {n : N} {d : GDef N} {os : List N} {o : N} {i j : Nat} {ns : List Node} :
      W.G n = some d → d.expr = .choice os → o ∈ os → WTree W input o i j ns → WTreeBody W input n i j ns
  | tight {n : N} {d : GDef N} {items : List (N × Int × Int)} {i j : Nat} {ns : List Node} :
      W.G n = some d → d.expr = .seq items → W.tight n = true → WTreeTight W input items i j ns → WTreeBody W input n i j ns
  | loose {n : N} {d : GDef N} {items : List (N × Int × Int)} {i j : Nat} {ns : List Node} :
      W.G n = some d → d.expr = .seq items → W.tight n = false → WTreeLoose W input true items i j ns →
      WTreeBody W input n i j ns

/-- Any number of whitespace matches.  A whitespace definition is hidden, but it may refer to definitions that are not. -/
inductive TreeGap {N : Type} (W : WGrammar N) (input : List Rune) : Nat → Nat → List Node → Prop
  | nil {i : Nat} : TreeGap W input i i []
  | cons {w : N} {i m j : Nat} {us ns : List Node} : TreeGap W input i m us → w ∈ W.ws → WTree W input w m j ns →
      TreeGap W input i j (us ++ ns)

inductive WTreeTight {N : Type} (W : WGrammar N) (input : List Rune) : List (N × Int × Int) → Nat → Nat → List Node → Prop
  | nil {i : Nat} : WTreeTight W input [] i i []
  | cons {n : N} {mn mx : Int} {items : List (N × Int × Int)} {k i m j : Nat} {ns ms : List Node} :
      WTreeTimes W input n k i m ns → InRange mn mx k → WTreeTight W input items m j ms →
      WTreeTight W input ((n, mn, mx) :: items) i j (ns ++ ms)

inductive WTreeTimes {N : Type} (W : WGrammar N) (input : List Rune) : N → Nat → Nat → Nat → List Node → Prop
  | zero {n : N} {i : Nat} : WTreeTimes W input n 0 i i []
  | succ {n : N} {k i m j : Nat} {ns ms : List Node} :
      WTreeTimes W input n k i m ns → WTree W input n m j ms → WTreeTimes W input n (k + 1) i j (ns ++ ms)

inductive WTreeLoose {N : Type} (W : WGrammar N) (input : List Rune) :
    Bool → List (N × Int × Int) → Nat → Nat → List Node → Prop
  | nil {first : Bool} {i : Nat} : WTreeLoose W input first [] i i []
  | cons {first : Bool} {n : N} {mn mx : Int} {items : List (N × Int × Int)} {k i m j : Nat} {ns ms : List Node} :
      WTreeOcc W input first n k i m ns → InRange mn mx k → WTreeLoose W input false items m j ms →
      WTreeLoose W input first ((n, mn, mx) :: items) i j (ns ++ ms)
  | absent {n : N} {mn : Int} {items : List (N × Int × Int)} {i m j : Nat} {us ms : List Node} :
      mn ≤ 0 → TreeGap W input i m us → WTreeLoose W input false items m j ms →
      WTreeLoose W input false ((n, mn, 1) :: items) i j (us ++ ms)

inductive WTreeOcc {N : Type} (W : WGrammar N) (input : List Rune) : Bool → N → Nat → Nat → Nat → List Node → Prop
  | zero {first : Bool} {n : N} {i : Nat} : WTreeOcc W input first n 0 i i []
  | first {n : N} {i j : Nat} {ns : List Node} : WTree W input n i j ns → WTreeOcc W input true n 1 i j ns
  | succ {first : Bool} {n : N} {k i a b j : Nat} {ns us ms : List Node} : WTreeOcc W input first n k i a ns →
      (first = true → 0 < k) → TreeGap W input a b us → WTree W input n b j ms →
      WTreeOcc W input first n (k + 1) i j (ns ++ us ++ ms)

end

end Treerack.Spec
