import Verif.Spec.Api

/-
Specification: what a grammar with whitespace definitions derives.  Nothing in this file refers to the
code that rewrites the definitions (whitespace.go).

Between two consecutive occurrences in a sequence, any number of whitespace matches is allowed (a gap),
unless the sequence is tight (marked NoWhitespace, or a character sequence, or a whitespace definition).
There may be gaps before and after the root.  Without whitespace definitions every gap is empty.
-/

namespace Treerack.Spec

structure WGrammar (N : Type) where
  G : Grammar N
  /-- the whitespace definitions -/
  ws : List N
  /-- no whitespace between the items -/
  tight : N → Bool
  root : N

mutual

/-- A definition derives its body; the root also the whitespace around it. -/
inductive WDerives {N : Type} (W : WGrammar N) (input : List Rune) : N → Nat → Nat → Prop
  | def_ {n : N} {i j : Nat} : n ≠ W.root → WBody W input n i j → WDerives W input n i j
  | root {i a b j : Nat} : Gap W input i a → WBody W input W.root a b → Gap W input b j →
      WDerives W input W.root i j

inductive WBody {N : Type} (W : WGrammar N) (input : List Rune) : N → Nat → Nat → Prop
  | char {n : N} {d : GDef N} {neg : Bool} {chars : List Rune} {ranges : List (Rune × Rune)}
      {i : Nat} {t : Rune} :
      W.G n = some d → d.expr = .char neg chars ranges → input[i]? = some t →
      InClass neg chars ranges t → WBody W input n i (i + 1)
  | choice {n : N} {d : GDef N} {os : List N} {o : N} {i j : Nat} :
      W.G n = some d → d.expr = .choice os → o ∈ os → WDerives W input o i j → WBody W input n i j
  | tight {n : N} {d : GDef N} {items : List (N × Int × Int)} {i j : Nat} :
      W.G n = some d → d.expr = .seq items → W.tight n = true → WTight W input items i j →
      WBody W input n i j
  | loose {n : N} {d : GDef N} {items : List (N × Int × Int)} {i j : Nat} :
      W.G n = some d → d.expr = .seq items → W.tight n = false → WLoose W input true items i j →
      WBody W input n i j

/-- Any number of whitespace matches. -/
inductive Gap {N : Type} (W : WGrammar N) (input : List Rune) : Nat → Nat → Prop
  | nil {i : Nat} : Gap W input i i
  | cons {w : N} {i m j : Nat} : Gap W input i m → w ∈ W.ws → WDerives W input w m j → Gap W input i j

/-- Items without whitespace. -/
inductive WTight {N : Type} (W : WGrammar N) (input : List Rune) : List (N × Int × Int) → Nat → Nat → Prop
  | nil {i : Nat} : WTight W input [] i i
  | cons {n : N} {mn mx : Int} {items : List (N × Int × Int)} {k i m j : Nat} :
      WTimes W input n k i m → InRange mn mx k → WTight W input items m j →
      WTight W input ((n, mn, mx) :: items) i j

inductive WTimes {N : Type} (W : WGrammar N) (input : List Rune) : N → Nat → Nat → Nat → Prop
  | zero {n : N} {i : Nat} : WTimes W input n 0 i i
  | succ {n : N} {k i m j : Nat} :
      WTimes W input n k i m → WDerives W input n m j → WTimes W input n (k + 1) i j

/-- Items with whitespace between them; the flag tells that these are all the items of the sequence,
from the first on. -/
inductive WLoose {N : Type} (W : WGrammar N) (input : List Rune) :
    Bool → List (N × Int × Int) → Nat → Nat → Prop
  | nil {first : Bool} {i : Nat} : WLoose W input first [] i i
  | cons {first : Bool} {n : N} {mn mx : Int} {items : List (N × Int × Int)} {k i m j : Nat} :
      WOcc W input first n k i m → InRange mn mx k → WLoose W input false items m j →
      WLoose W input first ((n, mn, mx) :: items) i j
  /-- whitespace is also allowed where an optional item could be, but is not -/
  | absent {n : N} {mn : Int} {items : List (N × Int × Int)} {i m j : Nat} :
      mn ≤ 0 → Gap W input i m → WLoose W input false items m j →
      WLoose W input false ((n, mn, 1) :: items) i j

/-- `k` occurrences of `n`, with whitespace before each of them, except before the very first one of the
sequence. -/
inductive WOcc {N : Type} (W : WGrammar N) (input : List Rune) : Bool → N → Nat → Nat → Nat → Prop
  | zero {first : Bool} {n : N} {i : Nat} : WOcc W input first n 0 i i
  | first {n : N} {i j : Nat} : WDerives W input n i j → WOcc W input true n 1 i j
  | succ {first : Bool} {n : N} {k i a b j : Nat} : WOcc W input first n k i a →
      (first = true → 0 < k) → Gap W input a b → WDerives W input n b j →
      WOcc W input first n (k + 1) i j

end

/-- The language meant by the calls of the definition API. -/
def Call.isWs (c : Call) : Bool := c.commit.whitespace

/-- Is no whitespace allowed inside of the definition? -/
def Call.isTight (c : Call) : Bool :=
  c.commit.noWhitespace || c.commit.whitespace || match c with | .charSequence _ _ _ => true | _ => false

def wgrammarOf (calls : List Call) : WGrammar Name where
  G := grammarOf calls
  ws := (calls.filter Call.isWs).map Call.name
  tight := fun n => calls.any fun c => c.name == n && c.isTight
  root := (rootOf calls).getD []

end Treerack.Spec
