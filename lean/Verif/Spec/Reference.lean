import Verif.Spec.Grammar
import Verif.Model.Builder

/-
Specification: the reference semantics of a grammar, and left recursion.  Nothing in this file refers to the
parser or to the builder; from the model it only uses the type of the nodes.
-/

namespace Treerack.Spec

/-- The node of a match, or, for an alias, the nodes inside. -/
def GDef.wrap {N : Type} (d : GDef N) (input : List Rune) (i j : Nat) (ns : List Node) : List Node :=
  if d.alias then ns else [Node.mk d.name i j input ns]

/-- A match is the position where it ends and the list of its nodes; `none`: there is no match. -/
abbrev Match := Option (Nat × List Node)

/-- The longer one; the first one when they are equally long. -/
def better : Match → Match → Match
  | none, m => m
  | some x, none => some x
  | some x, some y => if x.1 < y.1 then some y else some x

/-- Nodes in front of a match. -/
def prepend (ns : List Node) (m : Match) : Match := m.map fun x => (x.1, ns ++ x.2)

/-- `s` is a left recursive option of the choice `n`: a sequence that starts with exactly one `n`. -/
def Recurs {N : Type} (G : Grammar N) (n s : N) : Prop :=
  ∃ d os e tail, G n = some d ∧ d.expr = .choice os ∧ s ∈ os ∧ G s = some e ∧ e.expr = .seq ((n, 1, 1) :: tail)

/-- The options `os` of `n` are the left recursive ones `fs`, then the others, `bs`, and then further left recursive ones, `ls`. -/
structure Growth {N : Type} (G : Grammar N) (n : N) (os fs bs ls : List N) : Prop where
  options : os = fs ++ (bs ++ ls)
  firsts : ∀ o ∈ fs, Recurs G n o
  bases : ∀ o ∈ bs, ¬ Recurs G n o
  lasts : ∀ o ∈ ls, Recurs G n o
  /-- with no other options, all the left recursive ones are counted as the first ones -/
  canonical : bs = [] → ls = []

mutual

/-- `Ref G B input n i m`: the definition `n` tried at the position `i` results in `m`.  `B n i j`: the sequence `n` is not
allowed to match the text from `i` to `j`. -/
inductive Ref {N : Type} (G : Grammar N) (B : N → Nat → Nat → Prop) (input : List Rune) : N → Nat → Match → Prop
  /-- a character of the class -/
  | char {n : N} {d : GDef N} {neg : Bool} {chars : List Rune} {ranges : List (Rune × Rune)} {i : Nat}
      {t : Rune} :
      G n = some d → d.expr = .char neg chars ranges → input[i]? = some t → InClass neg chars ranges t →
      Ref G B input n i (some (i + 1, []))
  /-- another character, or the end of the input -/
  | noChar {n : N} {d : GDef N} {neg : Bool} {chars : List Rune} {ranges : List (Rune × Rune)} {i : Nat} :
      G n = some d → d.expr = .char neg chars ranges →
      (∀ t, input[i]? = some t → ¬ InClass neg chars ranges t) → Ref G B input n i none
  /-- a choice takes the longest of its options, the first one of those equally long -/
  | choice {n : N} {d : GDef N} {os : List N} {i : Nat} {m : Match} :
      G n = some d → d.expr = .choice os → (∀ o, ¬ Recurs G n o) → RefOptions G B input os i m →
      Ref G B input n i (m.map fun x => (x.1, d.wrap input i x.1 x.2))
  /-- a left recursive choice: none of its other options matches -/
  | noBase {n : N} {d : GDef N} {os fs bs ls : List N} {i : Nat} :
      G n = some d → d.expr = .choice os → (∃ s, Recurs G n s) → Growth G n os fs bs ls → RefOptions G B input bs i none →
      Ref G B input n i none
  /-- a left recursive choice: the longest of its other options, and then as many tails of the left recursive ones as possible -/
  | grow {n : N} {d : GDef N} {os fs bs ls : List N} {i k j : Nat} {ns : List Node} :
      G n = some d → d.expr = .choice os → (∃ s, Recurs G n s) → Growth G n os fs bs ls →
      RefChain G B input d (ls ++ fs) bs i k j ns → RefFails G B input (ls ++ fs) j → Ref G B input n i (some (j, ns))
  | seq {n : N} {d : GDef N} {items : List (N × Int × Int)} {i : Nat} {m : Match} :
      G n = some d → d.expr = .seq items → RefItems G B input items 0 i m → (∀ x, m = some x → ¬ B n i x.1) →
      Ref G B input n i (m.map fun x => (x.1, d.wrap input i x.1 x.2))
  /-- the items match, but the text is not allowed -/
  | blocked {n : N} {d : GDef N} {items : List (N × Int × Int)} {i j : Nat} {ns : List Node} :
      G n = some d → d.expr = .seq items → RefItems G B input items 0 i (some (j, ns)) → B n i j → Ref G B input n i none

inductive RefOptions {N : Type} (G : Grammar N) (B : N → Nat → Nat → Prop) (input : List Rune) : List N → Nat → Match → Prop
  | nil {i : Nat} : RefOptions G B input [] i none
  | cons {o : N} {os : List N} {i : Nat} {m ms : Match} :
      Ref G B input o i m → RefOptions G B input os i ms → RefOptions G B input (o :: os) i (better m ms)

/-- `RefChain G B input d ss bs i k j ns`: the left recursive choice `d`, with the left recursive options `ss` and the other
ones `bs`, started at `i`, has matched the text until `j` after `k` attempts to find a tail, and its nodes are `ns`.  The options
`ss` are attempted one after the other, behind the last one comes the first one again.  With every tail, the nodes so far become
the first ones of the sequence `e`, and this becomes the option of the choice: a left associative tree. -/
inductive RefChain {N : Type} (G : Grammar N) (B : N → Nat → Nat → Prop) (input : List Rune) :
    GDef N → List N → List N → Nat → Nat → Nat → List Node → Prop
  | base {d : GDef N} {ss bs : List N} {i j : Nat} {ns : List Node} :
      RefOptions G B input bs i (some (j, ns)) → RefChain G B input d ss bs i 0 j (d.wrap input i j ns)
  | skip {d : GDef N} {ss bs : List N} {i k j : Nat} {ns : List Node} {s : N} {e : GDef N} {x : N × Int × Int}
      {tail : List (N × Int × Int)} :
      RefChain G B input d ss bs i k j ns → ss[k % ss.length]? = some s → G s = some e → e.expr = .seq (x :: tail) →
      RefItems G B input tail 0 j none → RefChain G B input d ss bs i (k + 1) j ns
  | step {d : GDef N} {ss bs : List N} {i k j t : Nat} {ns ms : List Node} {s : N} {e : GDef N} {x : N × Int × Int}
      {tail : List (N × Int × Int)} :
      RefChain G B input d ss bs i k j ns → ss[k % ss.length]? = some s → G s = some e → e.expr = .seq (x :: tail) →
      RefItems G B input tail 0 j (some (t, ms)) → j < t →
      RefChain G B input d ss bs i (k + 1) t (d.wrap input i t (e.wrap input i t (ns ++ ms)))

/-- None of the left recursive options has a tail at `j`. -/
inductive RefFails {N : Type} (G : Grammar N) (B : N → Nat → Nat → Prop) (input : List Rune) : List N → Nat → Prop
  | nil {j : Nat} : RefFails G B input [] j
  | cons {s : N} {ss : List N} {e : GDef N} {x : N × Int × Int} {tail : List (N × Int × Int)} {j : Nat} :
      G s = some e → e.expr = .seq (x :: tail) → RefItems G B input tail 0 j none → RefFails G B input ss j →
      RefFails G B input (s :: ss) j

/-- `RefItems G B input items k i m`: the items tried at the position `i`, when the first of them has already
been matched `k` times in front of `i`. -/
inductive RefItems {N : Type} (G : Grammar N) (B : N → Nat → Nat → Prop) (input : List Rune) :
    List (N × Int × Int) → Nat → Nat → Match → Prop
  | nil {k i : Nat} : RefItems G B input [] k i (some (i, []))
  /-- below the minimum -/
  | fail {n : N} {mn mx : Int} {items : List (N × Int × Int)} {k i : Nat} :
      Ref G B input n i none → (k : Int) < mn → RefItems G B input ((n, mn, mx) :: items) k i none
  /-- no further occurrence -/
  | done {n : N} {mn mx : Int} {items : List (N × Int × Int)} {k i : Nat} {m : Match} :
      Ref G B input n i none → mn ≤ (k : Int) → RefItems G B input items 0 i m →
      RefItems G B input ((n, mn, mx) :: items) k i m
  /-- an empty occurrence, it is taken as many times as there are missing from the minimum -/
  | empty {n : N} {mn mx : Int} {items : List (N × Int × Int)} {k i : Nat} {ns : List Node} {m : Match} :
      Ref G B input n i (some (i, ns)) → RefItems G B input items 0 i m →
      RefItems G B input ((n, mn, mx) :: items) k i (prepend (List.replicate (mn - k).toNat ns).flatten m)
  /-- the last of the allowed occurrences -/
  | last {n : N} {mn mx : Int} {items : List (N × Int × Int)} {k i j : Nat} {ns : List Node} {m : Match} :
      Ref G B input n i (some (j, ns)) → i < j → 0 < mx → ((k + 1 : Nat) : Int) = mx → RefItems G B input items 0 j m →
      RefItems G B input ((n, mn, mx) :: items) k i (prepend ns m)
  /-- an occurrence that is not the last allowed one -/
  | more {n : N} {mn mx : Int} {items : List (N × Int × Int)} {k i j : Nat} {ns : List Node} {m : Match} :
      Ref G B input n i (some (j, ns)) → i < j → ¬ (0 < mx ∧ ((k + 1 : Nat) : Int) = mx) →
      RefItems G B input ((n, mn, mx) :: items) (k + 1) j m →
      RefItems G B input ((n, mn, mx) :: items) k i (prepend ns m)

end

/-- Non-empty matches of a definition one after the other: how many of them, from where to where, and their nodes. -/
inductive RefTimes {N : Type} (G : Grammar N) (B : N → Nat → Nat → Prop) (input : List Rune) (n : N) : Nat → Nat → Nat → List Node → Prop
  | zero {i : Nat} : RefTimes G B input n 0 i i []
  | succ {k i m j : Nat} {ns ms : List Node} :
      Ref G B input n i (some (m, ns)) → i < m → RefTimes G B input n k m j ms → RefTimes G B input n (k + 1) i j (ns ++ ms)

/-- The definitions that may match the empty text. -/
inductive Nullable {N : Type} (G : Grammar N) : N → Prop
  | choice {n : N} {d : GDef N} {os : List N} {o : N} :
      G n = some d → d.expr = .choice os → o ∈ os → Nullable G o → Nullable G n
  | seq {n : N} {d : GDef N} {items : List (N × Int × Int)} :
      G n = some d → d.expr = .seq items → (∀ x ∈ items, 0 < x.2.1 → Nullable G x.1) → Nullable G n

/-- `n` may try `m` at the position where it was tried itself: `m` is an option, or an item with nothing in front of it
that has to match a non-empty text.  The left recursive options of `n` are not counted. -/
inductive LeftCall {N : Type} (G : Grammar N) : N → N → Prop
  | option {n : N} {d : GDef N} {os : List N} {o : N} :
      G n = some d → d.expr = .choice os → o ∈ os → ¬ Recurs G n o → LeftCall G n o
  | item {n : N} {d : GDef N} {front rest : List (N × Int × Int)} {x : N × Int × Int} :
      G n = some d → d.expr = .seq (front ++ x :: rest) →
      (∀ y ∈ front, 0 < y.2.1 → Nullable G y.1) → LeftCall G n x.1

/-- One or more steps of `LeftCall`. -/
inductive LeftCalls {N : Type} (G : Grammar N) : N → N → Prop
  | one {n m : N} : LeftCall G n m → LeftCalls G n m
  | step {n m l : N} : LeftCall G n m → LeftCalls G m l → LeftCalls G n l

/-- A left recursive choice `n`: no left recursive option has other options both in front of it and behind it, and neither the
choice nor a tail, that is, what follows `n` in a left recursive option, matches the empty text. -/
structure Grows {N : Type} (G : Grammar N) (n : N) (os : List N) : Prop where
  growth : ∃ fs bs ls, Growth G n os fs bs ls
  tails : ∀ s e tail, Recurs G n s → G s = some e → e.expr = .seq ((n, 1, 1) :: tail) → ∃ x ∈ tail, 0 < x.2.1 ∧ ¬ Nullable G x.1
  nonEmpty : ¬ Nullable G n

/-- No definition tries itself, directly or indirectly, at the position where it was tried, with the exception of choices with
options of the form `s = n tail`, where only `n` refers to `s`. -/
structure OnlyDirectRecursion {N : Type} (G : Grammar N) : Prop where
  free : ∀ n, ¬ LeftCalls G n n
  grows : ∀ n d os, G n = some d → d.expr = .choice os → (∃ s, Recurs G n s) → Grows G n os
  sole : ∀ n s m d, Recurs G n s → G m = some d → s ∈ d.expr.refs → m = n

end Treerack.Spec
