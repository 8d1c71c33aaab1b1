import Verif.Spec.Whitespace
import Verif.Spec.Keyword
import Verif.Spec.Reference

/-
Specification: a grammar with whitespace definitions as an ordinary grammar, in which the whitespace is explicit.  The
reference semantics of this grammar (Spec/Reference) is the meaning of the grammar with whitespace definitions: as many
whitespace matches as possible are taken between the items, and the whitespace has no nodes.  Nothing in this file refers to
the code that rewrites the definitions (whitespace.go).
-/

namespace Treerack.Spec

/-- The definitions of the grammar with explicit whitespace. -/
inductive Part (N : Type) where
  /-- a definition of the original grammar -/
  | given (n : N)
  /-- one of the whitespace definitions -/
  | space
  /-- the root, without the whitespace around it -/
  | body
  /-- one further occurrence of the `i`-th item of the sequence `n`, after whitespace -/
  | rest (n : N) (i : Nat)
  /-- all the occurrences of the `i`-th item of the sequence `n`, at least one -/
  | several (n : N) (i : Nat)
  deriving DecidableEq

section

variable {N : Type}

/-- Any number of whitespace matches, except in front of the first item. -/
def lead (i : Nat) : List (Part N × Int × Int) := if 0 < i then [(.space, 0, -1)] else []

/-- The occurrences of an item: the first one, and the further ones, with whitespace between them. -/
def occurrences (n : N) (i : Nat) (x : N) (mn mx : Int) : List (Part N × Int × Int) :=
  [(.given x, 1, 1), (.rest n i, if 0 < mn then mn - 1 else 0, if 1 < mx then mx - 1 else -1)]

/-- The `i`-th item of the sequence `n`, with whitespace in front of it, and between its occurrences.  The whitespace in front
of an item that can be repeated and omitted belongs to the item, so that without the item it is not taken, either. -/
def spacedItem (n : N) (i : Nat) (x : N × Int × Int) : List (Part N × Int × Int) :=
  if x.2.2 = 1 then lead i ++ [(.given x.1, x.2.1, x.2.2)]
  else if 0 < x.2.1 then lead i ++ occurrences n i x.1 x.2.1 x.2.2
  else [(.several n i, 0, 1)]

def spacedItems (n : N) : Nat → List (N × Int × Int) → List (Part N × Int × Int)
  | _, [] => []
  | i, x :: xs => spacedItem n i x ++ spacedItems n (i + 1) xs

/-- The `i`-th item of the sequence `n`. -/
def WGrammar.item (W : WGrammar N) (n : N) (i : Nat) : Option (N × Int × Int) :=
  match W.G n with
  | some ⟨_, _, .seq items⟩ => items[i]?
  | _ => none

/-- What the definition `n` consists of. -/
def WGrammar.inner (W : WGrammar N) (n : N) : Expr N → Expr (Part N)
  | .seq items => if W.tight n then (Expr.seq items).map .given else .seq (spacedItems n 0 items)
  | e => e.map .given

/-- The definitions that are not in the original grammar are aliases, and have no name. -/
def hidden (e : Expr (Part N)) : GDef (Part N) := ⟨[], true, e⟩

/-- The grammar with explicit whitespace. -/
def spaced [DecidableEq N] (W : WGrammar N) : Grammar (Part N)
  | .given n => (W.G n).map fun d =>
      if n = W.root then ⟨d.name, false, .seq [(.space, 0, -1), (.body, 1, 1), (.space, 0, -1)]⟩
      else ⟨d.name, d.alias || decide (n ∈ W.ws), W.inner n d.expr⟩
  | .space => some (hidden (.choice (W.ws.map .given)))
  | .body => (W.G W.root).map fun d => hidden (W.inner W.root d.expr)
  | .rest n i => (W.item n i).map fun x => hidden (.seq [(.space, 0, -1), (.given x.1, 1, 1)])
  | .several n i => (W.item n i).map fun x => hidden (.seq (lead i ++ occurrences n i x.1 x.2.1 x.2.2))

end

/-- The definitions that are checked for keywords.  The whitespace around the root is not checked. -/
def Checked (cs : List Call) : Part Name → Prop
  | .given n => n ≠ (wgrammarOf cs).root ∧ RejectsKeywords cs n
  | .body => RejectsKeywords cs (wgrammarOf cs).root
  | _ => False

/-- The text from `i` to `j` is the text of a keyword. -/
def SpacedKeyword (cs : List Call) (input : List Rune) (i j : Nat) : Prop :=
  ∃ k ∈ cs, k.commit.keyword = true ∧ WDerives (wgrammarOf cs) input k.name i j

/-- The definition must not match the text from `i` to `j`. -/
def spacedBlocked (cs : List Call) (input : List Rune) (x : Part Name) (i j : Nat) : Prop :=
  Checked cs x ∧ SpacedKeyword cs input i j

/-- The reference semantics of calls with whitespace definitions. -/
abbrev RefWs (cs : List Call) (input : List Rune) (x : Part Name) (i : Nat) (m : Match) : Prop :=
  Ref (spaced (wgrammarOf cs)) (spacedBlocked cs input) input x i m

end Treerack.Spec
