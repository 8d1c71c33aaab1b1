import Verif.Proofs.TreesPlain
import Verif.Proofs.TreesForget
import Verif.Props.LookaheadWs
import Verif.Props.Spaced
import Verif.Props.Reference
import Verif.Props.Samples

/-
C59: the returned tree is a derivation tree of the text.

The reference semantics (C09) says which of the possible matches is chosen.  Here the tree is compared with the grammar alone: every
node stands for a definition, the nodes below it are those of the definitions that it refers to, as often and in the order as its
expression requires, and the text in between is matched by its characters, or is whitespace.
-/

namespace Treerack
open Spec Samples

variable {cs : List Call} {s s' : Syntax} {input : List Rune} {root : Name}

/-- C59: the tree of a syntax without whitespace definitions is a derivation tree of its grammar.  (Partial: for the syntaxes that the
reference semantics describes, and when no item has a minimum above its maximum, see `C59_range_counterexample`.) -/
theorem C59_tree_partial {n : Nat} {t : Node} (h : Made cs s) (hi : s.Init = .ok (s', none)) (hs : Straightforward cs)
    (hr : RangedCalls cs) (hval : replacementChar ∉ input) (hroot : rootOf cs = some root)
    (hp : s.Parse n input none = .ok (s', .node t)) : Spec.Tree (grammarOf cs) input root 0 input.length [t] :=
  Ref.tree (ranged_grammar hr) (C09_tree h hi hs hval hroot hp) _ _ rfl

/-- C59: the tree of a syntax with whitespace definitions is a derivation tree of its grammar with whitespace. -/
theorem C59_tree_ws_partial {n : Nat} {t : Node} (h : Made cs s) (hi : s.Init = .ok (s', none)) (hs : StraightforwardWs cs)
    (hr : RangedCalls cs) (hval : replacementChar ∉ input) (hroot : rootOf cs = some root)
    (hp : s.Parse n input none = .ok (s', .node t)) : WTree (wgrammarOf cs) input root 0 input.length [t] :=
  spaced_tree (Ref.tree (ranged_spaced (ranged_grammar hr)) (C09_tree_ws h hi hs hval hroot hp) _ _ rfl)

/-- C59: the tree that the parser of a document returns is a tree of the root definition of the document, with whitespace
definitions.  (Partial: the quantifiers are sound, see C33.) -/
theorem C59_document_ws_partial {doc : Document} {text : List Rune} {k n : Nat} {rend : Option Nat} {t : Node}
    (hw : WrittenDocument doc text) (hr : ({} : Syntax).ReadSyntax (selfParse k text rend) = .ok (s, none))
    (hi : s.Init = .ok (s', none)) (hs : StraightforwardWs (documentCalls doc)) (hsound : ∀ d ∈ doc, d.expr.Sound)
    (hval : replacementChar ∉ input) (hp : s.Parse n input none = .ok (s', .node t)) :
    ∃ d, docRoot doc = some d ∧ DefTree doc input d 0 input.length [t] := by
  have hm := read_made hw hr
  obtain ⟨d, hd, hroot, hn⟩ := read_root hw hr hi
  exact ⟨d, hroot, document_trees hm (WrittenDocument.symbols hw) hsound hd
    (C59_tree_ws_partial hm hi hs (document_ranged hsound) hval hn hp)⟩

/-- The same without whitespace definitions.  (Partial: the root is not marked as an alias.) -/
theorem C59_document_partial {doc : Document} {text : List Rune} {k n : Nat} {rend : Option Nat} {t : Node}
    (hw : WrittenDocument doc text) (hr : ({} : Syntax).ReadSyntax (selfParse k text rend) = .ok (s, none))
    (hi : s.Init = .ok (s', none)) (hs : Straightforward (documentCalls doc)) (hsound : ∀ d ∈ doc, d.expr.Sound)
    (hws : ∀ d ∈ doc, d.flags.whitespace = false) (hal : ∀ d, docRoot doc = some d → d.flags.alias = false)
    (hval : replacementChar ∉ input) (hp : s.Parse n input none = .ok (s', .node t)) :
    ∃ d, docRoot doc = some d ∧ DefTree doc input d 0 input.length [t] := by
  have hm := read_made hw hr
  have hsym := WrittenDocument.symbols hw
  obtain ⟨d, hd, hroot, hn⟩ := read_root hw hr hi
  have H := document_wsDoc hm hsym hsound
  have hrn : (wgrammarOf (documentCalls doc)).root = d.name := by simp only [wgrammarOf, hn, Option.getD_some]
  have hnil : (wgrammarOf (documentCalls doc)).ws = [] := by
    rw [List.eq_nil_iff_forall_not_mem]
    intro w hw
    obtain ⟨e, he, h1, -⟩ := (H.ws w).1 hw
    rw [hws e he] at h1
    cases h1
  have hrt : ∀ gd, (wgrammarOf (documentCalls doc)).G (wgrammarOf (documentCalls doc)).root = some gd →
      gd.alias = false ∧ ∀ neg cs rs, gd.expr ≠ .char neg cs rs := by
    intro gd hg
    rw [hrn] at hg
    obtain ⟨gd', h1, -, h2, h3⟩ := (H.body d hd).def_of
    rw [hg] at h1
    cases h1
    exact ⟨h2.trans (hal d hroot), h3⟩
  exact ⟨d, hroot, document_trees hm hsym hsound hd
    (Spec.Tree.wtree hrt hnil (C59_tree_partial hm hi hs (document_ranged hsound) hval hn hp))⟩

/-- The texts that have a tree are exactly the texts that the definition stands for. -/
theorem C59_text {doc : Document} {d : DDef} {i j : Nat} : (∃ ns, DefTree doc input d i j ns) ↔ DefWs doc input d i j :=
  ⟨fun ⟨_, h⟩ => Spec.DefTree.text h, Spec.DefWs.tree⟩

/-! ### Examples -/

theorem rangedCalls_of (h : (cs.all fun c => match c with
    | .sequence _ _ items => items.all fun it => decide (0 < it.max → it.min ≤ it.max)
    | _ => true) = true) : RangedCalls cs := by
  intro n ct items hc it hit
  have h1 := List.all_eq_true.1 h _ hc
  simp only at h1
  have := List.all_eq_true.1 h1 it hit
  exact of_decide_eq_true this

/-- The assumptions are met by a syntax with whitespace, keywords and left recursion, and the tree has nodes. -/
example : RangedCalls varCalls ∧ (∃ t, WTree (wgrammarOf varCalls) (runes " a  iff") (runes "r") 0 7 [t]) ∧
    nodes (run varCalls 60 (runes " a  iff")) = some [(0, runes "r", 0, 7), (1, runes "call", 1, 7), (2, runes "var", 1, 2),
      (2, runes "var", 4, 7)] := by
  have hi := init_ok (s := after varCalls) (by decide +kernel)
  have hc : Made varCalls (after varCalls) := calls_made (calls_ok (by decide +kernel))
  have hr : rootOf varCalls = some (runes "r") := by decide +kernel
  have hg : RangedCalls varCalls := rangedCalls_of (by decide +kernel)
  obtain ⟨s1, t, ht⟩ := tree_ok (x := run varCalls 60 (runes " a  iff")) (by decide +kernel)
  have hx := sample_refWs hc hi var_straight (by decide +kernel) hr ht
  exact ⟨hg, ⟨t, spaced_tree (Ref.tree (ranged_spaced (ranged_grammar hg)) hx _ _ rfl)⟩, by decide +kernel⟩

/-- The same without whitespace. -/
example : RangedCalls listCalls ∧ ∃ t, Spec.Tree (grammarOf listCalls) (runes "(aa)(a)") (runes "r") 0 7 [t] := by
  have hi := init_ok (s := after listCalls) (by decide +kernel)
  have hc : Made listCalls (after listCalls) := calls_made (calls_ok (by decide +kernel))
  have hr : rootOf listCalls = some (runes "r") := by decide +kernel
  have hg : RangedCalls listCalls := rangedCalls_of (by decide +kernel)
  obtain ⟨s1, t, ht⟩ := tree_ok (x := run listCalls 60 (runes "(aa)(a)")) (by decide +kernel)
  have hx := sample_ref hc hi list_straight (by decide +kernel) hr ht
  exact ⟨hg, t, Ref.tree (ranged_grammar hg) hx _ _ rfl⟩

/-- `x = "x"; e = x?; r = e{3,2}` -/
def spanCalls : List Call := [
  .charSequence (runes "x") {} (runes "x"),
  .sequence (runes "e") {} [{ name := runes "x", min := 0, max := 1 }],
  .sequence (runes "r") { root := true } [{ name := runes "e", min := 3, max := 2 }]]

/-- The number of the nodes right below a node. -/
def childCount : Node → Nat
  | .mk _ _ _ _ ns => ns.length

/-- C59 fails when the minimum of an item is above its maximum: in the tree of the empty text the item is there three times, as the
minimum requires, although it is allowed twice at most. -/
theorem C59_range_counterexample : Straightforward spanCalls ∧ ∃ s' t, run spanCalls 60 [] = .ok (s', .node t) ∧ childCount t = 3 ∧
    ¬ Spec.Tree (grammarOf spanCalls) [] (runes "r") 0 0 [t] := by
  refine ⟨straightforward_of (fun n => n == runes "e" || n == runes "r")
      (fun n => if n = runes "r" then 3 else if n = runes "e" then 2 else if n = runes "x" then 1 else 0)
      (by decide +kernel) (by decide +kernel) (by decide +kernel) (by decide +kernel) (by decide +kernel), ?_⟩
  obtain ⟨s1, t, ht⟩ := tree_ok (x := run spanCalls 60 []) (by decide +kernel)
  have hf : childCount t = 3 := by
    have : (tree (run spanCalls 60 [])).map childCount = some 3 := by decide +kernel
    rw [ht] at this
    simpa [tree] using this
  refine ⟨s1, t, ht, hf, fun hT => ?_⟩
  have hG : grammarOf spanCalls (runes "r") = some ⟨runes "r", false, .seq [(runes "e", 3, 2)]⟩ := rfl
  have hE : grammarOf spanCalls (runes "e") = some ⟨runes "e", false, .seq [(runes "x", 0, 1)]⟩ := rfl
  have one : ∀ {i j ns}, Spec.Tree (grammarOf spanCalls) [] (runes "e") i j ns → ns.length = 1 := by
    intro i j ns h
    cases h with
    | char h1 h2 => rw [hE] at h1; cases h1; cases h2
    | choice h1 h2 => rw [hE] at h1; cases h1; cases h2
    | seq h1 h2 => rw [hE] at h1; cases h1; rfl
  generalize he : [t] = l at hT
  cases hT with
  | choice h1 h2 => rw [hG] at h1; cases h1; cases h2
  | seq h1 h2 h3 =>
    rw [hG] at h1; cases h1; cases h2
    cases h3 with
    | @cons _ _ _ _ k _ _ _ _ _ k1 k2 k3 =>
      cases k3
      obtain rfl : k = 2 := by unfold InRange at k2; omega
      cases k1 with
      | succ k3 k4 =>
        cases k3 with
        | succ k5 k6 =>
          cases k5
          have a := one k4
          have b := one k6
          simp only [GDef.wrap, Bool.false_eq_true, if_false, List.cons.injEq, and_true] at he
          subst he
          simp [childCount, a, b] at hf

end Treerack
