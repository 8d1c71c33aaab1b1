import Verif.Spec.SpacedDocument

/-
Specification: the trees of the texts that the definitions of a document stand for.  This is `DefWs` (Spec/SpacedDocument.lean)
together with the nodes: a definition has a node, unless it is marked `alias` or `ws`; the children of the node are the nodes of the
definitions that its expression refers to, in the order of the text.  The node of the root includes the whitespace around it.  When no
definition is marked `ws`, then there is no whitespace.
-/

namespace Treerack.Spec

/-- The definition has a node in the tree. -/
def DDef.Shown (d : DDef) : Prop := d.flags.alias = false ∧ d.flags.whitespace = false

mutual

/-- `DefTree doc input d i j ns`: the part of the input from `i` to `j` is a text of the definition, and `ns` are the nodes. -/
inductive DefTree (doc : Document) (input : List Rune) : DDef → Nat → Nat → List Node → Prop
  | shown {d : DDef} {i j : Nat} {ns : List Node} : d ∈ doc → ¬ IsRoot doc d → d.Shown →
      MeansTree doc input (d.flags.noWhitespace || d.flags.whitespace) d.flags.noWhitespace d.expr i j ns →
      DefTree doc input d i j [Node.mk d.name i j input ns]
  | hidden {d : DDef} {i j : Nat} {ns : List Node} : d ∈ doc → ¬ IsRoot doc d → ¬ d.Shown →
      MeansTree doc input (d.flags.noWhitespace || d.flags.whitespace) d.flags.noWhitespace d.expr i j ns →
      DefTree doc input d i j ns
  | root {d : DDef} {i a b j : Nat} {us ns vs : List Node} : d ∈ doc → IsRoot doc d → GapTree doc input i a us →
      MeansTree doc input (d.flags.noWhitespace || d.flags.whitespace) d.flags.noWhitespace d.expr a b ns → GapTree doc input b j vs →
      DefTree doc input d i j [Node.mk d.name i j input (us ++ ns ++ vs)]

inductive MeansTree (doc : Document) (input : List Rune) : Bool → Bool → DExpr → Nat → Nat → List Node → Prop
  | any {tight inner : Bool} {i : Nat} {t : Rune} : input[i]? = some t → MeansTree doc input tight inner .any i (i + 1) []
  | class_ {tight inner : Bool} {neg : Bool} {cs : List Rune} {rs : List (Rune × Rune)} {i : Nat} {t : Rune} :
      input[i]? = some t → InClass neg cs rs t → MeansTree doc input tight inner (.class_ neg cs rs) i (i + 1) []
  | chars {tight inner : Bool} {cs : List Rune} {i : Nat} : (input.drop i).take cs.length = cs →
      MeansTree doc input tight inner (.chars cs) i (i + cs.length) []
  | symbol {tight inner : Bool} {d : DDef} {i j : Nat} {ns : List Node} : DefTree doc input d i j ns →
      MeansTree doc input tight inner (.symbol d.name) i j ns
  | tight {inner : Bool} {items : DItems} {i j : Nat} {ns : List Node} : TightTree doc input inner items i j ns →
      MeansTree doc input true inner (.seq items) i j ns
  | loose {inner : Bool} {items : DItems} {i j : Nat} {ns : List Node} : LooseTree doc input inner true items i j ns →
      MeansTree doc input false inner (.seq items) i j ns
  | choice {tight inner : Bool} {os : DOptions} {i j : Nat} {ns : List Node} : OptionsTree doc input inner os i j ns →
      MeansTree doc input tight inner (.choice os) i j ns

inductive GapTree (doc : Document) (input : List Rune) : Nat → Nat → List Node → Prop
  | nil {i : Nat} : GapTree doc input i i []
  | cons {d : DDef} {i m j : Nat} {us ns : List Node} : GapTree doc input i m us → d.flags.whitespace = true →
      DefTree doc input d m j ns → GapTree doc input i j (us ++ ns)

inductive TightTree (doc : Document) (input : List Rune) : Bool → DItems → Nat → Nat → List Node → Prop
  | nil {inner : Bool} {i : Nat} : TightTree doc input inner .nil i i []
  | cons {inner : Bool} {e : DExpr} {q : Option Quantifier} {rest : DItems} {k i m j : Nat} {ns ms : List Node} :
      TimesTree doc input inner e k i m ns → allowed q k → TightTree doc input inner rest m j ms →
      TightTree doc input inner (.cons e q rest) i j (ns ++ ms)

inductive TimesTree (doc : Document) (input : List Rune) : Bool → DExpr → Nat → Nat → Nat → List Node → Prop
  | zero {inner : Bool} {e : DExpr} {i : Nat} : TimesTree doc input inner e 0 i i []
  | succ {inner : Bool} {e : DExpr} {k i m j : Nat} {ns ms : List Node} : TimesTree doc input inner e k i m ns →
      MeansTree doc input inner inner e m j ms → TimesTree doc input inner e (k + 1) i j (ns ++ ms)

inductive LooseTree (doc : Document) (input : List Rune) : Bool → Bool → DItems → Nat → Nat → List Node → Prop
  | nil {inner first : Bool} {i : Nat} : LooseTree doc input inner first .nil i i []
  | cons {inner first : Bool} {e : DExpr} {q : Option Quantifier} {rest : DItems} {k i m j : Nat} {ns ms : List Node} :
      OccTree doc input inner first e k i m ns → allowed q k → LooseTree doc input inner false rest m j ms →
      LooseTree doc input inner first (.cons e q rest) i j (ns ++ ms)
  | absent {inner : Bool} {e : DExpr} {q : Option Quantifier} {rest : DItems} {i m j : Nat} {us ms : List Node} :
      allowed q 0 → allowed q 1 → ¬ allowed q 2 → GapTree doc input i m us → LooseTree doc input inner false rest m j ms →
      LooseTree doc input inner false (.cons e q rest) i j (us ++ ms)

inductive OccTree (doc : Document) (input : List Rune) : Bool → Bool → DExpr → Nat → Nat → Nat → List Node → Prop
  | zero {inner first : Bool} {e : DExpr} {i : Nat} : OccTree doc input inner first e 0 i i []
  | first {inner : Bool} {e : DExpr} {i j : Nat} {ns : List Node} : MeansTree doc input inner inner e i j ns →
      OccTree doc input inner true e 1 i j ns
  | succ {inner first : Bool} {e : DExpr} {k i a b j : Nat} {ns us ms : List Node} : OccTree doc input inner first e k i a ns →
      (first = true → 0 < k) → GapTree doc input a b us → MeansTree doc input inner inner e b j ms →
      OccTree doc input inner first e (k + 1) i j (ns ++ us ++ ms)

inductive OptionsTree (doc : Document) (input : List Rune) : Bool → DOptions → Nat → Nat → List Node → Prop
  | here {inner : Bool} {e : DExpr} {rest : DOptions} {i j : Nat} {ns : List Node} : MeansTree doc input inner inner e i j ns →
      OptionsTree doc input inner (.cons e rest) i j ns
  | there {inner : Bool} {e : DExpr} {rest : DOptions} {i j : Nat} {ns : List Node} : OptionsTree doc input inner rest i j ns →
      OptionsTree doc input inner (.cons e rest) i j ns

end

end Treerack.Spec
