import Verif.Spec.Written

/-
Specification: expressions with the same meaning, and the expressions whose notation made by `format` can be read back.
-/

namespace Treerack.Spec

/-- The expressions stand for the same texts, in any document. -/
def Same (e e' : DExpr) : Prop := ∀ (doc : Document) (input : List Rune) (i j : Nat), Means doc input e i j ↔ Means doc input e' i j

/-- A sequence of one item. -/
def DExpr.Single : DExpr → Prop
  | .seq (.cons _ _ .nil) => True
  | _ => False

mutual
/-- No quotes in texts of more than one character, and no quantifier behind the parentheses around a single item that has
a quantifier. -/
def DExpr.Printable : DExpr → Prop
  | .chars cs => cs.length = 1 ∨ 34 ∉ cs
  | .seq items => items.Printable
  | .choice os => os.Printable
  | _ => True
def DItems.Printable : DItems → Prop
  | .nil => True
  | .cons e q rest => e.Printable ∧ (q ≠ none → ¬ e.Single) ∧ rest.Printable
def DOptions.Printable : DOptions → Prop
  | .nil => True
  | .cons e rest => e.Printable ∧ rest.Printable
end

mutual
/-- No group of a single item in a sequence, like `a (b*)`. -/
def DExpr.Spread : DExpr → Prop
  | .seq items => items.Spread
  | .choice os => os.Spread
  | _ => True
def DItems.Spread : DItems → Prop
  | .nil => True
  | .cons e _ rest => e.Spread ∧ ¬ e.Single ∧ rest.Spread
def DOptions.Spread : DOptions → Prop
  | .nil => True
  | .cons e rest => e.Spread ∧ rest.Spread
end

/-- The definitions have the same names and flags, and expressions with the same meaning. -/
inductive SameDocument : Document → Document → Prop
  | nil : SameDocument [] []
  | cons {d d' : DDef} {doc doc' : Document} : d.name = d'.name → d.flags = d'.flags → Same d.expr d'.expr → SameDocument doc doc' →
      SameDocument (d :: doc) (d' :: doc')

/-- The text of a document made of the notations of the expressions: the name and the flags, ` = `, the expression, and
semicolons with new lines between the definitions. -/
def documentText (flags : DDef → List Name) (expr : DDef → List Rune) : Document → List Rune
  | [] => []
  | [d] => d.name ++ (flags d).flatMap (fun f => 58 :: f) ++ [32] ++ 61 :: [32] ++ expr d
  | d :: doc => d.name ++ (flags d).flatMap (fun f => 58 :: f) ++ [32] ++ 61 :: [32] ++ expr d ++ [59, 10] ++ documentText flags expr doc

end Treerack.Spec
