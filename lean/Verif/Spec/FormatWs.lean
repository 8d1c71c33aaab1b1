import Verif.Spec.Format
import Verif.Spec.SpacedDocument

/-
Specification: expressions and documents with the same meaning when there are whitespace definitions.
-/

namespace Treerack.Spec

/-- The expressions stand for the same texts as the expressions of a definition with the flags, in any document. -/
def SameWs (flags : Commit) (e e' : DExpr) : Prop := ∀ (doc : Document) (input : List Rune) (i j : Nat),
  MeansWs doc input (flags.noWhitespace || flags.whitespace) flags.noWhitespace e i j ↔
  MeansWs doc input (flags.noWhitespace || flags.whitespace) flags.noWhitespace e' i j

/-- The definitions have the same names and flags, and expressions with the same meaning. -/
inductive SameDocumentWs : Document → Document → Prop
  | nil : SameDocumentWs [] []
  | cons {d d' : DDef} {doc doc' : Document} : d.name = d'.name → d.flags = d'.flags → SameWs d.flags d.expr d'.expr →
      SameDocumentWs doc doc' → SameDocumentWs (d :: doc) (d' :: doc')

end Treerack.Spec
