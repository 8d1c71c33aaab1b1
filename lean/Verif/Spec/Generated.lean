import Verif.Model.Generate
import Verif.Spec.Act

/-
What the Go compiler requires of the variables in the generated code, and the comparison of the results of the generated
code with the results of the syntax.
-/

namespace Treerack.Spec

open Treerack

/-- The variables that a statement declares. -/
def declared : Stmt → List Nat
  | .declare n _ => [n]
  | .assign _ _ _ => []

/-- The variables that a statement refers to. -/
def used : Stmt → List Nat
  | .declare _ _ => []
  | .assign n _ refs => n :: refs

/-- Every variable is declared once, a statement refers only to variables that are declared in front of it, and the
variables of the closing statements are declared. -/
structure WellDeclared (ss : List Stmt) (closing : List Nat) : Prop where
  once : (ss.flatMap declared).Nodup
  before : ∀ pre st post, ss = pre ++ st :: post → ∀ n ∈ used st, n ∈ pre.flatMap declared
  closing : ∀ n ∈ closing, n ∈ ss.flatMap declared

/-- The value that the generated code returns, as one of `Syntax.Parse`. -/
def asResult : Except Err Node → Syntax.ParseResult
  | .ok t => .node t
  | .error e => .error e

/-- The same tree, the same error, the same panic or no result in both, except that an error about the root may
be without its name in the generated code. -/
inductive SameOutcome (rootName : Name) : Res Syntax.ParseResult → Res (Except Err Node) → Prop
  | same (x : Except Err Node) : SameOutcome rootName (.ok (asResult x)) (.ok x)
  | root (offset line column : Nat) : SameOutcome rootName (.ok (.error (.parseError offset line column rootName)))
      (.ok (.error (.parseError offset line column [])))
  | panic : SameOutcome rootName .panic .panic
  | oof : SameOutcome rootName .oof .oof

/-- Whether the definition belongs to a symbol, and is not one of the definitions made for a part of an expression. -/
def Act.named : Act → Bool
  | .api _ => true
  | .document c => c.commit.userDefined

end Treerack.Spec
