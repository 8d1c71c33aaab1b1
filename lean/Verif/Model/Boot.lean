import Verif.Model.Self
import Verif.Model.Define
import Verif.Model.SyntaxText

/-
Model of boot.go.
-/

namespace Treerack

/-- boot.go:5-10 `bootSyntax`: a syntax without definitions reads the file syntax.treerack.  The file exists. -/
def bootSyntax (fuel : Nat) : Res (Syntax × Option SynErr) := ({} : Syntax).ReadSyntax (selfParse fuel syntaxText none)

end Treerack
