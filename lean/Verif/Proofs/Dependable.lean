import Verif.Proofs.Examples
import Verif.Proofs.SpacedParse
import Verif.Proofs.TraceCost
import Verif.Props.DocGen

/-
The conditions of `Dependable` (Props/Examples.lean), as a test.
-/

namespace Treerack
open Spec

/-- The conditions on the left recursion. -/
def leftTest (a b : Nat) (doc : Document) : Bool :=
  let G := spaced (wgrammarOf (documentCalls doc))
  descends G (nulOf G a) (nestRank G (nulOf G a) b) (spacedDefs (documentCalls doc)) &&
    recursion G (nulOf G a) (fun _ => false) (spacedDefs (documentCalls doc))

/-- The other conditions.  `ranks`: how deep the sequences are nested. -/
def dependableTest (ranks : List Nat) (text : List Rune) (doc : Document) : Bool :=
  !text.contains replacementChar && doc.fits && wsSafeTest doc && doc.any (fun d => d.flags.whitespace) &&
    doc.all (fun d => !d.flags.noKeyword) &&
    match ({} : Syntax).internalCalls (documentCalls doc) with
    | (s, none) => match s.Init with
      | .ok (s', none) => rankedBy s'.env (fun p => ranks.getD p 0) && s'.root.isSome
      | _ => false
    | _ => false

/-- The root may be empty. -/
def emptyRoot (a : Nat) (doc : Document) : Bool :=
  match rootOf (documentCalls doc) with
  | some n => nulOf (spaced (wgrammarOf (documentCalls doc))) a (.given n)
  | none => false

end Treerack
