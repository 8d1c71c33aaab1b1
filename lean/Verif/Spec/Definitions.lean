import Verif.Spec.Api
import Verif.Model.Define

/-
Specification: which definition calls are accepted, and which definitions are needed by a syntax.
-/

namespace Treerack.Spec

/-- The characters that cannot be used in names: white space and the characters with a meaning in the
syntax language.  Code points of
`\`, space, `\n`, `\t`, `\b`, `\f`, `\r`, `\v`, `/`, `.`, `[`, `]`, `"`, `{`, `}`, `^`, `+`, `*`, `?`, `|`, `(`, `)`,
`:`, `=`, `;`. -/
def reserved : List Rune :=
  [92, 32, 10, 9, 8, 12, 13, 11, 47, 46, 91, 93, 34, 123, 125, 94, 43, 42, 63, 124, 40, 41, 58, 61, 59]

def ValidName (n : Name) : Prop := ∀ r ∈ n, r ∉ reserved

/-- The pairs of flags that exclude each other. -/
def conflicts : List ((Commit → Bool) × (Commit → Bool)) := [
  (Commit.alias, Commit.root),
  (Commit.whitespace, Commit.keyword),
  (Commit.whitespace, Commit.noKeyword),
  (Commit.whitespace, Commit.failPass),
  (Commit.whitespace, Commit.root),
  (Commit.keyword, Commit.noKeyword),
  (Commit.keyword, Commit.root),
  (Commit.failPass, Commit.root)]

def Compatible (ct : Commit) : Prop := ∀ x ∈ conflicts, x.1 ct = true → x.2 ct = false

/-- A further definition is fine after the calls. -/
structure Acceptable (cs : List Call) (c : Call) : Prop where
  name : ValidName c.name
  flags : Compatible c.commit
  fresh : ∀ c' ∈ cs, c'.name ≠ c.name
  root : c.commit.root = true → ∀ c' ∈ cs, c'.commit.root = false

/-- The names referenced by a definition. -/
def GDef.refs {N : Type} (d : GDef N) : List N :=
  match d.expr with
  | .char _ _ _ => []
  | .choice os => os
  | .seq items => items.map Prod.fst

/-- A name is referenced from another one, in any number of steps. -/
inductive Refers {N : Type} (G : Grammar N) : N → N → Prop
  | refl {a : N} : Refers G a a
  | step {a b : N} {d : GDef N} {n : N} : Refers G a b → G b = some d → n ∈ d.refs → Refers G a n

/-- Where the needed definitions begin: the root, the keywords and the whitespace definitions. -/
def Start (cs : List Call) (n : Name) : Prop :=
  rootOf cs = some n ∨ ∃ c ∈ cs, (c.commit.keyword = true ∨ c.commit.whitespace = true) ∧ c.name = n

/-- The name is needed by the syntax. -/
def Needed (cs : List Call) (n : Name) : Prop := ∃ a, Start cs a ∧ Refers (grammarOf cs) a n

/-- The flags of the definition that becomes the root allow that. -/
def RootCompatible (cs : List Call) : Prop :=
  ∀ c ∈ cs, rootOf cs = some c.name → Compatible { c.commit with root := true }

end Treerack.Spec

namespace Treerack
open Spec

/-- Any definition calls, one after the other, with the ones that were accepted. -/
inductive Attempted : List Call → Syntax → Prop
  | empty : Attempted [] {}
  | accepted {cs : List Call} {s s' : Syntax} {c : Call} : Attempted cs s → s.call c = (s', none) →
      Attempted (cs ++ [c]) s'
  | rejected {cs : List Call} {s s' : Syntax} {c : Call} {e : SynErr} : Attempted cs s → s.call c = (s', some e) →
      Attempted cs s'

/-- Calls of the API after a point in time. -/
inductive Later : Syntax → Syntax → Prop
  | refl {s : Syntax} : Later s s
  | call {s t : Syntax} (c : Call) : Later s t → Later s (t.call c).1
  | init {s t t' : Syntax} {e : Option SynErr} : Later s t → t.Init = .ok (t', e) → Later s t'
  | parse {s t t' : Syntax} {fuel : Nat} {input : List Rune} {rend : Option Nat} {x : Syntax.ParseResult} :
      Later s t → t.Parse fuel input rend = .ok (t', x) → Later s t'
  | read {s t t' : Syntax} {document : Res (Except Err Node)} {e : Option SynErr} :
      Later s t → t.ReadSyntax document = .ok (t', e) → Later s t'

end Treerack
