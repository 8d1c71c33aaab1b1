import Verif.Spec.Definitions

/-
Specification: definitions made by the API and definitions made by documents, in one list.
-/

namespace Treerack.Spec

/-- A step of building a syntax: a call of the API, or one definition of a document. -/
inductive Act where
  | api (c : Call)
  | document (c : Call)
  deriving Repr, DecidableEq

/-- The definition. -/
def Act.call : Act → Call
  | .api c | .document c => c

end Treerack.Spec

namespace Treerack
open Spec

def Syntax.act (s : Syntax) : Act → Syntax × Option SynErr
  | .api c => s.call c
  | .document c => s.internalCall c

/-- Steps one after the other, all of which succeed. -/
def Syntax.acts (s : Syntax) : List Act → Option Syntax
  | [] => some s
  | a :: as =>
    match s.act a with
    | (s, none) => s.acts as
    | (_, some _) => none

/-- A rejected step that leaves the root and the keywords alone: a name that is not valid, or anything that is not
a keyword after a definition with the Root flag, or a sequence or a choice whose name is not taken. -/
def Harmless (as : List Act) (a : Act) (e : SynErr) : Prop :=
  (∃ c, a = .api c ∧ ¬ ValidName c.name) ∨
  ((∃ b ∈ as, b.call.commit.root = true) ∧ a.call.commit.keyword = false) ∨
  ((∃ n ct items, a.call = .sequence n ct items) ∨ (∃ n ct os, a.call = .choice n ct os)) ∧
    e ≠ .duplicateDefinition a.call.name

/-- Any steps, one after the other, with the ones that were accepted; the rejected ones are harmless. -/
inductive Tried : List Act → Syntax → Prop
  | empty : Tried [] {}
  | accepted {as : List Act} {s s' : Syntax} {a : Act} : Tried as s → s.act a = (s', none) → Tried (as ++ [a]) s'
  | rejected {as : List Act} {s s' : Syntax} {a : Act} {e : SynErr} : Tried as s → s.act a = (s', some e) →
      Harmless as a e → Tried as s'

/-- The result of a call of `Parse`. -/
def Syntax.result (s : Syntax) (fuel : Nat) (input : List Rune) (rend : Option Nat) : Res Syntax.ParseResult :=
  (s.Parse fuel input rend).bind fun x => .ok x.2

end Treerack
