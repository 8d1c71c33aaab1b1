import Verif.Spec.Grammar
import Verif.Model.Syntax

/-
Specification: the grammar meant by the definitions.  `grammarOf` reads the calls of the definition API
one by one, without a registry, without objects and without the initialization.
-/

namespace Treerack.Spec

/-- The meaning of the minimum and the maximum of a sequence item: neither of them given means exactly
one; otherwise a missing (not positive) minimum means zero, and a missing maximum means no maximum. -/
def bounds (mn mx : Int) : Int × Int :=
  if mn = 0 ∧ mx = 0 then (1, 1)
  else (if mn ≤ 0 then 0 else mn, if mx ≤ 0 then -1 else mx)

/-- The calls of the definition API. -/
inductive Call where
  | anyChar (name : Name) (ct : Commit)
  | class_ (name : Name) (ct : Commit) (not : Bool) (chars : List Rune) (ranges : List (Rune × Rune))
  | charSequence (name : Name) (ct : Commit) (chars : List Rune)
  | sequence (name : Name) (ct : Commit) (items : List SeqItem)
  | choice (name : Name) (ct : Commit) (options : List Name)
  deriving Repr, DecidableEq

def Call.name : Call → Name
  | .anyChar n _ | .class_ n _ _ _ _ | .charSequence n _ _ | .sequence n _ _ | .choice n _ _ => n

def Call.commit : Call → Commit
  | .anyChar _ c | .class_ _ c _ _ _ | .charSequence _ c _ | .sequence _ c _ | .choice _ c _ => c

/-- The names of the characters inside of a class or of a character sequence. -/
def charName (name : Name) (i : Nat) : Name := name ++ runes ":" ++ runes (toString i)

/-- A character of a definition: nameless in the trees. -/
def charDef (name : Name) (not : Bool) (chars : List Rune) (ranges : List (Rune × Rune)) :
    Name × GDef Name :=
  (name, { name := name, alias := true, expr := .char not chars ranges })

/-- Exactly one occurrence. -/
def once (n : Name) : Name × Int × Int := (n, 1, 1)

/-- The definitions made by one call. -/
def Call.defs : Call → List (Name × GDef Name)
  | .anyChar n ct =>
    [charDef (charName n 0) true [] [], (n, { name := n, alias := ct.alias, expr := .seq [once (charName n 0)] })]
  | .class_ n ct neg cs rs =>
    [charDef (charName n 0) neg cs rs, (n, { name := n, alias := ct.alias, expr := .seq [once (charName n 0)] })]
  | .charSequence n ct cs =>
    cs.zipIdx.map (fun x => charDef (charName n x.2) false [x.1] []) ++
    [(n, { name := n, alias := ct.alias,
           expr := .seq ((List.range cs.length).map fun i => once (charName n i)) })]
  | .sequence n ct items =>
    [(n, { name := n, alias := ct.alias, expr := .seq (items.map fun i => (i.name, bounds i.min i.max)) })]
  | .choice n ct os => [(n, { name := n, alias := ct.alias, expr := .choice os })]

/-- The grammar meant by the calls. -/
def grammarOf (calls : List Call) : Grammar Name := fun n => (calls.flatMap Call.defs).lookup n

/-- The root definition: the one with the Root flag, or else the last one. -/
def rootOf (calls : List Call) : Option Name :=
  match (calls.filter fun c => c.commit.root).head? with
  | some c => some c.name
  | none => calls.getLast?.map Call.name

end Treerack.Spec

namespace Treerack
open Spec

/-- The function called. -/
def Syntax.call (s : Syntax) : Call → Syntax × Option SynErr
  | .anyChar n ct => s.AnyChar n ct
  | .class_ n ct neg cs rs => s.Class n ct neg cs rs
  | .charSequence n ct cs => s.CharSequence n ct cs
  | .sequence n ct items => s.Sequence n ct items
  | .choice n ct os => s.Choice n ct os

/-- Calls one after the other, all of which succeed. -/
def Syntax.calls (s : Syntax) : List Call → Option Syntax
  | [] => some s
  | c :: cs =>
    match s.call c with
    | (s, none) => s.calls cs
    | (_, some _) => none

/-- The grammar meant by a registered definition. -/
def Def.gdef (d : Def) : GDef Name :=
  { name := d.name
    alias := d.commitType.alias
    expr := match d.kind with
      | .char neg cs rs => .char neg cs rs
      | .choice os _ => .choice os
      | .seq _ items _ _ _ => .seq (items.map fun i => (i.name, bounds i.min i.max)) }

/-- The grammar meant by the registered definitions. -/
def Syntax.grammar (s : Syntax) : Grammar Name := fun n =>
  (s.registry.lookup n).bind fun p => (s.heap[p]?).map Def.gdef

/-- A definition call with any name, and without adding the mark of the definitions made by the user. -/
def Syntax.internalCall (s : Syntax) : Call → Syntax × Option SynErr
  | .anyChar n ct => s.anyChar_ n ct
  | .class_ n ct neg cs rs => s.class_ n ct neg cs rs
  | .charSequence n ct cs => s.charSequence_ n ct cs
  | .sequence n ct items => s.sequence_ n ct items
  | .choice n ct os => s.choice_ n ct os

/-- Calls one after the other, up to the first one that fails. -/
def Syntax.internalCalls (s : Syntax) : List Call → Syntax × Option SynErr
  | [] => (s, none)
  | c :: cs =>
    match s.internalCall c with
    | (s, none) => s.internalCalls cs
    | (s, some e) => (s, some e)

/-- `Made cs s`: the syntax `s` was made by the definitions `cs`, all of them accepted: calls of the API, and
definitions read from documents, in any order. -/
inductive Made : List Call → Syntax → Prop
  | empty : Made [] {}
  | call {cs : List Call} {s s' : Syntax} {c : Call} : Made cs s → s.call c = (s', none) → Made (cs ++ [c]) s'
  | document {cs : List Call} {s s' : Syntax} {c : Call} : Made cs s → s.internalCall c = (s', none) →
      Made (cs ++ [c]) s'

end Treerack
