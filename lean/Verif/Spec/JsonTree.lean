import Verif.Spec.JsonGrammar
import Verif.Model.Builder

/-
Specification: the values of JSON texts, and how to read them from the nodes of examples/json.treerack.
-/

namespace Treerack.Spec.JsonText

/-- JSON values; strings and numbers as they are written. -/
inductive JValue where
  | true
  | false
  | null
  | string (text : List Rune)
  | number (text : List Rune)
  | object (members : List (List Rune × JValue))
  | array (values : List JValue)

section
variable (F : Flavor)

mutual

/-- `ValueOf F t v`: the text stands for the value.  This is `Value`, together with the values. -/
inductive ValueOf : List Rune → JValue → Prop
  | true : ValueOf (runes "true") .true
  | false : ValueOf (runes "false") .false
  | null : ValueOf (runes "null") .null
  | string {t : List Rune} : String F t → ValueOf t (.string t)
  | number {t : List Rune} : Number t → ValueOf t (.number t)
  | emptyObject {w : List Rune} : Space F w → ValueOf (runes "{" ++ w ++ runes "}") (.object [])
  | object {w w' t : List Rune} {ms : List (List Rune × JValue)} : Space F w → MembersOf t ms → Space F w' →
      ValueOf (runes "{" ++ w ++ t ++ w' ++ runes "}") (.object ms)
  | emptyArray {w : List Rune} : Space F w → ValueOf (runes "[" ++ w ++ runes "]") (.array [])
  | array {w w' t : List Rune} {vs : List JValue} : Space F w → ValuesOf t vs → Space F w' →
      ValueOf (runes "[" ++ w ++ t ++ w' ++ runes "]") (.array vs)

inductive MemberOf : List Rune → List Rune × JValue → Prop
  | mk {s w w' t : List Rune} {v : JValue} : String F s → Space F w → Space F w' → ValueOf t v →
      MemberOf (s ++ w ++ runes ":" ++ w' ++ t) (s, v)

inductive MembersOf : List Rune → List (List Rune × JValue) → Prop
  | one {t : List Rune} {m : List Rune × JValue} : MemberOf t m → MembersOf t [m]
  | more {t u w w' : List Rune} {ms : List (List Rune × JValue)} {m : List Rune × JValue} : MembersOf t ms → Space F w → Space F w' →
      MemberOf u m → MembersOf (t ++ w ++ runes "," ++ w' ++ u) (ms ++ [m])

inductive ValuesOf : List Rune → List JValue → Prop
  | one {t : List Rune} {v : JValue} : ValueOf t v → ValuesOf t [v]
  | more {t u w w' : List Rune} {vs : List JValue} {v : JValue} : ValuesOf t vs → Space F w → Space F w' → ValueOf u v →
      ValuesOf (t ++ w ++ runes "," ++ w' ++ u) (vs ++ [v])

end

/-- A JSON text and its value. -/
def TextOf (t : List Rune) (v : JValue) : Prop := ∃ w u w', Space F w ∧ ValueOf F u v ∧ Space F w' ∧ t = w ++ u ++ w'

end

/-! ### Reading the nodes -/

/-- The text of a node. -/
def source : Node → List Rune
  | .mk _ f t tokens _ => (tokens.drop f).take (t - f)

mutual

/-- The value that a node stands for, by its name, its text and its child nodes. -/
def nodeValue : Node → Option JValue
  | .mk name f t tokens nodes =>
    if name = runes "true" then some .true
    else if name = runes "false" then some .false
    else if name = runes "null" then some .null
    else if name = runes "string" then some (.string ((tokens.drop f).take (t - f)))
    else if name = runes "number" then some (.number ((tokens.drop f).take (t - f)))
    else if name = runes "object" then (nodeMembers nodes).map .object
    else if name = runes "array" then (nodeValues nodes).map .array
    else none

def nodeValues : List Node → Option (List JValue)
  | [] => some []
  | n :: ns => (nodeValue n).bind fun v => (nodeValues ns).map (v :: ·)

def nodeMember : Node → Option (List Rune × JValue)
  | .mk name _ _ _ nodes => if name = runes "entry" then nodePair nodes else none

/-- The key and the value of a member. -/
def nodePair : List Node → Option (List Rune × JValue)
  | [] => none
  | k :: ns => if k.name = runes "string" then (nodeOnly ns).map fun v => (source k, v) else none

def nodeOnly : List Node → Option JValue
  | [] => none
  | n :: ns => if ns.isEmpty then nodeValue n else none

def nodeMembers : List Node → Option (List (List Rune × JValue))
  | [] => some []
  | n :: ns => (nodeMember n).bind fun m => (nodeMembers ns).map (m :: ·)

end

/-- The value of the tree: the root has a single child node. -/
def treeValue : Node → Option JValue
  | .mk name _ _ _ nodes => if name = runes "json" then nodeOnly nodes else none

end Treerack.Spec.JsonText
