import Verif.Spec.Json
import Verif.Spec.JsonTree

/-
Specification: what the values of JSON texts mean, when strings and numbers are not as they are written (Spec/JsonTree.lean) but with
their content (Spec/Json.lean).
-/

namespace Treerack.Spec.JsonText

mutual

def meaning : JValue → Option Json
  | .string t => (Json.decode (t.drop 1).dropLast).map .str
  | .number t => if isDecimal t then some (.num (decimal t)) else none
  | .object ms => (meaningMembers ms).map .obj
  | .array vs => (meaningValues vs).map .arr
  | .true => none
  | .false => none
  | .null => none

def meaningMember : List Rune × JValue → Option (List Rune × Json)
  | (k, v) => (Json.decode (k.drop 1).dropLast).bind fun k => (meaning v).map fun v => (k, v)

def meaningMembers : List (List Rune × JValue) → Option (List (List Rune × Json))
  | [] => some []
  | m :: ms => (meaningMember m).bind fun m => (meaningMembers ms).map (m :: ·)

def meaningValues : List JValue → Option (List Json)
  | [] => some []
  | v :: vs => (meaning v).bind fun v => (meaningValues vs).map (v :: ·)

end

end Treerack.Spec.JsonText
