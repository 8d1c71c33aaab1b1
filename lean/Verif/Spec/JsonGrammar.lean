import Verif.Model.Basic

/-
Specification: the grammar of JSON, as in RFC 8259.  The three places where examples/json.treerack differs from the RFC are
parameters: the whitespace, the characters that may be in a string without an escape, and the hexadecimal digits.
-/

namespace Treerack.Spec.JsonText

structure Flavor where
  space : Rune → Prop
  plain : Rune → Prop
  hex : Rune → Prop

/-- RFC 8259: sections 2 and 7, and RFC 5234 with RFC 8259 errata for the letters of HEXDIG, that are case insensitive. -/
def rfc : Flavor where
  space c := c = 0x20 ∨ c = 0x09 ∨ c = 0x0A ∨ c = 0x0D
  plain c := (0x20 ≤ c ∧ c ≤ 0x21) ∨ (0x23 ≤ c ∧ c ≤ 0x5B) ∨ (0x5D ≤ c ∧ c ≤ 0x10FFFF)
  hex c := (0x30 ≤ c ∧ c ≤ 0x39) ∨ (0x41 ≤ c ∧ c ≤ 0x46) ∨ (0x61 ≤ c ∧ c ≤ 0x66)

/-- examples/json.treerack: also backspaces and form feeds are whitespace, only the control characters with a short escape and
the quote and the backslash need an escape, and the hexadecimal digits are lowercase letters. -/
def example_ : Flavor where
  space c := c = 0x20 ∨ c = 0x08 ∨ c = 0x0C ∨ c = 0x0A ∨ c = 0x0D ∨ c = 0x09
  plain c := c ≠ 0x5C ∧ c ≠ 0x22 ∧ c ≠ 0x08 ∧ c ≠ 0x0C ∧ c ≠ 0x0A ∧ c ≠ 0x0D ∧ c ≠ 0x09
  hex c := (0x30 ≤ c ∧ c ≤ 0x39) ∨ (0x61 ≤ c ∧ c ≤ 0x66)

/-- RFC 8259 with lowercase letters as hexadecimal digits. -/
def lowercase : Flavor := { rfc with hex := fun c => (0x30 ≤ c ∧ c ≤ 0x39) ∨ (0x61 ≤ c ∧ c ≤ 0x66) }

variable (F : Flavor)

def Space (t : List Rune) : Prop := ∀ c ∈ t, F.space c

/-! ### Strings -/

inductive Chars : List Rune → Prop
  | nil : Chars []
  | plain {c : Rune} {t : List Rune} : F.plain c → Chars t → Chars (c :: t)
  | escape {c : Rune} {t : List Rune} : c ∈ runes "\"\\/bfnrt" → Chars t → Chars (0x5C :: c :: t)
  | unicode {a b c d : Rune} {t : List Rune} : F.hex a → F.hex b → F.hex c → F.hex d → Chars t →
      Chars (0x5C :: 0x75 :: a :: b :: c :: d :: t)

def String (t : List Rune) : Prop := ∃ cs, Chars F cs ∧ t = 0x22 :: (cs ++ [0x22])

/-! ### Numbers -/

def Digit (c : Rune) : Prop := 0x30 ≤ c ∧ c ≤ 0x39

def Digits (t : List Rune) : Prop := t ≠ [] ∧ ∀ c ∈ t, Digit c

def Minus (t : List Rune) : Prop := t = [] ∨ t = [0x2D]

/-- No leading zeros. -/
def Int (t : List Rune) : Prop := t = [0x30] ∨ ∃ d ds, 0x31 ≤ d ∧ d ≤ 0x39 ∧ (∀ c ∈ ds, Digit c) ∧ t = d :: ds

def Frac (t : List Rune) : Prop := t = [] ∨ ∃ ds, Digits ds ∧ t = 0x2E :: ds

def Exp (t : List Rune) : Prop :=
  t = [] ∨ ∃ e sign ds, (e = 0x65 ∨ e = 0x45) ∧ (sign = [] ∨ sign = [0x2B] ∨ sign = [0x2D]) ∧ Digits ds ∧ t = e :: (sign ++ ds)

def Number (t : List Rune) : Prop := ∃ m i f e, Minus m ∧ Int i ∧ Frac f ∧ Exp e ∧ t = m ++ i ++ f ++ e

/-! ### Values -/

mutual

inductive Value : List Rune → Prop
  | true : Value (runes "true")
  | false : Value (runes "false")
  | null : Value (runes "null")
  | string {t : List Rune} : String F t → Value t
  | number {t : List Rune} : Number t → Value t
  | emptyObject {w : List Rune} : Space F w → Value (runes "{" ++ w ++ runes "}")
  | object {w w' t : List Rune} : Space F w → Members t → Space F w' → Value (runes "{" ++ w ++ t ++ w' ++ runes "}")
  | emptyArray {w : List Rune} : Space F w → Value (runes "[" ++ w ++ runes "]")
  | array {w w' t : List Rune} : Space F w → Values t → Space F w' → Value (runes "[" ++ w ++ t ++ w' ++ runes "]")

inductive Member : List Rune → Prop
  | mk {s w w' t : List Rune} : String F s → Space F w → Space F w' → Value t → Member (s ++ w ++ runes ":" ++ w' ++ t)

/-- Members with commas between them. -/
inductive Members : List Rune → Prop
  | one {t : List Rune} : Member t → Members t
  | more {t u w w' : List Rune} : Members t → Space F w → Space F w' → Member u → Members (t ++ w ++ runes "," ++ w' ++ u)

/-- Values with commas between them. -/
inductive Values : List Rune → Prop
  | one {t : List Rune} : Value t → Values t
  | more {t u w w' : List Rune} : Values t → Space F w → Space F w' → Value u → Values (t ++ w ++ runes "," ++ w' ++ u)

end

/-- A JSON text. -/
def Text (t : List Rune) : Prop := ∃ w v w', Space F w ∧ Value F v ∧ Space F w' ∧ t = w ++ v ++ w'

end Treerack.Spec.JsonText
