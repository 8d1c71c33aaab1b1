import Verif.Model.Basic

/-
Specification: UTF-8, from RFC 3629, and what a reader delivers.
-/

namespace Treerack.Spec

/-- The characters: all code points except the surrogates. -/
def Scalar (c : Nat) : Prop := c < 0xD800 ∨ 0xDFFF < c ∧ c ≤ 0x10FFFF

/-- RFC 3629, section 3. -/
def utf8 (c : Nat) : List Nat :=
  if c ≤ 0x7F then [c]
  else if c ≤ 0x7FF then [0b11000000 + c / 2 ^ 6, 0b10000000 + c % 2 ^ 6]
  else if c ≤ 0xFFFF then [0b11100000 + c / 2 ^ 12, 0b10000000 + c / 2 ^ 6 % 2 ^ 6, 0b10000000 + c % 2 ^ 6]
  else [0b11110000 + c / 2 ^ 18, 0b10000000 + c / 2 ^ 12 % 2 ^ 6, 0b10000000 + c / 2 ^ 6 % 2 ^ 6, 0b10000000 + c % 2 ^ 6]

/-- The bytes are the UTF-8 of the text. -/
def Utf8 (bytes : List Nat) (text : List Rune) : Prop := (∀ c ∈ text, Scalar c) ∧ bytes = text.flatMap utf8

/-- What a reader delivers, when its calls return the listed bytes and errors: all the bytes up to the first error, and how they
end; `none` is the end of the input, `some 0` the error for 100 calls in a row without any result.  `k` is the number of such
calls right before. -/
def delivered (k : Nat) : List (List Nat × Option (Option Nat)) → List Nat × Option Nat
  | [] => ([], none)
  | (bytes, some e) :: _ => (bytes, e)
  | ([], none) :: reads => if k + 1 = 100 then ([], some 0) else delivered (k + 1) reads
  | (b :: bytes, none) :: reads => (b :: bytes ++ (delivered 0 reads).1, (delivered 0 reads).2)

end Treerack.Spec
