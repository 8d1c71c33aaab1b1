import Verif.Model.Basic

/-
What an escaped text means, independently of escape.go.
-/

namespace Treerack.Spec

/-- The letters standing for control characters: `\b`, `\f`, `\n`, `\r`, `\t`, `\v`. -/
def controls : List (Rune × Rune) :=
  [(98, 8), (102, 12), (110, 10), (114, 13), (116, 9), (118, 11)]

/-- `Denotes x c`: the character `x` behind the escape character stands for the character `c`: for a
control character, when it is one of the letters, otherwise for itself. -/
def Denotes (x c : Rune) : Prop :=
  (x, c) ∈ controls ∨ ((∀ d, (x, d) ∉ controls) ∧ x = c)

/-- `Escaped esc banned t cs`: the text `t` is a well formed notation of the characters `cs`. -/
inductive Escaped (esc : Rune) (banned : List Rune) : List Rune → List Rune → Prop where
  | nil : Escaped esc banned [] []
  | plain {c t cs} : c ≠ esc → c ∉ banned → Escaped esc banned t cs →
      Escaped esc banned (c :: t) (c :: cs)
  | pair {x c t cs} : Denotes x c → Escaped esc banned t cs →
      Escaped esc banned (esc :: x :: t) (c :: cs)

/-- `Malformed esc banned t`: reading `t` from the left there is a banned character that is not
escaped, or the text ends with an escape character that is not escaped itself. -/
inductive Malformed (esc : Rune) (banned : List Rune) : List Rune → Prop where
  | banned {c t} : c ≠ esc → c ∈ banned → Malformed esc banned (c :: t)
  | unfinished : Malformed esc banned [esc]
  | plain {c t} : c ≠ esc → c ∉ banned → Malformed esc banned t → Malformed esc banned (c :: t)
  | pair {x t} : Malformed esc banned t → Malformed esc banned (esc :: x :: t)

end Treerack.Spec
