import Verif.Model.Basic

/-
Specification: breaking a text into lines.
-/

namespace Treerack.Spec

/-- The pieces of a text between the characters `sep`. -/
def pieces (sep : Rune) (text : List Rune) : List (List Rune) :=
  text.foldr (fun c ps => if c = sep then [] :: ps else (c :: ps.headD []) :: ps.tail) [[]]

def lines (text : List Rune) : List (List Rune) := pieces 10 text

/-- The characters with the line breaks made equal to spaces. -/
def blank (c : Rune) : Rune := if c = 10 then 32 else c

/-- The words, separated by single spaces or line breaks. -/
def words (text : List Rune) : List (List Rune) := pieces 32 (text.map blank)

/-- `out` is `text` broken into lines of at most `width` characters: only spaces and line breaks were exchanged with each
other, and a line ends only where the next word does not fit in it. -/
structure Wrapped (width : Nat) (text out : List Rune) : Prop where
  same : out.map blank = text.map blank
  fits : ∀ line ∈ lines out, line.length ≤ width
  full : ∀ (i : Nat) a b, (lines out)[i]? = some a → (lines out)[i + 1]? = some b →
    width < a.length + 1 + (b.takeWhile (· ≠ 32)).length

end Treerack.Spec
