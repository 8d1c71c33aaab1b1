import Verif.Spec.Api

/-
Specification: keywords.
-/

namespace Treerack.Spec

/-- Is it one character, or a fixed sequence of characters? -/
def Call.isText : Call → Bool
  | .anyChar _ _ | .class_ _ _ _ _ _ | .charSequence _ _ _ => true
  | .sequence _ _ _ | .choice _ _ _ => false

def Call.isChoice : Call → Bool
  | .choice _ _ _ => true
  | _ => false

/-- The text from `i` to `j` is the text of a keyword. -/
def KeywordText (cs : List Call) (input : List Rune) (i j : Nat) : Prop :=
  ∃ k ∈ cs, k.commit.keyword = true ∧ Derives (grammarOf cs) input k.name i j

/-- The definition has the NoKeyword flag. -/
def RejectsKeywords (cs : List Call) (n : Name) : Prop := ∃ c ∈ cs, c.name = n ∧ c.commit.noKeyword = true

/-- The definition must not match the text from `i` to `j`: it has the NoKeyword flag, and the text is a keyword. -/
def blockedOf (cs : List Call) (input : List Rune) (n : Name) (i j : Nat) : Prop :=
  RejectsKeywords cs n ∧ KeywordText cs input i j

end Treerack.Spec
