import Verif.Spec.Spaced
import Verif.Spec.Document

/-
Specification: the conditions in the theorems about syntaxes.  They are stated about the definition calls and about the documents,
without the code.
-/

namespace Treerack
open Spec

/-- A name as the definition calls accept it, without a colon. -/
def NoColon (n : Name) : Prop := colon ∉ n

/-- The parts of a name between the colons. -/
def Spec.parts : Name → List Name
  | [] => [[]]
  | c :: n => if c = colon then [] :: parts n else (c :: (parts n).headD []) :: (parts n).tail

/-- A decimal number. -/
def Spec.isNumber (n : Name) : Bool := !n.isEmpty && n.all fun r => decide (48 ≤ r) && decide (r ≤ 57)

/-- A symbol, or the name of a member of the definition of a symbol. -/
def Spec.Numbered (n : Name) : Prop := ∀ x ∈ (parts n).tail, isNumber x = true

/-- The name of a symbol that is not a number, or of a member of its definition. -/
def Spec.MemberName (n : Name) : Prop := isNumber ((parts n).headD []) = false ∧ Numbered n

/-- The names that a call refers to. -/
def Spec.Call.refs : Call → List Name
  | .sequence _ _ items => items.map SeqItem.name
  | .choice _ _ os => os
  | _ => []

/-- The names and the references are symbols, or numbered members of definitions as in documents, in this case
without symbols that are numbers. -/
def PlainNames (cs : List Call) : Prop :=
  (∀ c ∈ cs, NoColon c.name ∧ ∀ n ∈ c.refs, NoColon n) ∨ ∀ c ∈ cs, MemberName c.name ∧ ∀ n ∈ c.refs, MemberName n

/-- The keyword definitions are choices, character sequences, or without whitespace. -/
def TightKeywords (cs : List Call) : Prop := ∀ c ∈ cs, c.commit.keyword = true →
  c.isTight = true ∨ ∃ n ct os, c = .choice n ct os

/-- The conditions under which the whitespace is applied without confusing definitions: names are
symbols, and the keywords are not rewritten. -/
def WsSafe (cs : List Call) : Prop := (∃ c ∈ cs, c.isWs = true) → PlainNames cs ∧ TightKeywords cs

/-- No call refers to a character inside of a class or of a character sequence. -/
def PlainRefs (cs : List Call) : Prop := ∀ c ∈ cs, ∀ n ∈ c.refs, ∀ d, grammarOf cs n = some d →
  ∀ neg chars ranges, d.expr ≠ .char neg chars ranges

/-- The definitions that are checked for keywords are sequences, and the keywords are texts. -/
def TextKeywords (cs : List Call) : Prop := ∀ c ∈ cs, c.commit.noKeyword = true → ∀ k ∈ cs, k.commit.keyword = true →
  c.isChoice = false ∧ k.isText = true

instance (cs : List Call) : Decidable (TextKeywords cs) := by unfold TextKeywords; exact inferInstance

/-- The syntaxes for which the parsing is described by the reference semantics: no whitespace definitions, keyword checks
only of sequences and only for keywords that are texts, and no other left recursion than that of choices with a left recursive
option, where these options are neither the root nor checked for keywords. -/
structure Regular (cs : List Call) : Prop where
  noWhitespace : ∀ c ∈ cs, c.commit.whitespace = false
  keywords : TextKeywords cs
  recursion : OnlyDirectRecursion (grammarOf cs)
  notRoot : ∀ n s, Recurs (grammarOf cs) n s → rootOf cs ≠ some s
  unchecked : ∀ n s, Recurs (grammarOf cs) n s → ¬ RejectsKeywords cs s

/-- The syntaxes for which the returned trees, too, are described by the reference semantics: references only by the names of
definitions. -/
structure Straightforward (cs : List Call) : Prop extends Regular cs where
  plainRefs : PlainRefs cs

/-- The syntaxes with whitespace definitions for which the parsing is described by the reference semantics: names and keywords
as in syntax documents, keyword checks only of sequences and only for keywords that are texts, and no other left recursion than
that of choices with a left recursive option, that is not checked for keywords. -/
structure RegularWs (cs : List Call) : Prop where
  whitespace : ∃ c ∈ cs, c.commit.whitespace = true
  names : PlainNames cs
  tight : TightKeywords cs
  keywords : TextKeywords cs
  recursion : OnlyDirectRecursion (spaced (wgrammarOf cs))
  unchecked : ∀ n x, Recurs (spaced (wgrammarOf cs)) n x → ¬ Checked cs x

/-- The syntaxes with whitespace definitions for which the returned trees, too, are described by the reference semantics. -/
structure StraightforwardWs (cs : List Call) : Prop extends RegularWs cs where
  plainRefs : PlainRefs cs

/-- The condition on documents with whitespace definitions: no symbols that are numbers, and the keyword definitions are texts,
choices, or without whitespace. -/
def Spec.DocumentWsSafe (doc : Document) : Prop := (∃ d ∈ doc, d.flags.whitespace = true) →
  ∀ d ∈ doc, isNumber d.name = false ∧ (∀ m ∈ d.expr.symbols, isNumber m = false) ∧
    (d.flags.keyword = true → d.flags.noWhitespace = true ∨ d.flags.whitespace = true ∨ (∃ cs, d.expr = .chars cs) ∨
      ∃ os, d.expr = .choice os)

/-- The names and the symbols are without colons; this holds for every document that is written as a text. -/
def Spec.PlainSymbols (doc : Document) : Prop := ∀ d ∈ doc, NoColon d.name ∧ ∀ m ∈ d.expr.symbols, NoColon m

end Treerack
