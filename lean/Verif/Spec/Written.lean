import Verif.Spec.Document

/-
Specification: how syntax documents are written.  `WrittenDocument doc text`: the text is a notation of the document, with
whitespace and comments wherever they are allowed.
-/

namespace Treerack.Spec

/-! ### Whitespace and comments -/

/-- space, tab, new line, backspace, form feed, carriage return, vertical tab -/
def isSpace (c : Rune) : Bool := [32, 9, 10, 8, 12, 13, 11].contains c

/-- The text inside of a block comment.  A star is always read together with the character behind it. -/
inductive CommentBody : List Rune → Prop
  | nil : CommentBody []
  | char {c : Rune} {b : List Rune} : c ≠ 42 → CommentBody b → CommentBody (c :: b)
  | star {c : Rune} {b : List Rune} : c ≠ 47 → CommentBody b → CommentBody (42 :: c :: b)

/-- Whitespace and comments. -/
inductive Layout : List Rune → Prop
  | nil : Layout []
  | space {c : Rune} {g : List Rune} : isSpace c = true → Layout g → Layout (c :: g)
  | line {b g : List Rune} : 10 ∉ b → Layout g → Layout (47 :: 47 :: b ++ 10 :: g)
  | block {b g : List Rune} : CommentBody b → Layout g → Layout (47 :: 42 :: b ++ 42 :: 47 :: g)

/-- A line comment at the end of the document, without a new line. -/
inductive LastComment : List Rune → Prop
  | none : LastComment []
  | line {b : List Rune} : 10 ∉ b → LastComment (47 :: 47 :: b)

/-! ### Characters and numbers -/

/-- A character, or an escaped character; the characters in `special` have to be escaped. -/
inductive WrittenChar (special : List Rune) : Rune → List Rune → Prop
  | plain {c : Rune} : c ∉ special → WrittenChar special c [c]
  | escaped {x c : Rune} : Denotes x c → WrittenChar special c [92, x]

/-- The special characters between quotes: `\` and `"`. -/
def quoteSpecial : List Rune := [92, 34]

/-- The special characters in classes: `\`, `[`, `]`, `^` and `-`. -/
def classSpecial : List Rune := [92, 91, 93, 94, 45]

inductive WrittenChars : List Rune → List Rune → Prop
  | nil : WrittenChars [] []
  | cons {c : Rune} {cs t ts : List Rune} : WrittenChar quoteSpecial c t → WrittenChars cs ts → WrittenChars (c :: cs) (t ++ ts)

/-- The members of a class: characters, and ranges like `a-z`. -/
inductive WrittenMembers : List Rune → List (Rune × Rune) → List Rune → Prop
  | nil : WrittenMembers [] [] []
  | char {c : Rune} {cs : List Rune} {rs : List (Rune × Rune)} {t ts : List Rune} : WrittenChar classSpecial c t →
      WrittenMembers cs rs ts → WrittenMembers (c :: cs) rs (t ++ ts)
  | range {a b : Rune} {cs : List Rune} {rs : List (Rune × Rune)} {t u ts : List Rune} : WrittenChar classSpecial a t →
      WrittenChar classSpecial b u → WrittenMembers cs rs ts → WrittenMembers cs ((a, b) :: rs) (t ++ 45 :: u ++ ts)

/-- A decimal number. -/
structure WrittenNumber (v : Nat) (t : List Rune) : Prop where
  nonEmpty : t ≠ []
  digits : ∀ d ∈ t, 48 ≤ d ∧ d ≤ 57
  value : v = decimal t

/-! ### Expressions -/

inductive WrittenQuantifier : Quantifier → List Rune → Prop
  | exactly {n : Nat} {g t g' : List Rune} : Layout g → WrittenNumber n t → Layout g' →
      WrittenQuantifier (.exactly n) (123 :: g ++ t ++ g' ++ [125])
  | between {n m : Nat} {g a g1 g2 b g3 : List Rune} : Layout g → WrittenNumber n a → Layout g1 → Layout g2 → WrittenNumber m b →
      Layout g3 → WrittenQuantifier (.between n m) (123 :: g ++ a ++ g1 ++ 44 :: g2 ++ b ++ g3 ++ [125])
  | atLeast {n : Nat} {g a g1 g2 : List Rune} : Layout g → WrittenNumber n a → Layout g1 → Layout g2 →
      WrittenQuantifier (.atLeast n) (123 :: g ++ a ++ g1 ++ 44 :: g2 ++ [125])
  | atMost {m : Nat} {g g2 b g3 : List Rune} : Layout g → Layout g2 → WrittenNumber m b → Layout g3 →
      WrittenQuantifier (.atMost m) (123 :: g ++ 44 :: g2 ++ b ++ g3 ++ [125])
  | unbounded {g g2 : List Rune} : Layout g → Layout g2 → WrittenQuantifier .unbounded (123 :: g ++ 44 :: g2 ++ [125])
  | oneOrMore : WrittenQuantifier .oneOrMore [43]
  | zeroOrMore : WrittenQuantifier .zeroOrMore [42]
  | zeroOrOne : WrittenQuantifier .zeroOrOne [63]

/-- The characters of symbols: all, except for whitespace and the ones with a meaning in documents. -/
def isSymbolChar (c : Rune) : Bool := !(runes "\\ \n\t\x08\x0c\r\x0b/.[]\"{}^+*?|():=;").contains c

structure WrittenSymbol (t : List Rune) : Prop where
  nonEmpty : t ≠ []
  chars : ∀ c ∈ t, isSymbolChar c = true

/-- Two symbols one after the other without anything between them would be one symbol. -/
def Merge (t u : List Rune) : Prop := (∃ c, t.getLast? = some c ∧ isSymbolChar c = true) ∧ ∃ c, u.head? = some c ∧ isSymbolChar c = true

/-- A sequence has several items, or one with a quantifier. -/
def DItems.Several : DItems → Prop
  | .cons _ _ (.cons _ _ _) => True
  | .cons _ (some _) .nil => True
  | _ => False

mutual

inductive WrittenPrimary : DExpr → List Rune → Prop
  | any : WrittenPrimary .any [46]
  | class_ {cs : List Rune} {rs : List (Rune × Rune)} {t : List Rune} : WrittenMembers cs rs t →
      WrittenPrimary (.class_ false cs rs) (91 :: t ++ [93])
  | classNot {cs : List Rune} {rs : List (Rune × Rune)} {t : List Rune} : WrittenMembers cs rs t →
      WrittenPrimary (.class_ true cs rs) (91 :: 94 :: t ++ [93])
  | chars {cs t : List Rune} : WrittenChars cs t → WrittenPrimary (.chars cs) (34 :: t ++ [34])
  | symbol {t : List Rune} : WrittenSymbol t → WrittenPrimary (.symbol t) t
  /-- any expression in parentheses -/
  | group {e : DExpr} {g t g' : List Rune} : Layout g → WrittenExpr e t → Layout g' → WrittenPrimary e (40 :: g ++ t ++ g' ++ [41])

inductive WrittenItem : DExpr → Option Quantifier → List Rune → Prop
  | once {e : DExpr} {t : List Rune} : WrittenPrimary e t → WrittenItem e none t
  | many {e : DExpr} {q : Quantifier} {t u : List Rune} : WrittenPrimary e t → WrittenQuantifier q u → WrittenItem e (some q) (t ++ u)

/-- One or more items. -/
inductive WrittenItems : DItems → List Rune → Prop
  | one {e : DExpr} {q : Option Quantifier} {t : List Rune} : WrittenItem e q t → WrittenItems (.cons e q .nil) t
  | cons {e : DExpr} {q : Option Quantifier} {items : DItems} {t g u : List Rune} : WrittenItem e q t → Layout g →
      WrittenItems items u → (g = [] → ¬ Merge t u) → WrittenItems (.cons e q items) (t ++ g ++ u)

inductive WrittenOption : DExpr → List Rune → Prop
  | primary {e : DExpr} {t : List Rune} : WrittenPrimary e t → WrittenOption e t
  | seq {items : DItems} {t : List Rune} : WrittenItems items t → items.Several → WrittenOption (.seq items) t

/-- One or more options. -/
inductive WrittenOptions : DOptions → List Rune → Prop
  | one {e : DExpr} {t : List Rune} : WrittenOption e t → WrittenOptions (.cons e .nil) t
  | cons {e : DExpr} {os : DOptions} {t g g' u : List Rune} : WrittenOption e t → Layout g → Layout g' → WrittenOptions os u →
      WrittenOptions (.cons e os) (t ++ g ++ 124 :: g' ++ u)

inductive WrittenExpr : DExpr → List Rune → Prop
  | option {e : DExpr} {t : List Rune} : WrittenOption e t → WrittenExpr e t
  | choice {e : DExpr} {os : DOptions} {t g g' u : List Rune} : WrittenOption e t → Layout g → Layout g' → WrittenOptions os u →
      WrittenExpr (.choice (.cons e os)) (t ++ g ++ 124 :: g' ++ u)

end

/-! ### Definitions -/

/-- The names of the flags. -/
def flagNames : List Name := ["alias", "ws", "nows", "kw", "nokw", "failpass", "root"].map runes

inductive WrittenDefinition : DDef → List Rune → Prop
  | mk {name : Name} {flags : List Name} {e : DExpr} {g g' t : List Rune} : WrittenSymbol name → (∀ f ∈ flags, f ∈ flagNames) →
      Layout g → Layout g' → WrittenExpr e t →
      WrittenDefinition ⟨name, flagsOf flags, e⟩ (name ++ flags.flatMap (fun f => 58 :: f) ++ g ++ 61 :: g' ++ t)

/-- Whitespace, comments, and a number of semicolons. -/
inductive Between : Nat → List Rune → Prop
  | layout {g : List Rune} : Layout g → Between 0 g
  | semicolon {k : Nat} {g t : List Rune} : Layout g → Between k t → Between (k + 1) (g ++ 59 :: t)

/-- One or more definitions, with one or more semicolons between them. -/
inductive WrittenDefinitions : Document → List Rune → Prop
  | one {d : DDef} {t : List Rune} : WrittenDefinition d t → WrittenDefinitions [d] t
  | cons {d : DDef} {ds : Document} {k : Nat} {t s u : List Rune} : WrittenDefinition d t → Between (k + 1) s → WrittenDefinitions ds u →
      WrittenDefinitions (d :: ds) (t ++ s ++ u)

inductive WrittenDocument : Document → List Rune → Prop
  | empty {k : Nat} {t e : List Rune} : Between k t → LastComment e → WrittenDocument [] (t ++ e)
  | definitions {doc : Document} {k l : Nat} {t u t' e : List Rune} : Between k t → WrittenDefinitions doc u → Between l t' →
      LastComment e → WrittenDocument doc (t ++ u ++ t' ++ e)

end Treerack.Spec
