import Verif.Model.Generate
import Verif.Spec.Document

/-
Specification: how a Go compiler reads the text of the generated function.  This is the part of the language that is
necessary for the generated declarations, assignments and the closing statements.
-/

namespace Treerack.Spec

open Treerack

/-! ### Tokens -/

inductive Tok where
  /-- an identifier or a keyword of Go -/
  | word (t : List Rune)
  | int (n : Nat)
  | str (t : List Rune)
  | sym (c : Rune)
  deriving Repr, DecidableEq

/-- The token that is being read; between the tokens: whether a new line ends the statement. -/
inductive LexState where
  | between (ends : Bool)
  | word (t : List Rune)
  | int (t : List Rune)
  | str (t : List Rune)
  deriving Repr, DecidableEq

def isLetter (c : Rune) : Bool := (65 ≤ c && c ≤ 90) || (97 ≤ c && c ≤ 122) || c == 95

def isDigit (c : Rune) : Bool := 48 ≤ c && c ≤ 57

/-- Decimal notation: digits without leading zeros. -/
def isDecimal (t : List Rune) : Bool := t != [] && t.all isDigit && (t.length == 1 || t.head? != some 48)

/-- A character behind a token.  A new line stands for a semicolon if a statement can end there. -/
def startToken (ends : Bool) (c : Rune) : Option (List Tok × LexState) :=
  if c = 10 then some (if ends then [.sym 59] else [], .between false)
  else if c = 32 ∨ c = 9 ∨ c = 13 then some ([], .between ends)
  else if isLetter c then some ([], .word [c])
  else if isDigit c then some ([], .int [c])
  else if c = 34 then some ([], .str [])
  else if (runes "{}[](),;.=&:-*").contains c then some ([.sym c], .between (c == 41 || c == 93 || c == 125))
  else none

/-- The next character.  A string does not contain new lines, backslashes (it would be an escape sequence), and
the characters U+0000 and U+FEFF, which are not accepted in Go sources. -/
def lexStep : LexState → Rune → Option (List Tok × LexState)
  | .between ends, c => startToken ends c
  | .word t, c =>
    if isLetter c || isDigit c then some ([], .word (t ++ [c]))
    else (startToken (t != runes "var" && t != runes "func") c).map fun x => (.word t :: x.1, x.2)
  | .int t, c =>
    if isDigit c then some ([], .int (t ++ [c]))
    else if isLetter c || c == 46 then none
    else if isDecimal t then (startToken true c).map fun x => (.int (decimal t) :: x.1, x.2)
    else none
  | .str t, c =>
    if c = 34 then some ([.str t], .between true)
    else if c = 10 ∨ c = 92 ∨ c = 0 ∨ c = 0xFEFF then none
    else some ([], .str (t ++ [c]))

/-- The tokens of a text that does not end inside of a token. -/
def lex : LexState → List Rune → Option (List Tok)
  | .between _, [] => some []
  | _, [] => none
  | st, c :: cs => (lexStep st c).bind fun x => (lex x.2 cs).map fun ts => x.1 ++ ts

/-! ### Expressions -/

def word (s : String) : Tok := .word (runes s)

def readInt : List Tok → Option (Int × List Tok)
  | .int n :: ts => some ((n : Int), ts)
  | .sym 45 :: .int n :: ts => some (-(n : Int), ts)
  | _ => none

/-- The items of a list, separated by commas, until the closing brace. -/
def readList {α : Type} (item : List Tok → Option (α × List Tok)) : Nat → List Tok → Option (List α × List Tok)
  | 0, _ => none
  | _ + 1, .sym 125 :: ts => some ([], ts)
  | n + 1, ts =>
    (item ts).bind fun x =>
      match x.2 with
      | .sym 44 :: ts => (readList item n ts).map fun y => (x.1 :: y.1, y.2)
      | .sym 125 :: ts => some ([x.1], ts)
      | _ => none

/-- `{1, 2}` -/
def readPair : List Tok → Option ((Int × Int) × List Tok)
  | .sym 123 :: ts =>
    (readInt ts).bind fun x =>
      match x.2 with
      | .sym 44 :: ts =>
        (readInt ts).bind fun y =>
          match y.2 with
          | .sym 125 :: ts => some ((x.1, y.1), ts)
          | _ => none
      | _ => none
  | _ => none

/-- The values of the fields; lists with the type of their elements. -/
inductive Value where
  | int (z : Int)
  | str (t : List Rune)
  | yes
  | ints (type : List Rune) (l : List Int)
  | pairs (type : List Rune) (l : List (Int × Int))
  deriving Repr, DecidableEq

def readValue (fuel : Nat) : List Tok → Option (Value × List Tok)
  | .str t :: ts => some (.str t, ts)
  | .word t :: ts => if t = runes "true" then some (.yes, ts) else none
  | .sym 91 :: .sym 93 :: .word ty :: .sym 123 :: ts => (readList readInt fuel ts).map fun x => (.ints ty x.1, x.2)
  | .sym 91 :: .sym 93 :: .sym 91 :: .sym 93 :: .word ty :: .sym 123 :: ts =>
    (readList readPair fuel ts).map fun x => (.pairs ty x.1, x.2)
  | ts => (readInt ts).map fun x => (.int x.1, x.2)

/-- `name: value` -/
def readField (fuel : Nat) : List Tok → Option ((List Rune × Value) × List Tok)
  | .word f :: .sym 58 :: ts => (readValue fuel ts).map fun x => ((f, x.1), x.2)
  | _ => none

/-- `p1`, `b1`: whether it is a builder, and the number. -/
def readVar : List Rune → Option (Bool × Nat)
  | c :: t => if (c = 112 ∨ c = 98) ∧ isDecimal t then some (c == 98, decimal t) else none
  | [] => none

/-- `&p1` -/
def readRef (builder : Bool) : List Tok → Option (Nat × List Tok)
  | .sym 38 :: .word v :: ts => (readVar v).bind fun x => if x.1 = builder then some (x.2, ts) else none
  | _ => none

/-! ### Types -/

/-- The value of a type with no fields set. -/
def zeroLit (builder : Bool) (ty : List Rune) : Option Lit :=
  if ty = runes (if builder then "charBuilder" else "charParser") then some { kind := .char false [] [] }
  else if ty = runes (if builder then "choiceBuilder" else "choiceParser") then some { kind := .choice }
  else if ty = runes (if builder then "sequenceBuilder" else "sequenceParser") then some { kind := .seq [] false }
  else none

/-- The flags in a CommitType: Alias, Whitespace, NoWhitespace, Keyword, NoKeyword, FailPass, Root and userDefined are the bits
from the second one on. -/
def commitOf (n : Nat) : Commit where
  alias := n.testBit 1
  whitespace := n.testBit 2
  noWhitespace := n.testBit 3
  keyword := n.testBit 4
  noKeyword := n.testBit 5
  failPass := n.testBit 6
  root := n.testBit 7
  userDefined := n.testBit 8

/-- Setting a field. -/
def setField (builder : Bool) (l : Lit) (f : List Rune × Value) : Option Lit :=
  match f.2, l.kind with
  | .int (.ofNat n), k =>
    if f.1 = runes "id" then some { l with id := n }
    else match k with
      | .char _ _ _ => none
      | _ => if f.1 = runes "commit" then some { l with commit := commitOf n } else none
  | .str t, _ => if f.1 = runes "name" then some { l with name := t } else none
  | .yes, .char _ cs rs => if f.1 = runes "not" ∧ builder = false then some { l with kind := .char true cs rs } else none
  | .yes, .seq rs _ => if f.1 = runes "allChars" then some { l with kind := .seq rs true } else none
  | .ints ty zs, .char neg _ rs =>
    if f.1 = runes "chars" ∧ ty = runes "rune" ∧ builder = false ∧ ∀ z ∈ zs, 0 ≤ z then
      some { l with kind := .char neg (zs.map Int.toNat) rs }
    else none
  | .pairs ty zs, .char neg cs _ =>
    if f.1 = runes "ranges" ∧ ty = runes "rune" ∧ builder = false ∧ ∀ z ∈ zs, 0 ≤ z.1 ∧ 0 ≤ z.2 then
      some { l with kind := .char neg cs (zs.map fun z => (z.1.toNat, z.2.toNat)) }
    else none
  | .pairs ty zs, .seq _ ac =>
    if f.1 = runes "ranges" ∧ ty = runes "int" then some { l with kind := .seq zs ac } else none
  | .ints ty zs, _ =>
    if f.1 = runes "generalizations" ∧ ty = runes "int" ∧ ∀ z ∈ zs, 0 ≤ z then some { l with gens := zs.map Int.toNat }
    else none
  | _, _ => none

/-- A composite literal with field names, each of them at most once. -/
def literal (builder : Bool) (ty : List Rune) (fs : List (List Rune × Value)) : Option Lit :=
  if (fs.map Prod.fst).Nodup then (zeroLit builder ty).bind fun l => fs.foldlM (setField builder) l else none

/-! ### Statements -/

/-- A declaration or an assignment, and whether it is about a builder. -/
def readStmt (fuel : Nat) : List Tok → Option ((Bool × Stmt) × List Tok)
  | .word var :: .word x :: .sym 61 :: .word ty :: .sym 123 :: ts =>
    if var = runes "var" then
      (readVar x).bind fun v =>
        (readList (readField fuel) fuel ts).bind fun fs =>
          (literal v.1 ty fs.1).bind fun l =>
            match fs.2 with
            | .sym 59 :: ts => some ((v.1, .declare v.2 l), ts)
            | _ => none
    else none
  | .word x :: .sym 46 :: .word field :: .sym 61 :: .sym 91 :: .sym 93 :: .word ty :: .sym 123 :: ts =>
    (readVar x).bind fun v =>
      if ty = runes (if v.1 then "builder" else "parser") then
        (readList (readRef v.1) fuel ts).bind fun refs =>
          match refs.2 with
          | .sym 59 :: ts =>
            if field = runes "options" then some ((v.1, .assign v.2 .options refs.1), ts)
            else if field = runes "items" then some ((v.1, .assign v.2 .items refs.1), ts)
            else none
          | _ => none
      else none
  | _ => none

/-- As many statements as there are. -/
def readStmts (fuel : Nat) : Nat → List Tok → List (Bool × Stmt) × List Tok
  | 0, ts => ([], ts)
  | n + 1, ts =>
    match readStmt fuel ts with
    | none => ([], ts)
    | some (st, ts) => ((st :: (readStmts fuel n ts).1), (readStmts fuel n ts).2)

/-- `(r io.Reader) (*Node, error) {` -/
def signature : List Tok :=
  [.sym 40, word "r", word "io", .sym 46, word "Reader", .sym 41, .sym 40, .sym 42, word "Node", .sym 44, word "error", .sym 41, .sym 123]

/-- The name of the function. -/
def readHead : List Tok → Option (Bool × List Tok)
  | .word f :: .word name :: ts =>
    if f = runes "func" ∧ ts.take signature.length = signature then
      if name = runes "Parse" then some (true, ts.drop signature.length)
      else if name = runes "parse" then some (false, ts.drop signature.length)
      else none
    else none
  | _ => none

/-- `var keywords = []parser{...}` -/
def readKeywords (fuel : Nat) : List Tok → Option (List Nat × List Tok)
  | .word var :: .word x :: .sym 61 :: .sym 91 :: .sym 93 :: .word ty :: .sym 123 :: ts =>
    if var = runes "var" ∧ x = runes "keywords" ∧ ty = runes "parser" then
      (readList (readRef false) fuel ts).bind fun refs =>
        match refs.2 with
        | .sym 59 :: ts => some (refs.1, ts)
        | _ => none
    else none
  | _ => none

/-- `return parseInput(r, &p1, &b1, keywords)` and the end of the function. -/
def readReturn : List Tok → Option (Nat × Nat)
  | .word ret :: .word f :: .sym 40 :: .word r :: .sym 44 :: ts =>
    if ret = runes "return" ∧ f = runes "parseInput" ∧ r = runes "r" then
      (readRef false ts).bind fun p =>
        match p.2 with
        | .sym 44 :: ts =>
          (readRef true ts).bind fun b =>
            if b.2 = [.sym 44, word "keywords", .sym 41, .sym 59, .sym 125, .sym 59] then some (p.1, b.1) else none
        | _ => none
    else none
  | _ => none

/-- The text of the function: whether it is exported, and its statements. -/
def readFunction (text : List Rune) : Option (Bool × Program) :=
  (lex (.between false) text).bind fun ts =>
    let fuel := ts.length
    (readHead ts).bind fun head =>
      let stmts := readStmts fuel fuel head.2
      (readKeywords fuel stmts.2).bind fun ks =>
        (readReturn ks.2).map fun roots =>
          (head.1, {
            parsers := (stmts.1.filter fun st => !st.1).map Prod.snd
            builders := (stmts.1.filter fun st => st.1).map Prod.snd
            keywords := ks.1
            rootParser := roots.1
            rootBuilder := roots.2 })

/-- A name that can be written between quotes as it is: no quotes, new lines, backslashes, U+0000 and U+FEFF. -/
def Quotable (t : List Rune) : Prop := ∀ c ∈ t, c ≠ 34 ∧ c ≠ 10 ∧ c ≠ 92 ∧ c ≠ 0 ∧ c ≠ 0xFEFF

/-- The text of a generated file in front of the function. -/
def fileFront (gendoc headCode packageName : List Rune) : List Rune :=
  gendoc ++ runes "\n\npackage " ++ packageName ++ runes "\n\n" ++ headCode ++ runes "\n\n"

/-- The first line of the function. -/
def functionLine (exported : Bool) : List Rune :=
  if exported then runes "func Parse(r io.Reader) (*Node, error) {\n" else runes "func parse(r io.Reader) (*Node, error) {\n"

/-- The last part of the function. -/
def functionEnd (keywords : List Nat) (p b : Nat) : List Rune :=
  runes "\n\nvar keywords = []parser{" ++ (keywords.flatMap fun k => runes "&p" ++ runes (toString k) ++ runes ", ") ++
  runes "}\n\nreturn parseInput(r, &p" ++ runes (toString p) ++ runes ", &b" ++ runes (toString b) ++ runes ", keywords)\n}\n"

end Treerack.Spec
