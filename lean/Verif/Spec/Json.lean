import Verif.Spec.GoText
import Verif.Model.Cmd

/-
Specification: reading JSON (RFC 8259), without the literals true, false and null, without negative numbers, fractions and
exponents, and without the escapes for surrogates.
-/

namespace Treerack.Spec

open Treerack

inductive Json where
  | str (t : List Rune)
  | num (n : Nat)
  | arr (items : List Json)
  | obj (members : List (List Rune × Json))

namespace Json

inductive Tok where
  | str (t : List Rune)
  | num (n : Nat)
  | punct (c : Rune)
  deriving Repr, DecidableEq

/-- The token that is being read; of a string the text as it was written, `esc`: behind a backslash. -/
inductive St where
  | between
  | str (t : List Rune)
  | esc (t : List Rune)
  | num (t : List Rune)
  deriving Repr, DecidableEq

def space (c : Rune) : Bool := c == 32 || c == 9 || c == 10 || c == 13

def hexValue (c : Rune) : Option Nat :=
  if 48 ≤ c ∧ c ≤ 57 then some (c - 48)
  else if 97 ≤ c ∧ c ≤ 102 then some (c - 87)
  else if 65 ≤ c ∧ c ≤ 70 then some (c - 55)
  else none

/-- The escapes of a single character. -/
def simpleEscape (c : Rune) : Option Rune :=
  if c = 34 ∨ c = 92 ∨ c = 47 then some c
  else if c = 98 then some 8
  else if c = 102 then some 12
  else if c = 110 then some 10
  else if c = 114 then some 13
  else if c = 116 then some 9
  else none

/-- The content of a string. -/
def decode : List Rune → Option (List Rune)
  | [] => some []
  | c :: cs =>
    if c ≠ 92 then if c < 32 ∨ c = 34 then none else (decode cs).map (c :: ·)
    else
      match cs with
      | [] => none
      | e :: cs =>
        if e = 117 then
          match cs with
          | w :: x :: y :: z :: cs =>
            (hexValue w).bind fun w => (hexValue x).bind fun x => (hexValue y).bind fun y => (hexValue z).bind fun z =>
              let n := ((w * 16 + x) * 16 + y) * 16 + z
              if 0xD800 ≤ n ∧ n < 0xE000 then none else (decode cs).map (n :: ·)
          | _ => none
        else (simpleEscape e).bind fun c => (decode cs).map (c :: ·)

/-- A character behind a token. -/
def start (c : Rune) : Option (List Tok × St) :=
  if space c then some ([], .between)
  else if c = 34 then some ([], .str [])
  else if isDigit c then some ([], .num [c])
  else if (runes "{}[],:").contains c then some ([.punct c], .between)
  else none

def step : St → Rune → Option (List Tok × St)
  | .between, c => start c
  | .str t, c =>
    if c = 34 then (decode t).map fun s => ([.str s], .between)
    else if c = 92 then some ([], .esc (t ++ [c]))
    else some ([], .str (t ++ [c]))
  | .esc t, c => some ([], .str (t ++ [c]))
  | .num t, c =>
    if isDigit c then some ([], .num (t ++ [c]))
    else if isDecimal t then (start c).map fun x => (.num (decimal t) :: x.1, x.2)
    else none

def lex : St → List Rune → Option (List Tok)
  | .between, [] => some []
  | .num t, [] => if isDecimal t then some [.num (decimal t)] else none
  | _, [] => none
  | st, c :: cs => (step st c).bind fun x => (lex x.2 cs).map fun ts => x.1 ++ ts

mutual
/-- A value, and the tokens behind it. -/
def value : Nat → List Tok → Option (Json × List Tok)
  | 0, _ => none
  | n + 1, ts =>
    match ts with
    | .str t :: ts => some (.str t, ts)
    | .num k :: ts => some (.num k, ts)
    | .punct c :: ts =>
      if c = 91 then
        match ts with
        | .punct 93 :: ts => some (.arr [], ts)
        | ts => (elements n ts).map fun x => (.arr x.1, x.2)
      else if c = 123 then
        match ts with
        | .punct 125 :: ts => some (.obj [], ts)
        | ts => (members n ts).map fun x => (.obj x.1, x.2)
      else none
    | [] => none
def elements : Nat → List Tok → Option (List Json × List Tok)
  | 0, _ => none
  | n + 1, ts =>
    (value n ts).bind fun x =>
      match x.2 with
      | .punct 44 :: ts => (elements n ts).map fun y => (x.1 :: y.1, y.2)
      | .punct 93 :: ts => some ([x.1], ts)
      | _ => none
def members : Nat → List Tok → Option (List (List Rune × Json) × List Tok)
  | 0, _ => none
  | n + 1, ts =>
    match ts with
    | .str k :: .punct 58 :: ts =>
      (value n ts).bind fun x =>
        match x.2 with
        | .punct 44 :: ts => (members n ts).map fun y => ((k, x.1) :: y.1, y.2)
        | .punct 125 :: ts => some ([(k, x.1)], ts)
        | _ => none
    | _ => none
end

end Json

/-- The value of a JSON text. -/
def readJson (text : List Rune) : Option Json :=
  (Json.lex .between text).bind fun ts =>
    match Json.value (ts.length + 1) ts with
    | some (v, []) => some v
    | _ => none

/-- The tree as a JSON value: an object with the name and the range, the text when it is not empty, and the child nodes
when there are any. -/
def jsonOf : OutNode → Json
  | .mk name f t text nodes =>
    .obj ([(runes "name", .str name), (runes "from", .num f), (runes "to", .num t)] ++
      (if text = [] then [] else [(runes "text", .str text)]) ++
      (match nodes with
      | [] => []
      | n :: ns => [(runes "nodes", .arr (jsonOf n :: go ns))]))
where
  go : List OutNode → List Json
  | [] => []
  | n :: ns => jsonOf n :: go ns

/-- All the characters of the names and the texts of a printed tree. -/
def outChars : OutNode → List Rune
  | .mk name _ _ text nodes => name ++ text ++ go nodes
where
  go : List OutNode → List Rune
  | [] => []
  | n :: ns => outChars n ++ go ns

end Treerack.Spec
