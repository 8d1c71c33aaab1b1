import Verif.Model.Cmd

/-
cmd/treerack/show.go:17-23, 87-109: the JSON text of the printed tree.  This models what `json.Marshal` and
`json.MarshalIndent` of the Go library do for the type `node`, which cannot fail.
-/

namespace Treerack

/-- The lower case hexadecimal digit. -/
def hexDigit (n : Nat) : Rune := if n < 10 then 48 + n else 87 + n

/-- encoding/json: a character of a string; the quote, the backslash, the control characters, `<`, `>`, `&`, U+2028 and
U+2029 are escaped.  (Since Go 1.22 the backspace and the form feed are written as `\b` and `\f`.) -/
def jsonChar (c : Rune) : List Rune :=
  if c = 92 ∨ c = 34 then [92, c]
  else if c = 10 then [92, 110]
  else if c = 13 then [92, 114]
  else if c = 9 then [92, 116]
  else if c < 32 ∨ c = 60 ∨ c = 62 ∨ c = 38 then [92, 117, 48, 48, hexDigit (c / 16), hexDigit (c % 16)]
  else if c = 0x2028 ∨ c = 0x2029 then [92, 117, 50, 48, 50, hexDigit (c % 16)]
  else [c]

def jsonString (s : List Rune) : List Rune := 34 :: s.flatMap jsonChar ++ [34]

/-- encoding/json: the field names in front of their values. -/
def jsonField (name : String) (value : List Rune) : List Rune := 34 :: runes name ++ 34 :: 58 :: value

/-- json.Marshal for the type `node`; show.go:17-23: the text and the nodes are omitted when they are empty. -/
def marshal : OutNode → List Rune
  | .mk name f t text nodes =>
    123 :: jsonField "name" (jsonString name) ++ 44 :: jsonField "from" (itoa f) ++ 44 :: jsonField "to" (itoa t) ++
    (if text = [] then [] else 44 :: jsonField "text" (jsonString text)) ++
    (match nodes with
    | [] => []
    | n :: ns => 44 :: jsonField "nodes" (91 :: marshal n ++ go ns)) ++ [125]
where
  /-- The further elements of the array, and its end. -/
  go : List OutNode → List Rune
  | [] => [93]
  | n :: ns => 44 :: marshal n ++ go ns

/-- Where the scanner of `json.Indent` is: outside of the strings, inside of a string, behind a backslash in a
string. -/
inductive IndentMode where
  | out
  | str
  | esc
  deriving Repr, DecidableEq

def indentNewline (indent : List Rune) (depth : Nat) : List Rune := 10 :: (List.replicate depth indent).flatten

/-- json.Indent with an empty prefix: `need` is the variable needIndent.  The text comes from `json.Marshal`, it has no
spaces outside of the strings, so the skipping of spaces is not modelled. -/
def indentText (indent : List Rune) : IndentMode → Bool → Nat → List Rune → List Rune
  | _, _, _, [] => []
  | .str, need, depth, c :: cs =>
    c :: indentText indent (if c = 34 then .out else if c = 92 then .esc else .str) need depth cs
  | .esc, need, depth, c :: cs => c :: indentText indent .str need depth cs
  | .out, need, depth, c :: cs =>
    let opens := need && c != 125 && c != 93
    let pre := if opens then indentNewline indent (depth + 1) else []
    let depth := if opens then depth + 1 else depth
    let need := need && !opens
    if c = 123 ∨ c = 91 then pre ++ c :: indentText indent .out true depth cs
    else if c = 44 then pre ++ c :: indentNewline indent depth ++ indentText indent .out need depth cs
    else if c = 58 then pre ++ c :: 32 :: indentText indent .out need depth cs
    else if c = 125 ∨ c = 93 then
      if need then pre ++ c :: indentText indent .out false depth cs
      else pre ++ indentNewline indent (depth - 1) ++ c :: indentText indent .out need (depth - 1) cs
    else pre ++ c :: indentText indent (if c = 34 then .str else .out) need depth cs

/-- show.go:89-108: the flags pretty and indent, and the printed text, without the new line. -/
def showText (pretty : Bool) (indent : List Rune) (n : OutNode) : List Rune :=
  if pretty || indent != [] then
    indentText (if indent = [] then List.replicate 4 32 else indent) .out false 0 (marshal n)
  else marshal n

end Treerack
