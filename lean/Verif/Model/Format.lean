import Verif.Model.Define

/-
The format methods, chardefine.go:47-73, choicedefine.go:137-153, sequencedefine.go:185-293: the notation of a definition.

The format flags are not used by the code, they are left out.  `strconv.Itoa` is `itoa`.  The lookups of names that are not
registered return nil in Go: the methods called on it panic.
-/

namespace Treerack

/-- chardefine.go:8-11 -/
def charClassEscape : Rune := 92
def charClassBanned : List Rune := runes "\\[]^-\x08\x0c\n\r\t\x0b"

/-- `r.definition[name]`, the object -/
def Syntax.defined (s : Syntax) (n : Name) : Option Def := (s.registry.lookup n).bind fun p => s.heap[p]?

/-- chardefine.go:52-54 -/
def classEsc (cs : List Rune) : List Rune := escape charClassEscape charClassBanned cs

/-- chardefine.go:47-73 -/
def formatChar (neg : Bool) (cs : List Rune) (rs : List (Rune × Rune)) : List Rune :=
  if neg && cs.isEmpty && rs.isEmpty then runes "."
  else runes "[" ++ (if neg then runes "^" else []) ++ classEsc cs ++
    rs.flatMap (fun r => classEsc [r.1] ++ runes "-" ++ classEsc [r.2]) ++ runes "]"

/-- chardefine.go:43-45, with the type assertion of sequencedefine.go:193: the character when the definition is a single one. -/
def Def.singleChar (d : Def) : Option Rune :=
  match d.kind with
  | .char false [c] [] => some c
  | _ => none

namespace Syntax

/-- sequencedefine.go:185-200 -/
def isCharSequence (s : Syntax) (orig : List SeqItem) : Bool :=
  orig.all fun item =>
    let it := normalizeItemRange item
    it.min == 1 && it.max == 1 && ((s.defined item.name).bind Def.singleChar).isSome

/-- sequencedefine.go:203-219, when the items are single characters -/
def formatChars (s : Syntax) (orig : List SeqItem) : List Rune :=
  match orig.filterMap fun item => (s.defined item.name).bind Def.singleChar with
  | [c] => formatChar false [c] []
  | cs => runes "\"" ++ escape charClassEscape charClassBanned cs ++ runes "\""

/-- sequencedefine.go:229,255-289, for a normalized item -/
def formatQuantifier (item : SeqItem) : List Rune :=
  if !(item.min != 1 || item.max != 1) then []
  else if item.min == 0 && item.max == 1 then runes "?"
  else if item.min == 0 && item.max < 0 then runes "*"
  else if item.min == 1 && item.max < 0 then runes "+"
  else runes "{" ++
    (if item.min == item.max then itoa item.min.toNat
     else (if item.min > 0 then itoa item.min.toNat else []) ++ runes "," ++
       (if item.max ≥ 0 then itoa item.max.toNat else [])) ++ runes "}"

/-- sequencedefine.go:231-241 -/
def needsGrouping (s : Syntax) (d : Def) : Bool :=
  match d.kind with
  | .char _ _ _ => false
  | .choice options _ => options.length > 1
  | .seq orig _ _ _ _ => orig.length > 1 && !s.isCharSequence orig

/-- sequencedefine.go:243-253 -/
def formatMember (s : Syntax) (rec : Def → Res (List Rune)) (d : Def) : Res (List Rune) :=
  if d.commitType.userDefined then .ok d.name
  else (rec d).bind fun t => .ok (if s.needsGrouping d then runes "(" ++ t ++ runes ")" else t)

/-- The loop of sequencedefine.go:221-290. -/
def formatItems (s : Syntax) (rec : Def → Res (List Rune)) : List SeqItem → List Rune → Res (List Rune)
  | [], chars => .ok chars
  | item :: items, chars =>
    let chars := if chars.length > 0 then chars ++ runes " " else chars
    let item := normalizeItemRange item
    match s.defined item.name with
    | none => .panic
    | some d => (s.formatMember rec d).bind fun t => formatItems s rec items (chars ++ t ++ formatQuantifier item)

/-- The loop of choicedefine.go:138-150. -/
def formatOptions (s : Syntax) (rec : Def → Res (List Rune)) : Nat → List Name → List Rune → Res (List Rune)
  | _, [], chars => .ok chars
  | i, o :: os, chars =>
    let chars := if i > 0 then chars ++ runes " | " else chars
    match s.defined o with
    | none => .panic
    | some d => (if d.commitType.userDefined then .ok d.name else rec d).bind fun t => formatOptions s rec (i + 1) os (chars ++ t)

/-- The format method of a definition. -/
def format (s : Syntax) : Nat → Def → Res (List Rune)
  | 0, _ => .oof
  | n + 1, d =>
    match d.kind with
    | .char neg cs rs => .ok (formatChar neg cs rs)
    | .choice options _ => s.formatOptions (s.format n) 0 options []
    | .seq orig _ _ _ _ => if s.isCharSequence orig then .ok (s.formatChars orig) else s.formatItems (s.format n) orig []

end Syntax
end Treerack
