import Verif.Model.Results

/-
context.go, char.go:20-34 (matching), nodehead.go.
-/

namespace Treerack

/-- The errors that `Parse` can return. -/
inductive Err where
  /-- syntaxhead.go:35-58 `ParseError` (the field `Input` is always `<input>`, syntaxhead.go:93) -/
  | parseError (offset line column : Nat) (definition : Name)
  /-- syntaxhead.go:73 `ErrInvalidUnicodeCharacter` -/
  | invalidUnicode
  /-- an error of the underlying reader, other than io.EOF -/
  | readErr (e : Nat)
  deriving Repr, DecidableEq

/-- The shared part of char.go:3-9, choice.go:3-9, sequence.go:3-11 that depends on the kind. -/
inductive PKind where
  /-- char.go:3-9 -/
  | char (not : Bool) (chars : List Rune) (ranges : List (Rune × Rune))
  /-- choice.go:3-9 -/
  | choice (options : List Ptr)
  /-- sequence.go:3-11.  `ranges` are (min, max) pairs. -/
  | seq (items : List Ptr) (ranges : List (Int × Int)) (allChars : Bool)
  deriving Repr, DecidableEq

/-- A parser object together with the builder object of the same definition: both carry the same
id, commit type, generalizations and (corresponding) children (choicedefine.go:86-135,
sequencedefine.go:129-183, chardefine.go:36-41).  `pname` is the name in the parser object, `name` is
the name in the builder object: they are equal in a `Syntax`, but not in generated code
(choicedefine.go:174,226, sequencedefine.go:315,380).  Simplification: the builder of a character has
the id 0 in generated code (chardefine.go:114); here it is the id of the character.  Neither of the two
ids ever has a recorded match. -/
structure PDef where
  pname : Name
  name : Name
  id : Nat
  commit : Commit
  gens : List Nat
  kind : PKind
  deriving Repr, DecidableEq

/-- The parser objects reachable in memory, and the keyword parsers of the context. -/
structure Env where
  defs : List PDef
  keywords : List Ptr
  deriving Repr, DecidableEq

/-- context.go:9-23.  The `io.RuneReader` is represented by the runes it is still going to deliver and
by how it ends: `none` is io.EOF, `some e` is another error.  Simplification: the input is finite, and
`bufio.Reader.ReadRune` never returns a rune together with an error (as documented by the standard
library), so the `n > 0 && err == io.EOF` case of context.go:42-46 does not occur.
`offsetLimit` and `failOffset` are -1 when unset, like in Go. -/
structure Ctx where
  reader : List Rune
  readerEnd : Option Nat
  offset : Nat := 0
  readOffset : Nat := 0
  consumed : Nat := 0
  offsetLimit : Int := -1
  failOffset : Int := -1
  failing : Option Ptr := none
  readErr : Option Err := none
  eof : Bool := false
  res : Results := {}
  tokens : List Rune := []
  matchLast : Bool := false
  deriving Repr, DecidableEq

/-- context.go:25-33 -/
def newContext (reader : List Rune) (readerEnd : Option Nat) : Ctx :=
  { reader := reader, readerEnd := readerEnd }

/-- char.go:20-34 -/
def matchChar (chars : List Rune) (ranges : List (Rune × Rune)) (not : Bool) (char : Rune) : Bool :=
  if chars.any (fun ci => ci == char) then !not
  else if ranges.any (fun ri => decide (char ≥ ri.1) && decide (char ≤ ri.2)) then !not
  else not

namespace Ctx

/-- context.go:35-62; the Boolean is the Go return value. -/
def read (c : Ctx) : Bool × Ctx :=
  if c.eof || c.readErr.isSome then (false, c)
  else
    match c.reader with
    | [] =>
      match c.readerEnd with
      | none => (false, { c with eof := true })
      | some e => (false, { c with readErr := some (.readErr e) })
    | r :: rest =>
      if r == replacementChar then
        (false, { c with reader := rest, readOffset := c.readOffset + 1,
                         readErr := some .invalidUnicode })
      else
        (true, { c with reader := rest, readOffset := c.readOffset + 1,
                        tokens := c.tokens ++ [r] })

/-- context.go:64-76; `none` is the Go result `(0, false)`.  Indexing `c.tokens` can panic. -/
def token (c : Ctx) : Res (Option Rune × Ctx) :=
  if (c.offset : Int) == c.offsetLimit then .ok (none, c)
  else if c.offset == c.readOffset then
    match c.read with
    | (false, c') => .ok (none, c')
    | (true, c') => (Res.index c'.tokens c'.offset).bind fun r => .ok (some r, c')
  else (Res.index c.tokens c.offset).bind fun r => .ok (some r, c)

/-- context.go:108-114 -/
def success (c : Ctx) (to : Nat) : Ctx :=
  { c with offset := to, matchLast := true,
           consumed := if to > c.consumed then to else c.consumed }

/-- context.go:116-119 -/
def fail (c : Ctx) (offset : Nat) : Ctx := { c with offset := offset, matchLast := false }

/-- context.go:78-91; `none` is the Go result `false`. -/
def fromResults (c : Ctx) (id : Nat) : Option Ctx :=
  match c.res.longestResult c.offset id with
  | none => none
  | some (some to) => some (c.success to)
  | some none => some (c.fail c.offset)

end Ctx

/-- context.go:121-132 `findLine`, the loop over `tokens[:offset]`; returns (line, column). -/
def findLineLoop : List Rune → Nat × Nat → Nat × Nat
  | [], lc => lc
  | t :: ts, (line, column) =>
    if t == newline then findLineLoop ts (line + 1, 0) else findLineLoop ts (line, column + 1)

/-- context.go:121-132; slicing `tokens[:offset]` panics on a negative or too large offset.
Simplification: Go allows slicing up to the capacity of `tokens`; we panic beyond the length. -/
def findLine (tokens : List Rune) (offset : Int) : Res (Nat × Nat) :=
  if offset < 0 then .panic
  else if offset.toNat > tokens.length then .panic
  else .ok (findLineLoop (tokens.take offset.toNat) (0, 0))

/-- context.go:136-139: the definition name up to the first colon, if that is not the first
character. -/
def definitionPart (n : Name) : Name :=
  match n.findIdx? (· == colon) with
  | some i => if i > 0 then n.take i else n
  | none => n

end Treerack
