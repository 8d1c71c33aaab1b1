import Verif.Model.Syntax

/-
The reader behind the context, syntaxhead.go:83 and context.go:40: `bufio.NewReader(r)` and its `ReadRune`, from the source of the
standard library (bufio/bufio.go, unicode/utf8/utf8.go), over an arbitrary io.Reader.  And `string(runes)`, used by nodehead.go:21.

Bytes are natural numbers; the ones from 256 on do not occur.  Of the buffer only the part that is not read yet is represented,
`b.buf[b.r:b.w]`: fill moves it to the beginning, so that `b.r` has no effect.  Masks and shifts are written as remainders,
products and sums.
-/

namespace Treerack

/-! ### unicode/utf8 -/

/-- The table `first` with `acceptRanges`: the number of the bytes, and the range of the second byte. -/
def utf8First (b : Nat) : Option (Nat × Nat × Nat) :=
  if b < 0xC2 then none
  else if b < 0xE0 then some (2, 0x80, 0xBF)
  else if b = 0xE0 then some (3, 0xA0, 0xBF)
  else if b < 0xED then some (3, 0x80, 0xBF)
  else if b = 0xED then some (3, 0x80, 0x9F)
  else if b < 0xF0 then some (3, 0x80, 0xBF)
  else if b = 0xF0 then some (4, 0x90, 0xBF)
  else if b < 0xF4 then some (4, 0x80, 0xBF)
  else if b = 0xF4 then some (4, 0x80, 0x8F)
  else none

def isCont (b : Nat) : Bool := 0x80 ≤ b && b ≤ 0xBF

/-- utf8.FullRune -/
def fullRune : List Nat → Bool
  | [] => false
  | b0 :: p =>
    if b0 < 0x80 then true
    else
      match utf8First b0 with
      | none => true
      | some (sz, lo, hi) =>
        if p.length + 1 ≥ sz then true
        else
          match p with
          | [] => false
          | b1 :: p =>
            if b1 < lo || hi < b1 then true
            else
              match p with
              | [] => false
              | b2 :: _ => !isCont b2

/-- utf8.DecodeRune, for a non-empty slice: the character and the number of the bytes. -/
def decodeRune : List Nat → Nat × Nat
  | [] => (replacementChar, 0)
  | b0 :: p =>
    if b0 < 0x80 then (b0, 1)
    else
      match utf8First b0 with
      | none => (replacementChar, 1)
      | some (sz, lo, hi) =>
        if p.length + 1 < sz then (replacementChar, 1)
        else
          match p with
          | [] => (replacementChar, 1)
          | b1 :: p =>
            if b1 < lo || hi < b1 then (replacementChar, 1)
            else if sz ≤ 2 then (b0 % 32 * 64 + b1 % 64, 2)
            else
              match p with
              | [] => (replacementChar, 1)
              | b2 :: p =>
                if !isCont b2 then (replacementChar, 1)
                else if sz ≤ 3 then (b0 % 16 * 4096 + b1 % 64 * 64 + b2 % 64, 3)
                else
                  match p with
                  | [] => (replacementChar, 1)
                  | b3 :: _ =>
                    if !isCont b3 then (replacementChar, 1)
                    else (b0 % 8 * 262144 + b1 % 64 * 4096 + b2 % 64 * 64 + b3 % 64, 4)

/-- utf8.AppendRune -/
def appendRune (c : Nat) : List Nat :=
  if c < 0x80 then [c]
  else if c < 0x800 then [0xC0 + c / 64, 0x80 + c % 64]
  else if c > 0x10FFFF || (0xD800 ≤ c && c ≤ 0xDFFF) then [0xEF, 0xBF, 0xBD]
  else if c < 0x10000 then [0xE0 + c / 4096, 0x80 + c / 64 % 64, 0x80 + c % 64]
  else [0xF0 + c / 262144, 0x80 + c / 4096 % 64, 0x80 + c / 64 % 64, 0x80 + c % 64]

/-- `string(runes)` -/
def goString (cs : List Rune) : List Nat := cs.flatMap appendRune

/-! ### bufio.Reader -/

/-- An error of a reader: `none` is io.EOF, `some 0` is io.ErrNoProgress, the others are those of the reader. -/
abbrev ReadEnd := Option Nat
def noProgress : ReadEnd := some 0

/-- What the calls of `Read` are going to return: bytes, and an error or nil.  When there is nothing more, they return io.EOF. -/
abbrev Reads := List (List Nat × Option ReadEnd)

structure Bufio where
  rd : Reads
  /-- `b.buf[b.r:b.w]` -/
  unread : List Nat := []
  err : Option ReadEnd := none

/-- `len(b.buf)` -/
def bufSize : Nat := 4096

namespace Bufio

/-- The loop of `fill`.  The reader gets the free part of the buffer: what does not fit stays for the next call. -/
def fillLoop : Nat → Bufio → Bufio
  | 0, b => { b with err := some noProgress }
  | i + 1, b =>
    match b.rd with
    | [] => { b with err := some none }
    | (p, e) :: rd =>
      let space := bufSize - b.unread.length
      if p.length > space then { b with unread := b.unread ++ p.take space, rd := (p.drop space, e) :: rd }
      else
        let b := { b with unread := b.unread ++ p, rd := rd }
        match e with
        | some e => { b with err := some e }
        | none => if p.length > 0 then b else fillLoop i b

/-- `fill`, with maxConsecutiveEmptyReads -/
def fill (b : Bufio) : Bufio := fillLoop 100 b

/-- The loop of `ReadRune`; every round except the last one adds at least a byte, so that there are at most four
(`readLoop_done`). -/
def readLoop : Nat → Bufio → Bufio
  | 0, b => b
  | i + 1, b =>
    if 4 > b.unread.length && !fullRune b.unread && b.err.isNone && b.unread.length < bufSize then readLoop i b.fill else b

/-- `ReadRune`: the character, or an error. -/
def readRune (b : Bufio) : Except ReadEnd Rune × Bufio :=
  let b := readLoop 5 b
  match b.unread with
  | [] =>
    match b.err with
    | some e => (.error e, { b with err := none })
    | none => (.ok 0, b)
  | b0 :: p =>
    let (r, size) := if b0 ≥ 0x80 then decodeRune (b0 :: p) else (b0, 1)
    (.ok r, { b with unread := (b0 :: p).drop size })

/-- `n` calls of `ReadRune`, until the first error: context.go:35-62 makes no further calls after an error. -/
def readRunes : Nat → Bufio → List Rune × Option ReadEnd
  | 0, _ => ([], none)
  | n + 1, b =>
    match b.readRune with
    | (.error e, _) => ([], some e)
    | (.ok r, b) =>
      let (rs, e) := readRunes n b
      (r :: rs, e)

end Bufio

/-- An upper limit of the number of the calls. -/
def Reads.size (rd : Reads) : Nat := (rd.map fun r => r.1.length).foldr (· + ·) 1

/-- syntax.go:442-448 with a reader. -/
def Syntax.ParseReader (s : Syntax) (fuel : Nat) (rd : Reads) : Res (Syntax × Syntax.ParseResult) :=
  match Bufio.readRunes rd.size { rd := rd } with
  | (rs, some e) => s.Parse fuel rs e
  | (_, none) => .panic

/-- nodehead.go:20-22, the text as bytes. -/
def Node.textBytes (n : Node) : Res (List Nat) := n.text.bind fun t => .ok (goString t)

end Treerack
