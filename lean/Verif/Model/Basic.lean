/-
Basic vocabulary shared by the whole model of aryszka/treerack.

The model is a shallow transcription of the Go code into total Lean functions.  Every definition
carries a comment citing the Go source it models.
-/

namespace Treerack

/-- A Go `rune`.  The runes that reach the parser are decoded by `bufio.Reader.ReadRune`, hence are
never negative.  Simplification: `rune` is `int32` in Go; we use the natural numbers, so a negative
rune written by hand into a character class (which no input can ever match) is not representable. -/
abbrev Rune := Nat

/-- A definition name.  Go uses `string`; the code only ever looks at names through `[]rune(name)`,
equality, concatenation and `strings.Index(name, ":")`.  Simplification: names that are not valid
UTF-8 are not represented. -/
abbrev Name := List Rune

/-- Convenience for writing runes and names in examples. -/
def runes (s : String) : List Rune := s.toList.map Char.toNat

/-- Address of a definition / parser / builder object (Go pointer identity).  A definition, the parser
created from it (`d.parser()`, cached) and the builder created from it (`d.builder()`, cached) are in
one to one correspondence, so they share one address. -/
abbrev Ptr := Nat

/-- `unicode.ReplacementChar`, used in context.go:55. -/
def replacementChar : Rune := 0xFFFD

/-- `':'` -/
def colon : Rune := 58

/-- `'\n'` -/
def newline : Rune := 10

/-- Result of running Go code: a value, a Go run time panic (index out of range, nil dereference), or
the model ran out of its recursion budget (there is no such thing in Go: it stands for "the call has
not returned yet"; the termination theorems show a budget that is never exhausted). -/
inductive Res (α : Type) where
  | ok (a : α)
  | panic
  | oof
  deriving Repr, DecidableEq

namespace Res

/-- Sequencing: a panic or a call that has not returned stops everything after it. -/
def bind {α β : Type} (x : Res α) (f : α → Res β) : Res β :=
  match x with
  | ok a => f a
  | panic => panic
  | oof => oof

instance : Monad Res where
  pure := Res.ok
  bind := Res.bind

@[simp] theorem bind_ok {α β : Type} (a : α) (f : α → Res β) : (Res.ok a).bind f = f a := rfl
@[simp] theorem bind_panic {α β : Type} (f : α → Res β) : (Res.panic : Res α).bind f = .panic := rfl
@[simp] theorem bind_oof {α β : Type} (f : α → Res β) : (Res.oof : Res α).bind f = .oof := rfl
@[simp] theorem monad_bind {α β : Type} (x : Res α) (f : α → Res β) : (x >>= f) = x.bind f := rfl
@[simp] theorem monad_pure {α : Type} (a : α) : (pure a : Res α) = Res.ok a := rfl

/-- Indexing a Go slice: out of range panics. -/
def index {α : Type} (l : List α) (i : Nat) : Res α :=
  match l[i]? with
  | some a => .ok a
  | none => .panic

end Res

/-- syntaxhead.go:10-23 `CommitType`.  In Go this is an `int` used as a bit set
(`None = 0; Alias = 1 << iota; ...`, so Alias = 2, Whitespace = 4, ... userDefined = 256).
Simplification: the bit set is represented as a record of its named bits; `Commit.toInt` gives the Go
number, and `Verif.Proofs.Bits` proves that the bit operations used by the code on these numbers are
the record operations. Unnamed bits (never inspected by the code) are dropped. -/
structure Commit where
  alias : Bool := false
  whitespace : Bool := false
  noWhitespace : Bool := false
  keyword : Bool := false
  noKeyword : Bool := false
  failPass : Bool := false
  root : Bool := false
  userDefined : Bool := false
  deriving Repr, DecidableEq

/-- `a | b` on commit types. -/
def Commit.or (a b : Commit) : Commit where
  alias := a.alias || b.alias
  whitespace := a.whitespace || b.whitespace
  noWhitespace := a.noWhitespace || b.noWhitespace
  keyword := a.keyword || b.keyword
  noKeyword := a.noKeyword || b.noKeyword
  failPass := a.failPass || b.failPass
  root := a.root || b.root
  userDefined := a.userDefined || b.userDefined

end Treerack
