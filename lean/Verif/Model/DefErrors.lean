import Verif.Model.Messages

/-
The texts of the errors of definitions: syntaxhead.go:10-24, syntax.go:54-92,122-150.

`incompatibleCommitTypes` is a Go map, and `range` visits its entries in any order: here the order is a parameter, a
list with the entries of the map.  `%s` is the text, `%v` of a commit type calls its `String` method.
-/

namespace Treerack

/-- syntaxhead.go:10-24: `1 << iota`, and the first constant with it is the second of the group -/
def noneBits : Nat := 0
def aliasBits : Nat := 1 <<< 1
def whitespaceBits : Nat := 1 <<< 2
def noWhitespaceBits : Nat := 1 <<< 3
def keywordBits : Nat := 1 <<< 4
def noKeywordBits : Nat := 1 <<< 5
def failPassBits : Nat := 1 <<< 6
def rootBits : Nat := 1 <<< 7
def userDefinedBits : Nat := 1 <<< 8

/-- The commit type as the number it is in the code. -/
def Commit.bits (ct : Commit) : Nat :=
  (if ct.alias then aliasBits else 0) ||| (if ct.whitespace then whitespaceBits else 0) |||
  (if ct.noWhitespace then noWhitespaceBits else 0) ||| (if ct.keyword then keywordBits else 0) |||
  (if ct.noKeyword then noKeywordBits else 0) ||| (if ct.failPass then failPassBits else 0) |||
  (if ct.root then rootBits else 0) ||| (if ct.userDefined then userDefinedBits else 0)

/-- syntax.go:63-84 -/
def commitTypeString (ct : Nat) : List Rune :=
  if ct = noneBits then runes "none"
  else if ct = aliasBits then runes "alias"
  else if ct = whitespaceBits then runes "whitespace"
  else if ct = noWhitespaceBits then runes "no-whitespace"
  else if ct = keywordBits then runes "keyword"
  else if ct = noKeywordBits then runes "no-keyword"
  else if ct = failPassBits then runes "fail-pass"
  else if ct = rootBits then runes "root"
  else runes "unknown"

/-- syntax.go:122-127 -/
def incompatibleCommitTypes : List (Nat × List Nat) := [
  (aliasBits, [rootBits]),
  (whitespaceBits, [keywordBits, noKeywordBits, failPassBits, rootBits]),
  (keywordBits, [noKeywordBits, rootBits]),
  (failPassBits, [rootBits])]

/-- The inner loop, syntax.go:135-146: the first one of the list that is set. -/
def checkExcluded (ct : Nat) : List Nat → Option Nat
  | [] => none
  | cti :: rest => if ct &&& cti = 0 then checkExcluded ct rest else some cti

/-- syntax.go:129-150: the text of the error, when the entries of the map are visited in the order of the list. -/
def checkCommitType (name : Name) (bits : Nat) : List (Nat × List Nat) → Option (List Rune)
  | [] => none
  | (ct, ict) :: rest =>
    if bits &&& ct = 0 then checkCommitType name bits rest
    else
      match checkExcluded bits ict with
      | some cti => some (runes "incompatible commit types in " ++ name ++ runes ": " ++ commitTypeString ct ++ runes " and " ++ commitTypeString cti)
      | none => checkCommitType name bits rest

/-- The text of an error, where `ct` is the commit type of the definition that it is about.  syntax.go:54-61,86-92,140-145.
The texts of the errors of strconv (define.go:163-169) are not modelled. -/
def SynErr.text (order : List (Nat × List Nat)) (ct : Commit) : SynErr → Option (List Rune)
  | .syntaxInitialized => some (runes "syntax initialized")
  | .initFailed => some (runes "init failed")
  | .noParsersDefined => some (runes "no parsers defined")
  | .multipleRoots => some (runes "multiple roots")
  | .invalidSymbolName => some (runes "invalid symbol name")
  | .duplicateDefinition n => some (runes "duplicate definition: " ++ n)
  | .parserNotFound n => some (runes "parser not found: " ++ n)
  | .incompatibleCommit n => checkCommitType n ct.bits order
  | .number => none
  | .readSyntax e => e.message

end Treerack
