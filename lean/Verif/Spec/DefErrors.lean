import Verif.Spec.Definitions

/-
Specification: the texts of the errors of definitions.
-/

namespace Treerack.Spec

/-- Two flags that are set and exclude each other, by the texts they have in the messages. -/
inductive Clash (ct : Commit) : List Rune → List Rune → Prop
  | aliasRoot : ct.alias = true → ct.root = true → Clash ct (runes "alias") (runes "root")
  | whitespaceKeyword : ct.whitespace = true → ct.keyword = true → Clash ct (runes "whitespace") (runes "keyword")
  | whitespaceNoKeyword : ct.whitespace = true → ct.noKeyword = true → Clash ct (runes "whitespace") (runes "no-keyword")
  | whitespaceFailPass : ct.whitespace = true → ct.failPass = true → Clash ct (runes "whitespace") (runes "fail-pass")
  | whitespaceRoot : ct.whitespace = true → ct.root = true → Clash ct (runes "whitespace") (runes "root")
  | keywordNoKeyword : ct.keyword = true → ct.noKeyword = true → Clash ct (runes "keyword") (runes "no-keyword")
  | keywordRoot : ct.keyword = true → ct.root = true → Clash ct (runes "keyword") (runes "root")
  | failPassRoot : ct.failPass = true → ct.root = true → Clash ct (runes "fail-pass") (runes "root")

/-- The message about two flags. -/
def clashText (n : Name) (f g : List Rune) : List Rune :=
  runes "incompatible commit types in " ++ n ++ runes ": " ++ f ++ runes " and " ++ g

/-- The names of the definitions made by a call: the characters, and the definition itself. -/
def Call.names (c : Call) : List Name := c.defs.map Prod.fst

/-- The commit type of the definition object that a call makes: the flags of the call, marked as defined by the user; texts
never have whitespace between their characters. -/
def Call.objectCommit : Call → Commit
  | .charSequence _ ct _ => { ct with noWhitespace := true, userDefined := true }
  | c => { c.commit with userDefined := true }

/-- Why a definition call was rejected, and the text of the error. -/
inductive Rejected (s : Syntax) (c : Call) : List Rune → Prop
  | initialized : s.initialized = true → Rejected s c (runes "syntax initialized")
  | name : ¬ ValidName c.name → Rejected s c (runes "invalid symbol name")
  | flags {f g : List Rune} : Clash c.commit f g → Rejected s c (clashText c.name f g)
  | roots : c.commit.root = true → s.explicitRoot = true → Rejected s c (runes "multiple roots")
  | duplicate {n : Name} : n ∈ c.names → s.registry.lookup n ≠ none → Rejected s c (runes "duplicate definition: " ++ n)

/-- Why the initialization failed, and the text of the error; `s'` is the syntax afterwards. -/
inductive NotInitialized (s s' : Syntax) : List Rune → Prop
  | before : s.initFailed = true → NotInitialized s s' (runes "init failed")
  | empty : s.root = none → NotInitialized s s' (runes "no parsers defined")
  | flags {root : Ptr} {d : Def} {f g : List Rune} : s.root = some root → s.heap[root]? = some d → Clash d.commitType f g →
      NotInitialized s s' (clashText d.name f g)
  | missing {n : Name} : s'.registry.lookup n = none → NotInitialized s s' (runes "parser not found: " ++ n)

end Treerack.Spec
