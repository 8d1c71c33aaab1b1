import Verif.Spec.Api
import Verif.Spec.Escape
import Verif.Model.Builder

/-
Specification: syntax documents.  What a document says (`Document`), which node trees stand for it
(`DocumentNode`), and which texts its definitions stand for (`Means`).
-/

namespace Treerack.Spec

/-! ### Documents -/

/-- The notations for the number of occurrences. -/
inductive Quantifier where
  | exactly (n : Nat)
  | between (n m : Nat)
  | atLeast (n : Nat)
  | atMost (m : Nat)
  /-- `{,}` -/
  | unbounded
  | oneOrMore
  | zeroOrMore
  | zeroOrOne
  deriving Repr, DecidableEq

/-- The documented meaning: the allowed numbers of occurrences. -/
def Quantifier.allows : Quantifier → Nat → Prop
  | .exactly n, k => k = n
  | .between n m, k => n ≤ k ∧ k ≤ m
  | .atLeast n, k => n ≤ k
  | .atMost m, k => k ≤ m
  | .unbounded, _ => True
  | .oneOrMore, k => 1 ≤ k
  | .zeroOrMore, _ => True
  | .zeroOrOne, k => k ≤ 1

/-- Without a notation there is one occurrence. -/
def allowed : Option Quantifier → Nat → Prop
  | none, k => k = 1
  | some q, k => q.allows k

/-- The minimum and the maximum that are passed to the definition of the sequence. -/
def Quantifier.range : Quantifier → Int × Int
  | .exactly n => (n, n)
  | .between n m => (n, m)
  | .atLeast n => (n, -1)
  | .atMost m => (0, m)
  | .unbounded => (0, -1)
  | .oneOrMore => (1, -1)
  | .zeroOrMore => (0, -1)
  | .zeroOrOne => (0, 1)

def itemRange : Option Quantifier → Int × Int
  | none => (0, 0)
  | some q => q.range

/-- The notations that work as documented: the upper limit is not zero and not below the lower limit. -/
def Quantifier.Sound : Quantifier → Prop
  | .exactly n => 1 ≤ n
  | .between n m => 1 ≤ m ∧ n ≤ m
  | .atMost m => 1 ≤ m
  | _ => True

mutual
/-- The right hand side of a definition in a document. -/
inductive DExpr where
  | any
  | class_ (not : Bool) (chars : List Rune) (ranges : List (Rune × Rune))
  | chars (cs : List Rune)
  | symbol (name : Name)
  | seq (items : DItems)
  | choice (options : DOptions)
inductive DItems where
  | nil
  | cons (e : DExpr) (q : Option Quantifier) (rest : DItems)
inductive DOptions where
  | nil
  | cons (e : DExpr) (rest : DOptions)
end

/-- A definition in a document. -/
structure DDef where
  name : Name
  flags : Commit
  expr : DExpr

abbrev Document := List DDef

/-! ### What a document means -/

mutual
/-- `Means doc input e i j`: the part of the input from `i` to `j` is one of the texts the expression stands for. -/
inductive Means (doc : Document) (input : List Rune) : DExpr → Nat → Nat → Prop
  | any {i : Nat} {t : Rune} : input[i]? = some t → Means doc input .any i (i + 1)
  | class_ {neg : Bool} {cs : List Rune} {rs : List (Rune × Rune)} {i : Nat} {t : Rune} :
      input[i]? = some t → InClass neg cs rs t → Means doc input (.class_ neg cs rs) i (i + 1)
  | chars {cs : List Rune} {i : Nat} : (input.drop i).take cs.length = cs →
      Means doc input (.chars cs) i (i + cs.length)
  | symbol {d : DDef} {i j : Nat} : d ∈ doc → Means doc input d.expr i j → Means doc input (.symbol d.name) i j
  | seq {items : DItems} {i j : Nat} : MeansItems doc input items i j → Means doc input (.seq items) i j
  | choice {os : DOptions} {i j : Nat} : MeansOptions doc input os i j → Means doc input (.choice os) i j

inductive MeansItems (doc : Document) (input : List Rune) : DItems → Nat → Nat → Prop
  | nil {i : Nat} : MeansItems doc input .nil i i
  | cons {e : DExpr} {q : Option Quantifier} {rest : DItems} {k i m j : Nat} :
      MeansTimes doc input e k i m → allowed q k → MeansItems doc input rest m j →
      MeansItems doc input (.cons e q rest) i j

inductive MeansTimes (doc : Document) (input : List Rune) : DExpr → Nat → Nat → Nat → Prop
  | zero {e : DExpr} {i : Nat} : MeansTimes doc input e 0 i i
  | succ {e : DExpr} {k i m j : Nat} : MeansTimes doc input e k i m → Means doc input e m j →
      MeansTimes doc input e (k + 1) i j

inductive MeansOptions (doc : Document) (input : List Rune) : DOptions → Nat → Nat → Prop
  | here {e : DExpr} {rest : DOptions} {i j : Nat} : Means doc input e i j → MeansOptions doc input (.cons e rest) i j
  | there {e : DExpr} {rest : DOptions} {i j : Nat} : MeansOptions doc input rest i j →
      MeansOptions doc input (.cons e rest) i j
end

mutual
/-- All quantifiers work as documented. -/
def DExpr.Sound : DExpr → Prop
  | .seq items => items.Sound
  | .choice os => os.Sound
  | _ => True
def DItems.Sound : DItems → Prop
  | .nil => True
  | .cons e q rest => e.Sound ∧ (∀ x, q = some x → x.Sound) ∧ rest.Sound
def DOptions.Sound : DOptions → Prop
  | .nil => True
  | .cons e rest => e.Sound ∧ rest.Sound
end

mutual
/-- The symbols in an expression. -/
def DExpr.symbols : DExpr → List Name
  | .symbol m => [m]
  | .seq items => items.symbols
  | .choice os => os.symbols
  | _ => []
def DItems.symbols : DItems → List Name
  | .nil => []
  | .cons e _ rest => e.symbols ++ rest.symbols
def DOptions.symbols : DOptions → List Name
  | .nil => []
  | .cons e rest => e.symbols ++ rest.symbols
end

/-! ### The definition calls that correspond to a document

A member of a sequence or of a choice that is not a symbol gets a definition of its own, an alias, with the name of
the surrounding definition and its number in it; it inherits the NoWhitespace flag. -/

def memberFlags (ct : Commit) : Commit := { alias := true, noWhitespace := ct.noWhitespace }

/-- The name by which the `i`th member of the definition `n` is referred to. -/
def memberName (n : Name) (i : Nat) : DExpr → Name
  | .symbol m => m
  | _ => charName n i

mutual
def DExpr.calls (n : Name) (ct : Commit) : DExpr → List Call
  | .any => [.anyChar n ct]
  | .class_ neg cs rs => [.class_ n ct neg cs rs]
  | .chars cs => [.charSequence n ct cs]
  | .symbol m => [.sequence n ct [{ name := m }]]
  | .seq items => items.calls n ct 0 ++ [.sequence n ct (items.refs n 0)]
  | .choice os => os.calls n ct 0 ++ [.choice n ct (os.refs n 0)]
def DItems.calls (n : Name) (ct : Commit) (i : Nat) : DItems → List Call
  | .nil => []
  | .cons (.symbol _) _ rest => rest.calls n ct (i + 1)
  | .cons e _ rest => e.calls (charName n i) (memberFlags ct) ++ rest.calls n ct (i + 1)
def DItems.refs (n : Name) (i : Nat) : DItems → List SeqItem
  | .nil => []
  | .cons e q rest => { name := memberName n i e, min := (itemRange q).1, max := (itemRange q).2 } :: rest.refs n (i + 1)
def DOptions.calls (n : Name) (ct : Commit) (i : Nat) : DOptions → List Call
  | .nil => []
  | .cons (.symbol _) rest => rest.calls n ct (i + 1)
  | .cons e rest => e.calls (charName n i) (memberFlags ct) ++ rest.calls n ct (i + 1)
def DOptions.refs (n : Name) (i : Nat) : DOptions → List Name
  | .nil => []
  | .cons e rest => memberName n i e :: rest.refs n (i + 1)
end

/-- The definition calls of a document, in order. -/
def documentCalls (doc : Document) : List Call := doc.flatMap fun d => d.expr.calls d.name { d.flags with userDefined := true }

/-! The numbers of the quantifiers are converted when the item was defined; a number of 2^63 or more is an error.  With these
errors, the definitions of a document are the following steps. -/

inductive Step where
  | call (c : Call)
  /-- a number that is too large -/
  | overflow

/-- The steps in order, up to the first one that fails. -/
def _root_.Treerack.Syntax.steps (s : Syntax) : List Step → Syntax × Option SynErr
  | [] => (s, none)
  | .overflow :: _ => (s, some .number)
  | .call c :: cs =>
    match s.internalCall c with
    | (s, none) => s.steps cs
    | (s, some e) => (s, some e)

/-- The numbers are below 2^63. -/
def Quantifier.fits : Quantifier → Bool
  | .exactly n => n < 2 ^ 63
  | .between n m => n < 2 ^ 63 && m < 2 ^ 63
  | .atLeast n => n < 2 ^ 63
  | .atMost m => m < 2 ^ 63
  | _ => true

def quantifierSteps : Option Quantifier → List Step
  | none => []
  | some q => if q.fits then [] else [.overflow]

mutual
def DExpr.steps (n : Name) (ct : Commit) : DExpr → List Step
  | .any => [.call (.anyChar n ct)]
  | .class_ neg cs rs => [.call (.class_ n ct neg cs rs)]
  | .chars cs => [.call (.charSequence n ct cs)]
  | .symbol m => [.call (.sequence n ct [{ name := m }])]
  | .seq items => items.steps n ct 0 ++ [.call (.sequence n ct (items.refs n 0))]
  | .choice os => os.steps n ct 0 ++ [.call (.choice n ct (os.refs n 0))]
def DItems.steps (n : Name) (ct : Commit) (i : Nat) : DItems → List Step
  | .nil => []
  | .cons (.symbol _) q rest => quantifierSteps q ++ rest.steps n ct (i + 1)
  | .cons e q rest => e.steps (charName n i) (memberFlags ct) ++ (quantifierSteps q ++ rest.steps n ct (i + 1))
def DOptions.steps (n : Name) (ct : Commit) (i : Nat) : DOptions → List Step
  | .nil => []
  | .cons (.symbol _) rest => rest.steps n ct (i + 1)
  | .cons e rest => e.steps (charName n i) (memberFlags ct) ++ rest.steps n ct (i + 1)
end

/-- The steps of the definitions of a document, in order. -/
def documentSteps (doc : Document) : List Step := doc.flatMap fun d => d.expr.steps d.name { d.flags with userDefined := true }

mutual
/-- All numbers are below 2^63. -/
def DExpr.fits : DExpr → Bool
  | .seq items => items.fits
  | .choice os => os.fits
  | _ => true
def DItems.fits : DItems → Bool
  | .nil => true
  | .cons e q rest => e.fits && q.all Quantifier.fits && rest.fits
def DOptions.fits : DOptions → Bool
  | .nil => true
  | .cons e rest => e.fits && rest.fits
end

def Document.fits (doc : Document) : Bool := doc.all fun d => d.expr.fits

/-- The root of a document: the definition with the root flag, or else the last one. -/
def docRoot (doc : Document) : Option DDef :=
  match (doc.filter fun d => d.flags.root).head? with
  | some d => some d
  | none => doc.getLast?

/-! ### Trees of documents -/

/-- The children of a node that are not comments. -/
def content (n : Node) : List Node := n.nodes.filter fun m => m.name != runes "comment"

/-- The node has no content but its text. -/
def Leaf (n : Node) (t : List Rune) : Prop := content n = [] ∧ n.text = .ok t

/-- A decimal number. -/
def decimal (t : List Rune) : Nat := t.foldl (fun v d => v * 10 + (d - 48)) 0

/-- The text of the node is a decimal number. -/
def NumberNode (n : Node) (v : Nat) : Prop := ∃ t, Leaf n t ∧ t ≠ [] ∧ (∀ d ∈ t, 48 ≤ d ∧ d ≤ 57) ∧ v = decimal t

/-- The text of the node is a character or, behind a backslash, an escaped character. -/
def CharNode (n : Node) (c : Rune) : Prop :=
  (Leaf n [c] ∧ c ≠ 92) ∨ ∃ x, Leaf n [92, x] ∧ Denotes x c

inductive CharNodes : List Node → List Rune → Prop
  | nil : CharNodes [] []
  | cons {n : Node} {c : Rune} {ns : List Node} {cs : List Rune} : CharNode n c → CharNodes ns cs →
      CharNodes (n :: ns) (c :: cs)

/-- The members of a character class: characters and ranges. -/
inductive ClassNodes : List Node → List Rune → List (Rune × Rune) → Prop
  | nil : ClassNodes [] [] []
  | char {n : Node} {c : Rune} {ns : List Node} {cs : List Rune} {rs : List (Rune × Rune)} :
      n.name = runes "class-char" → CharNode n c → ClassNodes ns cs rs → ClassNodes (n :: ns) (c :: cs) rs
  | range {n x y : Node} {a b : Rune} {ns : List Node} {cs : List Rune} {rs : List (Rune × Rune)} :
      n.name = runes "char-range" → content n = [x, y] → CharNode x a → CharNode y b → ClassNodes ns cs rs →
      ClassNodes (n :: ns) cs ((a, b) :: rs)

inductive QuantifierNode : Node → Quantifier → Prop
  | exactly {q c : Node} {n : Nat} : q.name = runes "count-quantifier" → content q = [c] → NumberNode c n →
      QuantifierNode q (.exactly n)
  | between {q a b : Node} {n m : Nat} : q.name = runes "range-quantifier" → content q = [a, b] →
      a.name = runes "range-from" → NumberNode a n → b.name = runes "range-to" → NumberNode b m →
      QuantifierNode q (.between n m)
  | atLeast {q a : Node} {n : Nat} : q.name = runes "range-quantifier" → content q = [a] →
      a.name = runes "range-from" → NumberNode a n → QuantifierNode q (.atLeast n)
  | atMost {q b : Node} {m : Nat} : q.name = runes "range-quantifier" → content q = [b] →
      b.name = runes "range-to" → NumberNode b m → QuantifierNode q (.atMost m)
  | unbounded {q : Node} : q.name = runes "range-quantifier" → content q = [] → QuantifierNode q .unbounded
  | oneOrMore {q : Node} : q.name = runes "one-or-more" → QuantifierNode q .oneOrMore
  | zeroOrMore {q : Node} : q.name = runes "zero-or-more" → QuantifierNode q .zeroOrMore
  | zeroOrOne {q : Node} : q.name = runes "zero-or-one" → QuantifierNode q .zeroOrOne

mutual
/-- The node stands for the expression. -/
inductive ExprNode : Node → DExpr → Prop
  | any {n : Node} : n.name = runes "any-char" → ExprNode n .any
  | class_ {n : Node} {cs : List Rune} {rs : List (Rune × Rune)} : n.name = runes "char-class" →
      ClassNodes (content n) cs rs → ExprNode n (.class_ false cs rs)
  | classNot {n x : Node} {ms : List Node} {cs : List Rune} {rs : List (Rune × Rune)} : n.name = runes "char-class" →
      content n = x :: ms → x.name = runes "class-not" → ClassNodes ms cs rs → ExprNode n (.class_ true cs rs)
  | chars {n : Node} {cs : List Rune} : n.name = runes "char-sequence" → CharNodes (content n) cs → ExprNode n (.chars cs)
  | symbol {n : Node} {m : Name} : n.name = runes "symbol" → Leaf n m → ExprNode n (.symbol m)
  | seq {n : Node} {items : DItems} : n.name = runes "sequence" → ItemNodes (content n) items → ExprNode n (.seq items)
  | choice {n : Node} {os : DOptions} : n.name = runes "choice" → OptionNodes (content n) os → ExprNode n (.choice os)

inductive ItemNodes : List Node → DItems → Prop
  | nil : ItemNodes [] .nil
  | once {n m : Node} {ns : List Node} {e : DExpr} {rest : DItems} : content n = [m] → ExprNode m e →
      ItemNodes ns rest → ItemNodes (n :: ns) (.cons e none rest)
  | many {n m q : Node} {ns : List Node} {e : DExpr} {x : Quantifier} {rest : DItems} : content n = [m, q] →
      ExprNode m e → QuantifierNode q x → ItemNodes ns rest → ItemNodes (n :: ns) (.cons e (some x) rest)

inductive OptionNodes : List Node → DOptions → Prop
  | nil : OptionNodes [] .nil
  | cons {n : Node} {ns : List Node} {e : DExpr} {rest : DOptions} : ExprNode n e → OptionNodes ns rest →
      OptionNodes (n :: ns) (.cons e rest)
end

/-- The flags of a definition: the names of its flag nodes. -/
def flagsOf (names : List Name) : Commit where
  alias := names.contains (runes "alias")
  whitespace := names.contains (runes "ws")
  noWhitespace := names.contains (runes "nows")
  keyword := names.contains (runes "kw")
  noKeyword := names.contains (runes "nokw")
  failPass := names.contains (runes "failpass")
  root := names.contains (runes "root")

/-- The node stands for the definition: a symbol, flags, and an expression. -/
structure DefinitionNode (n : Node) (d : DDef) : Prop where
  parts : ∃ x fs e, content n = x :: fs ++ [e] ∧ Leaf x d.name ∧ d.flags = flagsOf (fs.map Node.name) ∧ ExprNode e d.expr

inductive DefinitionNodes : List Node → Document → Prop
  | nil : DefinitionNodes [] []
  | cons {n : Node} {ns : List Node} {d : DDef} {ds : Document} : DefinitionNode n d → DefinitionNodes ns ds →
      DefinitionNodes (n :: ns) (d :: ds)

/-- The tree stands for the document. -/
def DocumentNode (t : Node) (doc : Document) : Prop := DefinitionNodes (content t) doc

mutual
/-- The trees are the same, except for comments: these can be different in number and in place, and also the
positions of the nodes and the text around the comments can be different. -/
inductive Alike : Node → Node → Prop
  | mk {n n' : Node} : n.name = n'.name → (content n = [] → n.text = n'.text) → AlikeAll (content n) (content n') → Alike n n'

inductive AlikeAll : List Node → List Node → Prop
  | nil : AlikeAll [] []
  | cons {n n' : Node} {ns ns' : List Node} : Alike n n' → AlikeAll ns ns' → AlikeAll (n :: ns) (n' :: ns')
end

end Treerack.Spec
