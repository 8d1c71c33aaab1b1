import Verif.Proofs.JsonDoc

/-
The documents in examples/sexpr.treerack, examples/scheme.treerack, examples/keyval.treerack and examples/eskip.treerack.
-/

namespace Treerack
open Spec

/-- The document in examples/sexpr.treerack. -/
def sexprDoc : Document := [
  ⟨runes "whitespace", { whitespace := true }, .class_ false [32, 8, 12, 10, 13, 9, 11] []⟩,
  ⟨runes "comment", { whitespace := true }, seqOf [(charsOf ";", none), (.class_ true [10] [], some .zeroOrMore)]⟩,
  ⟨runes "number", { noWhitespace := true }, seqOf [(charsOf "-", some .zeroOrOne), (choiceOf [charsOf "0",
    seqOf [(.class_ false [] [(49, 57)], none), (.class_ false [] [(48, 57)], some .zeroOrMore)]], none), (seqOf [(charsOf ".",
    none), (.class_ false [] [(48, 57)], some .oneOrMore)], some .zeroOrOne), (seqOf [(.class_ false [101, 69] [], none),
    (.class_ false [43, 45] [], some .zeroOrOne), (.class_ false [] [(48, 57)], some .oneOrMore)], some .zeroOrOne)]⟩,
  ⟨runes "string", { noWhitespace := true }, seqOf [(charsOf "\"", none), (choiceOf [.class_ true [92, 34] [],
    seqOf [(charsOf "\\", none), (.any, none)]], some .zeroOrMore), (charsOf "\"", none)]⟩,
  ⟨runes "symbol", { noWhitespace := true }, seqOf [(choiceOf [.class_ true [92, 32, 10, 9, 8, 12, 13, 11, 34, 40, 41] [],
    seqOf [(charsOf "\\", none), (.any, none)]], some .oneOrMore)]⟩,
  ⟨runes "list", {}, seqOf [(charsOf "(", none), (symbolOf "expression", some .zeroOrMore), (charsOf ")", none)]⟩,
  ⟨runes "expression", { alias := true }, choiceOf [symbolOf "number", symbolOf "string", symbolOf "symbol", symbolOf "list"]⟩,
  ⟨runes "s-expression", {}, symbolOf "expression"⟩]

/-- The document in examples/scheme.treerack. -/
def schemeDoc : Document := [
  ⟨runes "whitespace", { whitespace := true }, .class_ false [32, 8, 12, 10, 13, 9, 11] []⟩,
  ⟨runes "comment", { whitespace := true }, seqOf [(charsOf ";", none), (.class_ true [10] [], some .zeroOrMore)]⟩,
  ⟨runes "number", { noWhitespace := true }, seqOf [(charsOf "-", some .zeroOrOne), (choiceOf [charsOf "0",
    seqOf [(.class_ false [] [(49, 57)], none), (.class_ false [] [(48, 57)], some .zeroOrMore)]], none), (seqOf [(charsOf ".",
    none), (.class_ false [] [(48, 57)], some .oneOrMore)], some .zeroOrOne), (seqOf [(.class_ false [101, 69] [], none),
    (.class_ false [43, 45] [], some .zeroOrOne), (.class_ false [] [(48, 57)], some .oneOrMore)], some .zeroOrOne)]⟩,
  ⟨runes "string", { noWhitespace := true }, seqOf [(charsOf "\"", none), (choiceOf [.class_ true [92, 34] [],
    seqOf [(charsOf "\\", none), (.any, none)]], some .zeroOrMore), (charsOf "\"", none)]⟩,
  ⟨runes "symbol", { noWhitespace := true }, seqOf [(choiceOf [.class_ true [92, 32, 10, 9, 8, 12, 13, 11, 34, 40, 41, 91, 93,
    35] [], seqOf [(charsOf "\\", none), (.any, none)]], some .oneOrMore)]⟩,
  ⟨runes "list-form", { alias := true }, choiceOf [seqOf [(charsOf "(", none), (symbolOf "expression", some .zeroOrMore),
    (charsOf ")", none)], seqOf [(charsOf "[", none), (symbolOf "expression", some .zeroOrMore), (charsOf "]", none)]]⟩,
  ⟨runes "list", {}, symbolOf "list-form"⟩,
  ⟨runes "vector", {}, seqOf [(charsOf "#", none), (symbolOf "list-form", none)]⟩,
  ⟨runes "expression", { alias := true }, choiceOf [symbolOf "number", symbolOf "string", symbolOf "symbol", symbolOf "list"]⟩,
  ⟨runes "scheme", {}, seqOf [(symbolOf "expression", some .zeroOrMore)]⟩]

/-- The document in examples/keyval.treerack. -/
def keyvalDoc : Document := [
  ⟨runes "whitespace", { whitespace := true }, .class_ false [32, 8, 12, 13, 9, 11] []⟩,
  ⟨runes "comment-line", { alias := true }, seqOf [(charsOf "#", none), (.class_ true [10] [], some .zeroOrMore)]⟩,
  ⟨runes "comment", {}, seqOf [(symbolOf "comment-line", none), (seqOf [(charsOf "\n", none), (symbolOf "comment-line", none)],
    some .zeroOrMore)]⟩,
  ⟨runes "quoted", { alias := true, noWhitespace := true }, seqOf [(charsOf "\"", none), (choiceOf [.class_ true [92, 34] [],
    seqOf [(charsOf "\\", none), (.any, none)]], some .zeroOrMore), (charsOf "\"", none)]⟩,
  ⟨runes "word", { alias := true, noWhitespace := true }, seqOf [(choiceOf [.class_ true [92, 34, 10, 61, 35, 46, 91, 93, 32, 8,
    12, 13, 9, 11] [], seqOf [(charsOf "\\", none), (.any, none)]], some .oneOrMore)]⟩,
  ⟨runes "symbol", {}, choiceOf [seqOf [(symbolOf "word", some .oneOrMore)], symbolOf "quoted"]⟩,
  ⟨runes "key-form", { alias := true }, seqOf [(symbolOf "symbol", none), (seqOf [(charsOf ".", none), (symbolOf "symbol", none)],
    some .zeroOrMore)]⟩,
  ⟨runes "key", {}, symbolOf "key-form"⟩,
  ⟨runes "group-key", {}, seqOf [(seqOf [(symbolOf "comment", none), (charsOf "\n", none)], some .zeroOrOne), (charsOf "[", none),
    (symbolOf "key-form", none), (charsOf "]", none)]⟩,
  ⟨runes "value-chars", { alias := true, noWhitespace := true }, seqOf [(choiceOf [.class_ true [92, 34, 10, 61, 35, 32, 8, 12, 13,
    9, 11] [], seqOf [(charsOf "\\", none), (.any, none)]], some .oneOrMore)]⟩,
  ⟨runes "value", {}, choiceOf [seqOf [(symbolOf "value-chars", some .oneOrMore)], symbolOf "quoted"]⟩,
  ⟨runes "key-val", {}, seqOf [(seqOf [(symbolOf "comment", none), (charsOf "\n", none)], some .zeroOrOne),
    (choiceOf [symbolOf "key", seqOf [(symbolOf "key", some .zeroOrOne), (charsOf "=", none), (symbolOf "value",
    some .zeroOrOne)]], none), (symbolOf "comment-line", some .zeroOrOne)]⟩,
  ⟨runes "entry", { alias := true }, choiceOf [symbolOf "group-key", symbolOf "key-val"]⟩,
  ⟨runes "doc", { root := true }, seqOf [(choiceOf [symbolOf "entry", symbolOf "comment-line", charsOf "\n"], some .zeroOrMore)]⟩]

/-- The document in examples/eskip.treerack. -/
def eskipDoc : Document := [
  ⟨runes "eskip", { root := true }, seqOf [(choiceOf [symbolOf "expression", symbolOf "definitions"], some .zeroOrOne)]⟩,
  ⟨runes "space", { whitespace := true }, .class_ false [32, 10, 8, 12, 13, 9, 11] []⟩,
  ⟨runes "comment", { whitespace := true }, seqOf [(charsOf "//", none), (.class_ true [10] [], some .zeroOrMore)]⟩,
  ⟨runes "decimal-digit", { alias := true }, .class_ false [] [(48, 57)]⟩,
  ⟨runes "octal-digit", { alias := true }, .class_ false [] [(48, 55)]⟩,
  ⟨runes "hexa-digit", { alias := true }, .class_ false [] [(48, 57), (97, 102), (65, 70)]⟩,
  ⟨runes "decimal", { alias := true, noWhitespace := true }, seqOf [(.class_ false [] [(49, 57)], none), (symbolOf "decimal-digit",
    some .zeroOrMore)]⟩,
  ⟨runes "octal", { alias := true, noWhitespace := true }, seqOf [(charsOf "0", none), (symbolOf "octal-digit", some .zeroOrMore)]⟩,
  ⟨runes "hexa", { alias := true, noWhitespace := true }, seqOf [(charsOf "0", none), (.class_ false [120, 88] [], none),
    (symbolOf "hexa-digit", some .oneOrMore)]⟩,
  ⟨runes "int", {}, choiceOf [symbolOf "decimal", symbolOf "octal", symbolOf "hexa"]⟩,
  ⟨runes "exponent", { alias := true, noWhitespace := true }, seqOf [(.class_ false [101, 69] [], none), (.class_ false [43,
    45] [], some .zeroOrOne), (symbolOf "decimal-digit", some .oneOrMore)]⟩,
  ⟨runes "float", { noWhitespace := true }, choiceOf [seqOf [(symbolOf "decimal-digit", some .oneOrMore), (charsOf ".", none),
    (symbolOf "decimal-digit", some .zeroOrMore), (symbolOf "exponent", some .zeroOrOne)], seqOf [(charsOf ".", none),
    (symbolOf "decimal-digit", some .oneOrMore), (symbolOf "exponent", some .zeroOrOne)], seqOf [(symbolOf "decimal-digit",
    some .oneOrMore), (symbolOf "exponent", none)]]⟩,
  ⟨runes "number", { alias := true, noWhitespace := true }, seqOf [(charsOf "-", some .zeroOrOne), (choiceOf [symbolOf "int",
    symbolOf "float"], none)]⟩,
  ⟨runes "string", { noWhitespace := true }, seqOf [(charsOf "\"", none), (choiceOf [.class_ true [92, 34] [],
    seqOf [(charsOf "\\", none), (.any, none)]], some .zeroOrMore), (charsOf "\"", none)]⟩,
  ⟨runes "regexp", { noWhitespace := true }, seqOf [(charsOf "/", none), (choiceOf [.class_ true [92, 47] [], seqOf [(charsOf "\\",
    none), (.any, none)]], some .zeroOrMore), (charsOf "/", none)]⟩,
  ⟨runes "symbol", { noWhitespace := true }, seqOf [(.class_ false [95] [(97, 122), (65, 90)], none), (.class_ false [95] [(97,
    122), (65, 122), (48, 57)], some .zeroOrMore)]⟩,
  ⟨runes "arg", { alias := true }, choiceOf [symbolOf "number", symbolOf "string", symbolOf "regexp"]⟩,
  ⟨runes "args", { alias := true }, seqOf [(symbolOf "arg", none), (seqOf [(charsOf ",", none), (symbolOf "arg", none)],
    some .zeroOrMore)]⟩,
  ⟨runes "term", { alias := true }, seqOf [(symbolOf "symbol", none), (charsOf "(", none), (symbolOf "args", some .zeroOrOne),
    (charsOf ")", none)]⟩,
  ⟨runes "predicate", {}, symbolOf "term"⟩,
  ⟨runes "predicates", { alias := true }, choiceOf [charsOf "*", seqOf [(symbolOf "predicate", none), (seqOf [(charsOf "&&", none),
    (symbolOf "predicate", none)], some .zeroOrMore)]]⟩,
  ⟨runes "filter", {}, symbolOf "term"⟩,
  ⟨runes "filters", { alias := true }, seqOf [(symbolOf "filter", none), (seqOf [(charsOf "->", none), (symbolOf "filter", none)],
    some .zeroOrMore)]⟩,
  ⟨runes "address", { alias := true }, symbolOf "string"⟩,
  ⟨runes "shunt", {}, charsOf "<shunt>"⟩,
  ⟨runes "loopback", {}, charsOf "<loopback>"⟩,
  ⟨runes "backend", { alias := true }, choiceOf [symbolOf "address", symbolOf "shunt", symbolOf "loopback"]⟩,
  ⟨runes "expression", {}, seqOf [(symbolOf "predicates", none), (seqOf [(charsOf "->", none), (symbolOf "filters", none)],
    some .zeroOrOne), (charsOf "->", none), (symbolOf "backend", none)]⟩,
  ⟨runes "id", { alias := true }, symbolOf "symbol"⟩,
  ⟨runes "definition", {}, seqOf [(symbolOf "id", none), (charsOf ":", none), (symbolOf "expression", none)]⟩,
  ⟨runes "definitions", { alias := true }, seqOf [(charsOf ";", some .zeroOrMore), (symbolOf "definition", none),
    (seqOf [(charsOf ";", some .oneOrMore), (symbolOf "definition", none)], some .zeroOrMore), (charsOf ";", some .zeroOrMore)]⟩]

end Treerack
