import Verif.Model.Basic

/-
The other example documents: examples/sexpr.treerack, examples/scheme.treerack, examples/keyval.treerack and examples/eskip.treerack,
line by line.  (examples/json.treerack is in Model/JsonText.lean.)
-/

namespace Treerack

/-- The lines of examples/sexpr.treerack, 1-8. -/
def sexprLines : List String := [
  "whitespace:ws    = [ \\b\\f\\n\\r\\t\\v];",
  "comment:ws       = \";\" [^\\n]*;",
  "number:nows      = \"-\"? (\"0\" | [1-9][0-9]*) (\".\" [0-9]+)? ([eE] [+\\-]? [0-9]+)?;",
  "string:nows      = \"\\\"\" ([^\\\\\"] | \"\\\\\" .)* \"\\\"\";",
  "symbol:nows      = ([^\\\\ \\n\\t\\b\\f\\r\\v\\\"()] | \"\\\\\" .)+;",
  "list             = \"(\" expression* \")\";",
  "expression:alias = number | string | symbol | list;",
  "s-expression     = expression;"]

/-- The text of examples/sexpr.treerack. -/
def sexprText : List Rune := sexprLines.flatMap fun l => runes l ++ [10]

/-- The lines of examples/scheme.treerack, 1-11. -/
def schemeLines : List String := [
  "whitespace:ws    = [ \\b\\f\\n\\r\\t\\v];",
  "comment:ws       = \";\" [^\\n]*;",
  "number:nows      = \"-\"? (\"0\" | [1-9][0-9]*) (\".\" [0-9]+)? ([eE] [+\\-]? [0-9]+)?;",
  "string:nows      = \"\\\"\" ([^\\\\\"] | \"\\\\\" .)* \"\\\"\";",
  "symbol:nows      = ([^\\\\ \\n\\t\\b\\f\\r\\v\\\"()\\[\\]#] | \"\\\\\" .)+;",
  "list-form:alias  = \"(\" expression* \")\"",
  "                 | \"[\" expression* \"]\";",
  "list             = list-form;",
  "vector           = \"#\" list-form;",
  "expression:alias = number | string | symbol | list;",
  "scheme           = expression*;"]

/-- The text of examples/scheme.treerack. -/
def schemeText : List Rune := schemeLines.flatMap fun l => runes l ++ [10]

/-- The lines of examples/keyval.treerack, 1-20. -/
def keyvalLines : List String := [
  "whitespace:ws = [ \\b\\f\\r\\t\\v];",
  "",
  "comment-line:alias = \"#\" [^\\n]*;",
  "comment            = comment-line (\"\\n\" comment-line)*;",
  "",
  "quoted:alias:nows   = \"\\\"\" ([^\\\\\"] | \"\\\\\" .)* \"\\\"\";",
  "word:alias:nows     = ([^\\\\\"\\n=#.\\[\\] \\b\\f\\r\\t\\v] | \"\\\\\" .)+;",
  "symbol              = word+ | quoted;",
  "",
  "key-form:alias = symbol (\".\" symbol)*;",
  "key            = key-form;",
  "",
  "group-key = (comment \"\\n\")? \"[\" key-form \"]\";",
  "",
  "value-chars:alias:nows = ([^\\\\\"\\n=# \\b\\f\\r\\t\\v] | \"\\\\\" .)+;",
  "value                  = value-chars+ | quoted;",
  "",
  "key-val     = (comment \"\\n\")? (key | key? \"=\" value?) comment-line?;",
  "entry:alias = group-key | key-val;",
  "doc:root    = (entry | comment-line | \"\\n\")*;"]

/-- The text of examples/keyval.treerack. -/
def keyvalText : List Rune := keyvalLines.flatMap fun l => runes l ++ [10]

/-- The lines of examples/eskip.treerack, 1-50. -/
def eskipLines : List String := [
  "/*",
  "Eskip routing configuration format for Skipper: https://github.com/zalando/skipper",
  "*/",
  "",
  "eskip:root = (expression | definitions)?;",
  "",
  "space:ws   = [ \\n\\b\\f\\r\\t\\v];",
  "comment:ws = \"//\" [^\\n]*;",
  "",
  "decimal-digit:alias = [0-9];",
  "octal-digit:alias   = [0-7];",
  "hexa-digit:alias    = [0-9a-fA-F];",
  "",
  "decimal:alias:nows = [1-9] decimal-digit*;",
  "octal:alias:nows   = \"0\" octal-digit*;",
  "hexa:alias:nows    = \"0\" [xX] hexa-digit+;",
  "int                = decimal | octal | hexa;",
  "",
  "exponent:alias:nows = [eE] [+\\-]? decimal-digit+;",
  "float:nows          = decimal-digit+ \".\" decimal-digit* exponent?",
  "                    | \".\" decimal-digit+ exponent?",
  "                    | decimal-digit+ exponent;",
  "",
  "number:alias:nows = \"-\"? (int | float);",
  "",
  "string:nows = \"\\\"\" ([^\\\\\"] | \"\\\\\" .)* \"\\\"\";",
  "regexp:nows = \"/\" ([^\\\\/] | \"\\\\\" .)* \"/\";",
  "symbol:nows = [a-zA-Z_] [a-zA-z0-9_]*;",
  "",
  "arg:alias  = number | string | regexp;",
  "args:alias = arg (\",\" arg)*;",
  "term:alias = symbol \"(\" args? \")\";",
  "",
  "predicate        = term;",
  "predicates:alias = \"*\" | predicate (\"&&\" predicate)*;",
  "",
  "filter        = term;",
  "filters:alias = filter (\"->\" filter)*;",
  "",
  "address:alias = string;",
  "shunt         = \"<shunt>\";",
  "loopback      = \"<loopback>\";",
  "backend:alias = address | shunt | loopback;",
  "",
  "expression = predicates (\"->\" filters)? \"->\" backend;",
  "",
  "id:alias   = symbol;",
  "definition = id \":\" expression;",
  "",
  "definitions:alias = \";\"* definition (\";\"+ definition)* \";\"*;"]

/-- The text of examples/eskip.treerack. -/
def eskipText : List Rune := eskipLines.flatMap fun l => runes l ++ [10]

end Treerack
