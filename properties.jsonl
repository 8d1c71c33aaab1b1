{"id": "C01", "title": "Parse always returns", "statement": "For every syntax that was initialized successfully and every finite input, Parse returns (with a tree or an error): it never recurses or loops forever, also not for left recursive, mutually recursive, cyclic or empty-matching definitions, and also not while it checks keywords or builds the tree.", "quantifier": "all grammars accepted by Init, all finite inputs, all ways the reader can end", "why_tests_cant": "Non-termination only shows for particular combinations of cyclic definitions and input; tests can only sample grammars and cannot tell a slow parse from an endless one.", "anchors": ["choice.go: choiceParser.parse, choiceBuilder.build", "sequence.go: sequenceParser.parse, sequenceBuilder.build", "context.go: isKeyword", "results.go: pending, markPending, unmarkPending"]}
{"id": "C02", "title": "Soundness of acceptance", "statement": "When Parse returns a tree without error, the complete input text can be derived from the root definition, when the definitions are read as a context free grammar (a choice derives what one of its options derives, a sequence derives the concatenation of its items repeated as often as their quantifiers allow, a class derives one matching character).", "quantifier": "all grammars (including recursive ones, with keywords and no-keyword definitions), all inputs", "why_tests_cant": "The parser records matches out of order, in the name of other definitions (generalizations) and reads them back later; a single wrongly recorded match makes it accept a text outside of the language for some grammar and input that no test contains.", "anchors": ["choice.go: choiceParser.parse", "sequence.go: sequenceParser.parse", "results.go: setMatch", "context.go: finalizeParse", "syntaxhead.go: parseInput"]}
{"id": "C03", "title": "Only complete inputs are accepted", "statement": "When Parse returns a tree without error then the reader has been read until io.EOF, every character delivered by it is part of the parsed text, and the root node spans it exactly: From is 0 and To is the number of characters. A proper prefix that matches is never reported as success.", "quantifier": "all grammars, all inputs, all reader outcomes", "why_tests_cant": "Whether unread characters are left depends on how far the parser looked ahead for the particular grammar and input.", "anchors": ["context.go: read, finalizeParse", "syntaxhead.go: parseInput"]}
{"id": "C04", "title": "Every node is a match of the definition it names", "statement": "For every node of the returned tree there is a definition with the name of the node such that the text of the node is derivable from that definition.", "quantifier": "all grammars, all inputs, all nodes at any depth", "why_tests_cant": "The builder reconstructs the tree from recorded matches by dropping and re-reading entries; a wrong pick shows only for specific overlaps of matches.", "anchors": ["choice.go: choiceBuilder.build", "sequence.go: sequenceBuilder.build", "results.go: longestMatch, dropMatchTo, hasMatchTo"]}
{"id": "C05", "title": "Nodes are nested and ordered", "statement": "In the returned tree the range of every node is inside of the range of its parent, and siblings follow each other in input order without overlap.", "quantifier": "all grammars without left recursion, all inputs", "why_tests_cant": "Needs to hold for all trees the builder can produce.", "anchors": ["choice.go: choiceBuilder.build", "sequence.go: sequenceBuilder.build"]}
{"id": "C06", "title": "Exactness of recognition", "statement": "For every grammar without left recursion (and without no-keyword definitions) Parse accepts an input exactly when the reference semantics accepts all of it: a choice takes its longest matching option, a sequence takes its items greedily without giving back, a quantified item repeats until its maximum, until it does not match or until it consumes nothing, and fails below its minimum.", "quantifier": "all left-recursion-free grammars, all inputs", "why_tests_cant": "The parser reaches its result through memoized positive and negative results, pending marks and repeated passes over options; equality with the plain semantics is a statement about all interleavings of these.", "anchors": ["choice.go: choiceParser.parse", "sequence.go: sequenceParser.parse", "context.go: fromResults", "results.go: longestResult, setMatch, setNoMatch"]}
{"id": "C07", "title": "A choice takes the longest option and the first of equals", "statement": "When a choice matches, the matched text is the longest among what its options match at that position, and the subtree is the one of the first option in definition order that matches that text.", "quantifier": "all left-recursion-free grammars, all positions of all inputs", "why_tests_cant": "Depends on the order of options and on all the lengths they can match at a position.", "anchors": ["choice.go: choiceParser.parse, choiceBuilder.build"]}
{"id": "C08", "title": "Memoization does not change results", "statement": "What a definition matches at a position of the input does not depend on which definitions were tried before, there or anywhere else in the input, successfully or not.", "quantifier": "all left-recursion-free grammars without no-keyword definitions, all inputs, all histories of previous parse attempts", "why_tests_cant": "It is a statement about all reachable states of the result store.", "anchors": ["results.go: setMatch, setNoMatch, longestResult", "context.go: fromResults", "choice.go: choiceParser.parse", "sequence.go: sequenceParser.parse"]}
{"id": "C09", "title": "The tree is the reference tree", "statement": "For every left-recursion-free grammar the returned tree is exactly the tree of the reference semantics: one node for each match of a non-alias definition with the exact range, the children of alias definitions lifted into their parent, no children for definitions consisting of plain characters.", "quantifier": "all left-recursion-free grammars without no-keyword definitions, all accepted inputs", "why_tests_cant": "The builder is a second, independent interpretation of the grammar over mutable leftovers of the parse; its agreement with the parse is a relation over all runs.", "anchors": ["choice.go: choiceBuilder.build", "sequence.go: sequenceBuilder.build", "syntaxhead.go: parseInput"]}
{"id": "C10", "title": "Alias definitions are never visible", "statement": "No node of a returned tree carries the name of an alias definition, unless a non-alias definition has the same name; whitespace definitions never appear either.", "quantifier": "all grammars, all inputs, all nodes", "why_tests_cant": "The absence of a node has to hold in every tree.", "anchors": ["choice.go: choiceBuilder.build", "sequence.go: sequenceBuilder.build", "whitespace.go: splitWhitespaceDefs, applyWhitespace"]}
{"id": "C11", "title": "Reader errors are returned", "statement": "When the reader fails with an error other than io.EOF and the parser got to the position of the failure, Parse returns exactly that error and no tree; an input whose reader ends with an error is never accepted.", "quantifier": "all grammars, all inputs, all positions of a read failure", "why_tests_cant": "The failure can happen at any read, in the middle of any speculative alternative.", "anchors": ["context.go: read, token, finalizeParse", "syntaxhead.go: parseInput"]}
{"id": "C12", "title": "Invalid unicode is rejected", "statement": "An input containing an invalid character (U+FFFD after decoding) is never accepted: Parse returns ErrInvalidUnicodeCharacter or a parse error in front of it, and it does not panic.", "quantifier": "all grammars, all inputs with an invalid character at any position", "why_tests_cant": "The invalid character can be hit first in any speculative alternative and is then hit again by the following alternatives.", "anchors": ["context.go: read, token"]}
{"id": "C13", "title": "Parse never panics", "statement": "For every syntax that was initialized successfully and every input, Parse returns without a run time panic.", "quantifier": "all grammars accepted by Init, all inputs", "why_tests_cant": "Index expressions into tokens, the result store and pending lists depend on all previous steps.", "anchors": ["context.go: token, findLine, parseError", "results.go: dropMatchTo, unmarkPending", "choice.go: choiceBuilder.build", "syntaxhead.go: parseInput"]}
{"id": "C14", "title": "Parse error positions are inside of the input", "statement": "The offset of a returned ParseError is between 0 and the number of characters read, and Line and Column are the number of newline characters in front of the offset and the number of characters since the last of them.", "quantifier": "all grammars, all rejected inputs", "why_tests_cant": "The offset is the result of a heuristic over all failed alternatives.", "anchors": ["context.go: findLine, parseError, finalizeParse", "char.go: charParser.parse", "choice.go: choiceParser.parse", "sequence.go: sequenceParser.parse"]}
{"id": "C15", "title": "Character classes", "statement": "A character class matches exactly one character of the input, when it is listed or is in one of the ranges, inclusive (or neither, when negated); it never matches at the end of the input, and an any-char matches every valid character.", "quantifier": "all classes, all characters, all positions", "why_tests_cant": "Ranges over all of unicode and all class definitions.", "anchors": ["char.go: matchChar, charParser.parse", "syntax.go: Class, AnyChar"]}
{"id": "C16", "title": "Quantifiers", "statement": "A sequence item with the quantifier {min,max} matches at least min and at most max consecutive occurrences, greedily; a missing or zero maximum means unbounded, and {0,0} or no quantifier means exactly one.", "quantifier": "all minimum and maximum values, all item definitions, all inputs", "why_tests_cant": "Ranges over all pairs of integers and all repetition counts.", "anchors": ["sequencedefine.go: normalizeItemRange", "sequence.go: sequenceParser.parse"]}
{"id": "C17", "title": "No-keyword definitions do not match keywords", "statement": "A definition with the NoKeyword flag never matches a text that one of the keyword definitions matches.", "quantifier": "all grammars with keywords, all inputs, all positions", "why_tests_cant": "Must hold for every way the match can be obtained, including memoized ones.", "anchors": ["context.go: isKeyword", "choice.go: choiceParser.parse", "sequence.go: sequenceParser.parse"]}
{"id": "C18", "title": "Checking keywords has no side effects on matching", "statement": "Whether a definition matches at a position is not influenced by keyword checks that were made before for other definitions.", "quantifier": "all grammars with keywords, all inputs", "why_tests_cant": "A statement about all the states left behind by the checks, which run with an artificial end of the input.", "anchors": ["context.go: isKeyword, token"]}
{"id": "C19", "title": "Whitespace is allowed exactly between items", "statement": "With whitespace definitions, the language of a syntax is that of the same grammar where any number of whitespace matches is allowed between the items and repetitions of every sequence that is not marked NoWhitespace, and at the beginning and at the end of the input.", "quantifier": "all grammars with whitespace definitions, all quantifiers", "why_tests_cant": "The rewriting of sequences has several cases depending on position and quantifier; the equality of the languages is infinite in both directions.", "anchors": ["whitespace.go: applyWhitespace, applyWhitespaceToSeq, applyWhitespaceToRoot"]}
{"id": "C20", "title": "No whitespace inside of NoWhitespace definitions and character sequences", "statement": "Definitions marked NoWhitespace, and character sequences, keep the language they have without whitespace definitions at their own level: no whitespace is accepted between their characters or items.", "quantifier": "all grammars with whitespace definitions", "why_tests_cant": "Applies to all definitions of all grammars.", "anchors": ["whitespace.go: applyWhitespaceToDefs", "syntax.go: charSequence"]}
{"id": "C21", "title": "Invalid definitions are rejected", "statement": "A definition is rejected with an error when its name contains a reserved character, when the name is already defined, when its flags are incompatible, when it is a second explicit root, or when the syntax is already initialized; otherwise it is accepted.", "quantifier": "all histories of definition calls", "why_tests_cant": "Ranges over all histories.", "anchors": ["syntax.go: register, isValidSymbol, checkCommitType, applyRoot", "registry.go: setDefinition"]}
{"id": "C22", "title": "A rejected definition has no effect", "statement": "When a definition call returns an error, the syntax behaves as if the call had not been made.", "quantifier": "all histories of definition calls", "why_tests_cant": "Ranges over all histories and all subsequent uses of the syntax.", "anchors": ["syntax.go: register, applyRoot, class, charSequence"]}
{"id": "C23", "title": "Initialization life cycle", "statement": "After a successful Init (or Parse or Generate) no further definition is accepted, a repeated Init is a no-op that succeeds, after a failed validation every later Init, Parse and Generate fails, and without definitions Init fails.", "quantifier": "all histories of API calls", "why_tests_cant": "Ranges over all histories.", "anchors": ["syntax.go: Init, Parse, register, ReadSyntax"]}
{"id": "C24", "title": "Init accepts exactly the syntaxes with resolved references", "statement": "For a syntax with a root and compatible flags Init succeeds exactly when every name referenced by a definition that is reachable from the root or from a keyword is defined, and otherwise it names an undefined reference; it always returns, also for cyclic definitions.", "quantifier": "all finite sets of definitions, including cyclic ones", "why_tests_cant": "Reachability over all graphs.", "anchors": ["syntax.go: Init", "choicedefine.go: validate, init", "sequencedefine.go: validate, init"]}
{"id": "C25", "title": "Root selection", "statement": "The root of the syntax is the only definition marked as Root, if there is one, otherwise it is the last definition; it is never an alias in the output.", "quantifier": "all histories of definition calls", "why_tests_cant": "Ranges over all orders of definitions.", "anchors": ["syntax.go: applyRoot, register"]}
{"id": "C26", "title": "Init links every reference to the definition with that name", "statement": "After Init every option of a choice and every item of a sequence refers to the definition registered with the referenced name, the repetition ranges belong to the items, distinct definitions have distinct identities in the result store, and a sequence is treated as a plain character sequence exactly when all of its items are characters.", "quantifier": "all finite sets of definitions", "why_tests_cant": "Linking is done by a recursive mutation of a cyclic object graph.", "anchors": ["choicedefine.go: initOptions", "sequencedefine.go: initRanges, initItems", "registry.go: setDefinition"]}
{"id": "C27", "title": "Generalizations are sound", "statement": "When a match of a definition is recorded also in the name of another definition, that other definition derives the same text: it is a choice that has the definition as an option, directly or through nested choices.", "quantifier": "all finite sets of definitions, including cyclic choices", "why_tests_cant": "Generalizations are propagated through a cyclic graph while it is being initialized.", "anchors": ["choicedefine.go: addGeneralization, initOptions", "sequencedefine.go: addGeneralization", "sequence.go: sequenceParser.parse"]}
{"id": "C28", "title": "Escaping is reversible", "statement": "Unescaping an escaped character sequence returns the original one, for every set of escaped characters that contains the escape character and none of the letters used for control characters; unescape rejects exactly the texts with a banned character outside of an escape or with an unfinished escape.", "quantifier": "all character sequences, all escape configurations", "why_tests_cant": "Ranges over all texts.", "anchors": ["escape.go: escape, unescape, escapeChar, unescapeChar"]}
{"id": "C29", "title": "The result store behaves like a set of facts", "statement": "A recorded match or non-match can be read back, nothing else can; pending marks behave like a multiset of positions; for every sequence of operations, regardless of slice capacities, growth and the word size.", "quantifier": "all sequences of store operations, all slice growth policies, all word sizes", "why_tests_cant": "Depends on capacity effects that tests see only for the sizes they use.", "anchors": ["results.go: all functions", "idset.go: all functions"]}
{"id": "C30", "title": "Syntax documents define what they say", "statement": "Exactly the notations of syntax documents are accepted, each of them stands for one document, and reading it is equivalent to the corresponding definition calls: the language of a definition read from a document is that of its expression.", "quantifier": "all texts that are read as syntax documents, all syntaxes they are read into", "why_tests_cant": "Ranges over all nested expressions.", "anchors": ["define.go: define, defineExpression, defineSequence, defineChoice, defineMembers", "syntax.go: ReadSyntax"]}
{"id": "C31", "title": "Comments in syntax documents have no effect", "statement": "A syntax document with comments at any place defines the same syntax as without the comments.", "quantifier": "all syntax documents", "why_tests_cant": "Comments can be at any depth of the tree.", "anchors": ["define.go: dropComments", "node.go: filterNodes, mapNodes"]}
{"id": "C32", "title": "Flags of a definition are a set", "statement": "The order and the repetition of the flags in a definition do not matter, and each flag has the effect of its commit type and no other.", "quantifier": "all lists of flags", "why_tests_cant": "Ranges over all permutations.", "anchors": ["define.go: flagsToCommitType", "syntaxhead.go: CommitType"]}
{"id": "C33", "title": "Quantifier notation", "statement": "The notations {n}, {n,m}, {n,}, {,m}, +, * and ? mean the documented ranges: exactly n, between n and m, at least n, at most m, at least one, any number, at most one.", "quantifier": "all numbers", "why_tests_cant": "Ranges over all numbers, including the ones that overflow.", "anchors": ["define.go: getQuantity, defineSequence", "sequencedefine.go: normalizeItemRange"]}
{"id": "C34", "title": "The command line accepts exactly one source", "statement": "The commands accept exactly one of a positional file, a file option, an inline option and standard input, refuse more than one explicit source, and read what they were told to read.", "quantifier": "all combinations of options", "why_tests_cant": "Finite, but only as a table over all combinations.", "anchors": ["cmd/treerack/open.go: getSource, open"]}
{"id": "C35", "title": "Show prints the complete tree", "statement": "The tree printed by the show command has a node for each node of the parse tree, with the same name, range and order, and exactly the leaf nodes carry their text.", "quantifier": "all trees", "why_tests_cant": "Ranges over all trees.", "anchors": ["cmd/treerack/show.go: mapNode"]}
{"id": "C36", "title": "Generated code declares every parser once and before its use", "statement": "In the generated code every parser and builder variable is declared exactly once and before it is referenced.", "quantifier": "all syntaxes accepted by Generate", "why_tests_cant": "The declaration order follows a depth first walk over a cyclic graph.", "anchors": ["syntax.go: Generate", "choicedefine.go: generate", "sequencedefine.go: generate", "chardefine.go: generate"]}
{"id": "C37", "title": "Generated parsers behave like the syntax they were generated from", "statement": "For every input the generated parser returns the same tree or the same error as Syntax.Parse.", "quantifier": "all syntaxes accepted by Generate, all inputs", "why_tests_cant": "Ranges over all syntaxes and inputs.", "anchors": ["syntax.go: Generate", "choicedefine.go: generate", "sequencedefine.go: generate", "chardefine.go: generate"]}
{"id": "C38", "title": "Parse calls are independent", "statement": "The result of a Parse call depends only on the definitions and on the input: earlier Parse or Init calls on the same syntax do not influence it.", "quantifier": "all histories of Parse calls", "why_tests_cant": "Ranges over all histories.", "anchors": ["syntax.go: Parse, Init", "syntaxhead.go: parseInput", "context.go: newContext"]}
{"id": "C39", "title": "Direct left recursion is supported", "statement": "A definition of the form a = a tail | base accepts exactly a base followed by any number of tails and returns the left associative tree.", "quantifier": "all inputs, of any number of repetitions", "why_tests_cant": "Needs induction over the number of repetitions: every repetition is another pass of the choice over its options.", "anchors": ["choice.go: choiceParser.parse, choiceBuilder.build", "sequence.go: sequenceParser.parse, sequenceBuilder.build"]}
{"id": "C40", "title": "The text of a node", "statement": "Every node of a returned tree carries the complete input, and its text is the part of the input from From to To; taking it never panics.", "quantifier": "all grammars, all inputs, all nodes", "why_tests_cant": "Ranges over all trees.", "anchors": ["nodehead.go: Node.Text, Node.Tokens", "choice.go: choiceBuilder.build", "sequence.go: sequenceBuilder.build"]}
{"id": "C41", "title": "Pending marks are balanced", "statement": "When a definition has finished parsing at a position, successfully or not, it can be tried again: the set of the definitions that are in progress is the same as before the attempt.", "quantifier": "all grammars, all inputs, all states", "why_tests_cant": "Each of the many exits of the parse functions has to restore it.", "anchors": ["results.go: markPending, unmarkPending, pending", "choice.go: choiceParser.parse", "sequence.go: sequenceParser.parse"]}
{"id": "C42", "title": "Definitions that are not reachable have no effect", "statement": "Adding a definition that is not referenced from the root or from the keywords, is not whitespace, keyword or root, does not change the result of any parse.", "quantifier": "all syntaxes without whitespace, all inputs", "why_tests_cant": "Ranges over all syntaxes and inputs; the identities of the other definitions change.", "anchors": ["syntax.go: Init", "registry.go: setDefinition"]}
{"id": "C43", "title": "The definition named in a parse error", "statement": "The definition named in a parse error is the root or a definition that the user made for a symbol and that is neither whitespace nor fail-pass, and it is reported with the name the user gave to it: the internal names, of the characters of a definition, of the definitions generated for the parts of an expression or for the whitespace, never appear.", "quantifier": "all syntaxes made by calls and by documents, with names that are not empty and have no colon; all inputs, all errors", "why_tests_cant": "The failing parser is remembered and replaced at many places while parsing; ranges over all syntaxes and all inputs.", "anchors": ["context.go: parseError, finalizeParse", "choice.go: choiceParser.parse", "sequence.go: sequenceParser.parse", "whitespace.go: applyWhitespace"]}
{"id": "C44", "title": "The generated text means the program", "statement": "When Generate succeeds, the text it writes is the documentation comment, the package clause with the given package name (main by default), the head code, and one function; the text of this function, read by the lexical rules and the grammar of Go, declares exactly the parsers, builders, keywords and roots of the program for the syntax, with the name parse or Parse as chosen in the options. When the syntax is wrong then nothing is written and the error is returned.", "quantifier": "all syntaxes made by calls with names that can be written between quotes, all options", "why_tests_cant": "The text is printed in pieces by several recursive methods; a missing separator, bracket or an unescaped name shows only for some grammars.", "anchors": ["syntax.go: Generate", "chardefine.go: generate", "choicedefine.go: generate", "sequencedefine.go: generate"]}
{"id": "C45", "title": "Generate reports the errors of the writer", "statement": "Generate returns an error of the writer only if a write has failed, and when it returns no error then the whole text was written.", "quantifier": "all syntaxes, all options, all writers with any pattern of failing writes", "why_tests_cant": "There is a failure case for every single write; the tests write into a buffer that never fails.", "anchors": ["syntax.go: Generate", "chardefine.go: generate", "choicedefine.go: generate", "sequencedefine.go: generate"]}
{"id": "C46", "title": "The position of a parse error", "statement": "The part of the input before the position of a parse error is the beginning of a text of the syntax: going from the root, a reader can get to this position, and when every definition derives some text, then this part of the input can be completed to a text that the root derives.", "quantifier": "all syntaxes, with any left recursion, with and without whitespace definitions; all inputs, all parse errors", "why_tests_cant": "The fail position is updated by every failing character, also while keywords are looked up and while recorded results are taken; ranges over all syntaxes and all inputs.", "anchors": ["context.go: parseError, finalizeParse, fail", "char.go: charParser.parse", "choice.go: choiceParser.parse", "sequence.go: sequenceParser.parse", "context.go: isKeyword"]}
{"id": "C47", "title": "Wrapping the help keeps its words", "statement": "The help texts are broken into lines of at most 72 characters: the words stay the same and in the same order, no word is lost, and a line ends only where the next word does not fit.", "quantifier": "all texts", "why_tests_cant": "Ranges over all texts; the tests do not look at the wrapped help.", "anchors": ["cmd/treerack/doc.go: wrapLines"]}
{"id": "C48", "title": "The printed JSON means the tree", "statement": "The text printed by the show command is a JSON text, and reading it results in the printed tree, whatever characters are in the names and texts, and whichever flags are set; different trees have different texts.", "quantifier": "all trees, all indentations", "why_tests_cant": "Ranges over all trees and all characters in their names and texts.", "anchors": ["cmd/treerack/show.go: node, show"]}
{"id": "C49", "title": "The exit code tells what happened", "statement": "The program exits with zero exactly when it could do what the arguments ask for: the arguments can be read, the sources can be opened, the syntax is valid, the input has a tree, and the result was printed. Otherwise it exits with -1 and prints nothing to the standard output. Of a flag that is given several times the last value counts.", "quantifier": "all command lines, files, inputs and outputs", "why_tests_cant": "Ranges over all argument lists, files and failures of the output.", "anchors": ["cmd/treerack/main.go", "cmd/treerack/options.go", "cmd/treerack/generate.go", "cmd/treerack/check.go", "cmd/treerack/checksyntax.go", "cmd/treerack/show.go"]}
{"id": "C50", "title": "The printed notation of a definition reads back with the same meaning", "statement": "After reading a syntax document, the text that format makes for a definition is a notation of the syntax documents, and the expression it stands for has the same meaning as the expression in the document; a document put together from these texts stands for the same texts.", "quantifier": "all documents, all their definitions, all texts", "why_tests_cant": "Ranges over all expressions, with any nesting of groups, quantifiers, classes and escaped characters; the tests print a few definitions and do not read them back.", "anchors": ["chardefine.go: format", "choicedefine.go: format", "sequencedefine.go: format, isCharSequence"]}
{"id": "C51", "title": "Input as bytes: UTF-8, from any reader", "statement": "Parsing from a reader parses the text whose UTF-8 the reader delivers, whatever parts the bytes come in; bytes that are not the UTF-8 of a text are never accepted; the text of a node is the part of the bytes that belongs to the characters between its positions.", "quantifier": "all readers (any split of the bytes into parts, empty reads, errors at any place), all bytes, all syntaxes", "why_tests_cant": "The tests read from strings and files of valid UTF-8; the ways to split the bytes of the characters, and the invalid sequences, cannot be enumerated.", "anchors": ["syntaxhead.go: parseInput", "context.go: read", "nodehead.go: Text"]}
{"id": "C52", "title": "The texts of nodes and errors", "statement": "The text of a node tells its name, positions and part of the input, and nodes with different ones have different texts; the text of a parse error tells the line and the column of its position, both counted from one, and the definition.", "quantifier": "all syntaxes, inputs, nodes of the trees and parse errors", "why_tests_cant": "Ranges over all names, positions and inputs; the tests compare a few formatted texts.", "anchors": ["nodehead.go: String, Text", "syntaxhead.go: Error"]}
{"id": "C53", "title": "The errors of definitions tell what is wrong", "statement": "When a definition call or the initialization returns an error, then the text of the error names an actual cause: the syntax is initialized, the name is not a symbol, the two named flags are set and exclude each other, there is a root, the named definition exists, or the named parser does not; whatever order the map of the flags is visited in. Different errors have different texts.", "quantifier": "all states of the syntax, all calls with all flags, all orders of visiting the map of the incompatible flags", "why_tests_cant": "Go visits maps in random order, and all combinations of flags, names and earlier calls are involved; the tests only check that there is an error.", "anchors": ["syntax.go: checkCommitType, register", "syntaxhead.go: incompatibleCommitTypes", "syntax.go: errors of definitions"]}
{"id": "C54", "title": "Reading a syntax document does not panic", "statement": "ReadSyntax ends with the definitions or with an error, and does not panic, whatever the document contains, however its reader ends, and whatever was defined before.", "quantifier": "all documents, readers and states of the syntax", "why_tests_cant": "The tests read a number of documents; a panic depends on the position of the first failure in arbitrary texts.", "anchors": ["syntax.go: ReadSyntax", "self/self.go: Parse", "define.go: define"]}
{"id": "C55", "title": "The syntax of the documents describes its own parser", "statement": "The file syntax.treerack is accepted as a document; the program generated from the syntax in it returns the same tree or the same error as self.go, the parser by which it was read, for every text; and the syntax itself accepts exactly the texts that are documents, with the same trees.", "quantifier": "all texts and readers", "why_tests_cant": "The tests and the Makefile compare the generated code with self.go, and parse some documents with both; they do not tell whether the two parsers agree on all other texts.", "anchors": ["boot.go: bootSyntax", "syntax.treerack", "self/self.go: Parse", "Makefile: check-generate"]}
{"id": "C56", "title": "The parser generated from a document is the parser of the document", "statement": "For every text that is accepted as a document and whose syntax can be initialized, Generate produces a program whose variables are declared once and before their use; the printed file contains this program; it returns for every input the same tree as the syntax that was read from the document, and an error at the same place otherwise; and it accepts only the texts that the root definition of the document stands for.", "quantifier": "all documents, all texts of documents, all inputs and readers, all command lines of generate", "why_tests_cant": "The tests generate the code of a few documents and run it on a few inputs; they cannot compare the generated parsers of all documents with the syntaxes, and the expressions in a document are turned into many internal definitions with generated names.", "anchors": ["syntax.go: ReadSyntax, Generate", "define.go: define", "cmd/treerack/generate.go: generate", "char.go, sequence.go, choice.go: generate", "syntax.go: Generate"]}
{"id": "C57", "title": "Syntaxes with one character of lookahead are parsed completely", "statement": "The parser takes the longest option of a choice and as many occurrences of an item as possible, and tries nothing else, so in general it rejects texts that the grammar derives. When the next character decides which option to take, and whether there is another occurrence of an item (LL(1)), then it rejects none: an input is accepted if and only if it is derived from the grammar.", "quantifier": "all syntaxes, with or without whitespace definitions, without left recursion, with one character of lookahead; all inputs", "why_tests_cant": "Completeness is about all texts of all such grammars; a test only shows that some texts are accepted, and greedy matching goes wrong only for particular combinations of definitions.", "anchors": ["sequence.go: parse", "choice.go: parse", "context.go: parse", "syntax.go: Parse", "whitespace.go: applyWhitespace"]}
{"id": "C58", "title": "examples/json.treerack describes JSON", "statement": "The syntax in examples/json.treerack is read without an error. The parser of the syntax, and the parser generated from it, return the same trees, and they accept exactly the JSON texts of RFC 8259 with three differences: backspaces and form feeds are whitespace, only the control characters that have a short escape need an escape in a string, and the hexadecimal digits are lowercase.", "quantifier": "all inputs", "why_tests_cant": "The tests parse a few JSON texts; they cannot show that every JSON text is accepted and nothing else is, and the differences from the RFC are in characters that no test contains.", "anchors": ["examples/json.treerack", "json_test.go", "syntax.go: ReadSyntax, Parse, Generate"]}
{"id": "C59", "title": "The returned tree is a derivation tree", "statement": "The tree that Parse returns is a derivation of the whole text in the grammar of the syntax: every node stands for a definition that is not hidden, the nodes below it are those of the definitions that its expression refers to, in the order and in the numbers that the expression allows, the text in between consists of the characters of the expression and, where it is allowed, of whitespace, and the root includes the whitespace around it. For a syntax document, the tree is a tree of the root definition of the document.", "quantifier": "all syntaxes that the reference semantics describes, with or without whitespace definitions and left recursion, whose items have no minimum above the maximum; all syntax documents of that kind; all inputs", "why_tests_cant": "Tests compare the trees of a few texts with literals; a wrong child, a missing one or one too many can occur in any combination of options, repetitions and whitespace.", "anchors": ["sequence.go: sequenceBuilder.build", "choice.go: choiceBuilder.build", "char.go", "whitespace.go: applyWhitespace", "syntax.go: Parse"]}
{"id": "C60", "title": "The trees of examples/json.treerack stand for the values of the texts", "statement": "A JSON text has a single value. A text is accepted with a tree from which a value can be read by the names, the texts and the child nodes of the nodes, exactly when the text is JSON with this value: objects with their keys and members in order, arrays with their elements in order, strings and numbers as they are written. It is the same for the parser of the syntax and for the generated parser.", "quantifier": "all inputs and values", "why_tests_cant": "The tests compare the trees of a few texts; a node attached to the wrong parent, a lost or repeated element or a wrong range could show only with another nesting.", "anchors": ["examples/json.treerack", "json_test.go", "builder.go", "sequence.go", "choice.go"]}
{"id": "C61", "title": "With one character of lookahead, the returned tree is the only derivation tree", "statement": "For syntaxes where the next character (that is not whitespace, in syntaxes with whitespace definitions) tells how to continue, every text has at most one derivation tree, apart from known sources of ambiguity like empty items whose number may vary, and the parser returns a tree if and only if it is the derivation tree of the whole input.", "quantifier": "all definition calls that meet the conditions, all inputs, all trees", "why_tests_cant": "It compares the result with every possible derivation tree of every input; a test compares it with the one tree its author had in mind.", "anchors": ["sequence.go: parse, build", "choice.go: parse, build", "builder.go", "whitespace.go", "syntax.go: Parse"]}
{"id": "C62", "title": "The recursion of Parse is bounded by the length of the input", "statement": "For every syntax there is a constant such that, for every input and reader, the nesting of the recursive calls of Parse and the iterations of each of its loops are at most the constant times the square of the length of the input (plus one); without building the tree, at most the constant times the length. This includes left recursive and cyclic definitions. The number of the recorded matches is at most the constant times the square of the length.", "quantifier": "all syntaxes, after any history of calls; all inputs of any length; all readers", "why_tests_cant": "A test measures the depth of the recursion for a few inputs of a few syntaxes; a bound that holds for all lengths, with one constant per syntax, can not be observed.", "anchors": ["choice.go: parse (markPending), build", "sequence.go: parse (markPending), build", "results.go: pending, markPending, dropMatchTo", "context.go: isKeyword"]}
{"id": "C63", "title": "How often definitions are tried at the same position", "statement": "While an input is parsed, every definition is tried at most once at each position, because the results are recorded, so that the number of the attempts is bounded by a polynomial of the length of the input. (Proved: the options of a choice are tried at most once at a position, and the attempts of all choices together are at most proportional to the length. When no sequence contains itself without a choice in between, then the number of all attempts is bounded by a polynomial; this is the case for the syntax of syntax definitions and for the JSON example. Refuted for the other sequences: they try their items again, and there is a syntax of two sequences whose attempts at one position double with every nested parenthesis, so that no polynomial bounds the work.)", "quantifier": "all sets of linked parsers, all inputs, readers and earlier parse calls; for the counterexample all nesting depths", "why_tests_cant": "Tests see the result of a parse, which does not show repeated work, and time measurements on a few inputs can not tell a steep polynomial from exponential growth.", "anchors": ["choice.go: parse (fromResults, pending, setNoMatch)", "sequence.go: parse (pending, no fromResults before the items)", "context.go: fromResults", "results.go: longestResult, setMatch, setNoMatch"]}
{"id": "C64", "title": "The example syntaxes can be depended on", "statement": "The example documents json, sexpr, scheme, keyval and eskip are read without an error and can be initialized. For every input that is valid unicode, their parsers return exactly the trees of the reference semantics of the document, they do not panic, the generated parsers return the same, and the number of the attempts to parse a definition is bounded by a polynomial of the length of the input.", "quantifier": "all inputs, for each of the five example documents", "why_tests_cant": "The tests parse a few texts with every example; that no text at all leads to a panic, to another tree or to exponential work is a statement about all texts.", "anchors": ["examples/json.treerack", "examples/sexpr.treerack", "examples/scheme.treerack", "examples/keyval.treerack", "examples/eskip.treerack", "syntax.go: ReadSyntax, Init, Generate, Parse"]}
{"id": "C65", "title": "The commands end with an exit code", "statement": "Init and Generate return for all accepted definitions. The commands check-syntax and generate end with the exit code 0 or -1 for all arguments, when the document is valid unicode, also when writes fail. The commands check and show end with the exit code 0 or -1 for every document and every input that are valid unicode.", "quantifier": "all arguments, all documents, all inputs, all failing writes", "why_tests_cant": "The tests call the commands with a few documents; a document for which the initialization does not return, or panics, is found only by chance.", "anchors": ["cmd/treerack/check.go: check", "cmd/treerack/checksyntax.go: checkSyntax", "cmd/treerack/generate.go: generate", "cmd/treerack/show.go: show", "syntax.go: Init, Generate"]}
{"id": "C66", "title": "The text printed by show can be read with the JSON example", "statement": "For every tree, and with every indentation of whitespace, the text printed by the show command is accepted by the parser of the syntax in examples/json.treerack and by the parser generated from it. The trees of these parsers, with the strings unescaped and the numbers converted, mean the printed tree: the names, the offsets, the texts and the child nodes. The check command, with this syntax, accepts what the show command has printed.", "quantifier": "all trees, all flags of show, all inputs", "why_tests_cant": "The tests of show compare the printed text of two trees with the expected text; a name or a text that has to be escaped, or a deeper nesting, is not in the tests, and the JSON example is not applied to it.", "anchors": ["cmd/treerack/show.go: show", "cmd/treerack/check.go: check", "examples/json.treerack"]}
