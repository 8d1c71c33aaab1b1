# Formal model of aryszka/treerack

The properties are in `properties.jsonl` (C01 ...), the status of each in `MANIFEST.json`.

## Layout

* `lean/Verif/Model/*.lean`: the executable model, function by function, each definition cites the Go
  source it models and says where it simplifies.
* `lean/Verif/Spec/*.lean`: small specifications that do not use the model's parsing functions
  (derivations of a context free grammar, the reference semantics, reference trees, ...).
* `lean/Verif/Proofs/*.lean`: helper lemmas, invariants.
* `lean/Verif/Props/*.lean`: the property theorems, with examples of cases that satisfy their hypotheses
  and with counterexamples where the code violates a property.

## Trusted base

* Lean's kernel (4.33.0). Axioms: at most `propext`, `Classical.choice`, `Quot.sound`.
  By `#print axioms`, every theorem named in MANIFEST.json depends on exactly these three, except: `C07_choice`, `C09_unique`,
  `C16_greedy`, `sub_nodeAt`, `C47_wrap_partial` (`propext`, `Quot.sound`); `C39_match`, `C47_panic_counterexample`, `C50_same`,
  `C50_same_ws` (`propext`); `C34_empty_counterexample` (none).
  No axioms of our own, no `sorry`, no `native_decide`, no `bv_decide`.
* The faithfulness of the model to the Go code, which was read as text. Checks of the model that were
  made outside of the proofs, by evaluating it: it reproduces all 375 table driven parse and error test
  expectations that could be extracted from the repository's tests.  Reading `syntax.treerack` with
  the model of `self.Parse`, `define` and `Init` produces the 196 parser tables of `self/self.go`; this is also proved (C55).
  The text of the generated function, evaluated for `syntax.treerack`, is the same as that in
  `self/self.go` up to the formatting made by gofmt.
* Go semantics assumed: slices as lists with length and content (capacities and growth are modelled
  separately in `Model/Store.lean`), pointers as addresses in a heap, index out of range and nil
  dereference as `Res.panic`, recursion with an explicit budget (`Res.oof` = budget exhausted, which
  the termination theorems exclude), `int` unbounded (offsets and counts are bounded by the input size),
  stack exhaustion by deep recursion is not modelled.
* `io.Reader` + `bufio.Reader.ReadRune`: a finite list of decoded runes followed by io.EOF or an error.

## What is modelled

| Go | Lean |
|---|---|
| results.go, idset.go | Model/Results.lean (contents), Model/Store.lean (capacity, growth, bit set) |
| context.go, nodehead.go | Model/Context.lean, Model/Parser.lean, Model/Builder.lean |
| char.go, choice.go, sequence.go | Model/Parser.lean, Model/Builder.lean; with a trace of the attempts Model/Trace.lean |
| syntaxhead.go (parseInput, CommitType) | Model/Basic.lean, Model/Builder.lean |
| syntax.go, registry.go, *define.go (validate, init, generalizations) | Model/Syntax.lean |
| whitespace.go | Model/Syntax.lean |
| define.go, node.go, escape.go | Model/Define.lean |
| self/self.go (tables) | Model/Self.lean |
| syntax.treerack, boot.go | Model/SyntaxText.lean, Model/Boot.lean |
| examples/json.treerack | Model/JsonText.lean |
| examples/sexpr.treerack, scheme.treerack, keyval.treerack, eskip.treerack | Model/Examples.lean |
| Generate (syntax.go, *define.go) | Model/Generate.lean (statements), Model/Print.lean (text, writer) |
| cmd/treerack/open.go, show.go (mapNode) | Model/Cmd.lean |
| cmd/treerack/show.go (encoding/json) | Model/Json.lean |
| cmd/treerack/doc.go (wrapLines) | Model/Wrap.lean |
| cmd/treerack/main.go, options.go, check.go, checksyntax.go, generate.go, show.go (flags, exit codes, standard output) | Model/Main.lean |

The generated file consists of the text of the runtime files (head.go, a copy of context.go, char.go and so on, compared
by reading), of the declarations, and of one call of `parseInput`.  The model keeps the declarations as data, with the
variables as numbers, and `Program.run` stands for executing them and calling the modelled `parseInput`.  Model/Print.lean
has the text of the statements, write by write, for a writer with any failing writes (a write that fails writes nothing; names
are valid UTF-8).  `Spec/GoText.lean` is a lexer and a reader for the part of Go that appears in the generated function, written
from the specification of Go: tokens, semicolons inserted at line ends, string literals, declarations with composite
literals, assignments and the return statement; `readFunction` results in the statements (`Program`).

The command uses the packages flag and encoding/json of the Go library.  They are modelled for the flags and the types
that the command has: `parseOne`, `flagParse` (flag.FlagSet.Parse with ContinueOnError), `marshal` and `indentText`
(json.Marshal and json.Indent for the type `node`), written after the source of the library, which is not part of the
repository.  `Spec/CommandLine.lean` describes the notation of the flags, `Spec/Json.lean` is a reader of JSON written from RFC 8259.

`Model/Format.lean` is the `format` methods of the definitions, chardefine.go, choicedefine.go and sequencedefine.go; the flags that
the code does not use are left out.

`Model/Reader.lean` is bufio.Reader.ReadRune and unicode/utf8, from the source of the standard library, over an arbitrary io.Reader;
`Spec/Utf8.lean` is UTF-8 from RFC 3629.  `Model/Messages.lean`: Node.String and ParseError.Error.
`Model/DefErrors.lean`: the texts of the errors of definitions, with the check of the flags on their bits, and the order in which the
map of the incompatible flags is visited as a parameter.

Not modelled: how the help of the flags is printed (flag.PrintDefaults),
scripts/createhead.go (concatenation of Go sources), gendoc.

## The reference semantics

`Spec/Reference.lean`: `Ref G B input n i m` says what trying the definition `n` at `i` results in: the end of the match and
its nodes, or no match.  Choices take the longest option, the first of those equally long; sequences are greedy, without
backtracking; `B` tells which texts a sequence must not match (keywords).  A choice `n` with left recursive options `s = n tail`
takes the longest of its other options, and then as many tails as possible, attempting the left recursive options in turn.  It is deterministic, and total when there is no
other left recursion.  The theorems that use it have the assumption `Straightforward cs`: no whitespace definitions, keywords
that are texts, and only the direct left recursion described by `OnlyDirectRecursion`.  `Made cs s`: the syntax `s` was made by
the calls `cs` of the definition API, or by reading documents that result in these calls.

`Spec/Spaced.lean`: `spaced W` is the grammar in which the whitespace is explicit, with the definitions that whitespace.go adds;
it is written from the calls, without the functions of the model.  `RefWs cs input` is `Ref` of this grammar.  The theorems with
`_ws` in their name use it, with the assumption `StraightforwardWs cs`.  Their proof goes through the map from the parsers of the
prepared syntax to the definitions of `spaced` (`SpacedParsers`, Proofs/SpacedCalls.lean); the names of the hidden definitions do
not matter (Proofs/Relabel.lean).

The other semantics, `Derives` and with whitespace `WDerives`, is the usual one of context free grammars; the soundness
theorems (C02, C04, C19, C20, C40, ...) use it and hold for all syntaxes, including those with any left recursion.

## Syntax documents

`Spec/Document.lean`: documents as data (`Document`), the trees that stand for a document (`DocumentNode`), the definition calls it
corresponds to (`documentCalls`; `documentSteps` with the numbers that do not fit into 63 bits as failing steps) and what its
expressions mean (`Means`).  `Spec/SpacedDocument.lean`: what they mean with whitespace definitions (`DefWs`).  `Spec/Written.lean`: `WrittenDocument doc text`, the notation of documents as text, written from the
documentation and not from the table of parsers in self/self.go.

The theorems of Props/Written.lean connect the text with the calls: the parser with the 196 tables of self/self.go accepts exactly
the notations (`C30_accepts`), the notation is unambiguous, and ReadSyntax makes the steps of the document.  The proofs use that
the table is one of the grammars covered by the exact theorem (`self_straight`); the modules Self* in Proofs are about `Ref` of
this table: SelfKit to SelfDocument show how a notation is parsed, SelfInvert and SelfRead what a parsed text looks like.

## Conditions

`Spec/Conditions.lean` has the conditions of the theorems about syntaxes, stated about the calls and the documents: `WsSafe`,
`PlainRefs`, `Regular`, `RegularWs`, `Straightforward`, `StraightforwardWs`, `DocumentWsSafe`.  `Regular` is enough for what the
parsing phase does (C06 up to panics, C07, C08, C18, C39); `Straightforward` adds `PlainRefs`, without which the builder does not
build the parsed tree (Props/CharRefs.lean).

## Findings

Besides the counterexamples in `Props`: names of the definitions generated for whitespace may collide with those of the user;
nested groups inside of a `ws` definition only inherit NoWhitespace; `newSequence` keeps the slice of the caller; when both the
syntax and the input of show/check come from the standard input, the second one reads an empty text; Generate loses the
errors of its own writes (C45) and prints names without escaping (C44); in a block comment of a syntax document a star is always read together with the
next character, so that a comment that ends with an odd number of stars more, like `/** x **/`, is not closed there (the `star`
case of `CommentBody` in Spec/Written.lean).

## Plan per property

* C01 termination: parse: the nested calls strictly increase the set of pending (position, id) pairs, the
  loops advance the item or the position; build: every nested call drops a recorded match or marks an
  empty one. Explicit budget, plus monotonicity in the budget.
* C02 soundness: invariant "every recorded match is derivable" over all parse steps, for all linked
  grammars (distinct ids, sound generalizations), including keywords.
* C03: invariant relating reader, tokens, readOffset; analysis of finalizeParse.
* C10: every object on the heap after `Init` is a character, an alias, or has the name of a visible call
  (through the registration and the rewriting for whitespace); nodes get the names of objects.
* C04, C40: invariant of the builder: the store only contains derivable matches, every node created has
  the name of its definition and the range of a recorded match.
* C05, C09: from the tree theorem of the reference semantics; counterexample for hidden left recursion.
* C06, C07, C08: reference semantics `Ref` as an inductive relation; consistency invariant of the store;
  partial correctness by induction on the budget; totality of `Ref` for the covered grammars.
* C11, C12: invariant of the reader. C12 is violated (panic): counterexample and partial theorem.
* C13: violated: counterexamples; partial: the parse phase never panics on valid unicode, and accepted
  inputs never panic, where the reference semantics applies.
* C14: position arithmetic for the returned errors; the panic with offset -1 is a counterexample to C13.
* C15, C16: direct theorems on matchChar, charParse, normalizeItemRange and `Ref`.
* C17, C18: violated for choices with NoKeyword and for keywords that are choices (C17, C18): counterexamples.  The partial
  theorems are about keywords that are texts: an invariant of all recorded matches for C17 (all grammars), the exact
  semantics for C18.
* C19, C20: language equality of the transformation on definitions; C20 as a frame property.
* C21 - C27: model of the definition API and Init; induction over API calls and over the reference graph.
* C22 is violated: counterexamples; partial theorem for the rejections that leave the root and the keywords alone, with and
  without whitespace definitions (`Proofs/Tried`, `Proofs/AgreeWs`, `Proofs/UnusedWs`).
* C28: escape/unescape by induction. C29: refinement for all growth policies and word sizes.
* C30 - C33: define: language preservation by induction on expressions; for texts, the reference semantics of the table of
  self/self.go, in both directions.
* C34: decision table; violated for positional + inline. C35: structural induction.
* C36, C37: model of Generate as a list of declarations and assignments, and of running them.  C36 is violated by
  references into character classes and with stale keywords.  C37 (behaviour): a simulation between the parsers of the
  syntax and those of the program, with its own numbering; violated by the missing name of the root in errors of syntaxes
  with whitespace.
* C38: Init is idempotent; Parse does not change the syntax.
* C39: the rule `Ref.grow` of the reference semantics: the store contains, for a left recursive choice at a position, the
  matches with 0, 1, ... k tails, and every pass of the choice over its options adds one; the builder takes them away one by
  one from the longest.  Violated when the tail may be empty, when another definition refers to the left recursive option, or when a left
  recursive option has other options both in front of it and behind it.
* C41: pending marks restored, part of the termination proof.
* C42: simulation between the two environments (ids differ); with whitespace definitions, between the two rewritten sets of
  definitions (`Proofs/AgreeWs`).
* C44, C45: the printed text is lexed and read back, by induction on the statements; the writes are followed with an invariant of
  the writer.  C44 is violated by names with U+0000 or U+FEFF, C45 by the writes of the head and of the end of the file.
* C43: the parser named in an error: an invariant of the failing parser of the context, through all parse steps.
* C46: `Spec/Begins.lean`: `Begins G input n i o`, how far a reader can get.  All positions in the context, and all recorded ends,
  are such beginnings (Proofs/Begins.lean); beginnings can be completed to texts (Proofs/Completes.lean).  Violated by keywords that
  are not texts: the check of a keyword may continue from a recorded result behind its limit.
* C47: the loop makes groups of words, by induction on the remaining words.  Violated by words longer than a line.
* C48: the tokens of the printed text are those of the value; the indentation machine runs in step with the tokenizer.  What the
  reader of Spec/Json.lean reads is in the grammar of RFC 8259 (Proofs/JsonRead.lean).  Violated by an indentation that is not made
  of spaces.
* C49: the arguments are read exactly as `Flags` describes, by induction on them; the commands are then the ones of C34, C35, C44.
  Violated by an output that cannot be written: the error of printing the tree is ignored.
* C50: induction on the expressions of the document, over the definitions that the calls have registered (`Placed`); the printed
  text is a notation in the sense of Spec/Written.lean.  Violated by quotes in texts of several characters, which are not escaped,
  and by a quantifier behind a group of a single item, printed without the parentheses.
  With whitespace definitions (`SameWs`), the printed expression is related to the original one by the laws of Proofs/Alike.lean; a
  group of a single item in a sequence violates the claim: `a (b*)` takes the whitespace behind `a`, `a b*` does not.
* C51: what the buffered reader is still going to deliver is an invariant of filling the buffer; a complete character is decoded
  without looking behind it.  C52: direct.  C53: every way the calls can fail, by cases.
  C54: the root of the parser of the documents may be empty, so it matches at the beginning of every text, and an error is never
  reported with the position -1 (as in C13).
* C55: a reader for the notation of documents, which is sound for Spec/Written.lean, reads the text of syntax.treerack in the kernel;
  the definition calls, `Generate` and the comparison of the tables are evaluated in the kernel, too.  The statements about all
  texts then follow from C30 and from the simulation that is used for C37.
* C56: C30, C36, C37 and C44 composed, for the definition calls of a document: their names and references are described by induction
  on the expressions.  Violated by a keyword that is a sequence, in a document with whitespace: a variable is declared twice.
* C57: FIRST and FOLLOW as inductive relations (Spec/Lookahead.lean).  The part of the input that a definition is going to match in a
  derivation of the whole input is matched by the reference semantics, too, by induction on the derivation; C06 does the rest.  A
  grammar can be tested with `ll1Test`, which computes both relations and is proved sound.  With whitespace (Spec/LookaheadWs.lean) the
  whitespace definitions match single characters, and nothing that comes behind whitespace starts like whitespace; the derivations are
  followed through the parts that whitespace.go makes of a definition.
* C58: the document is read in the kernel, as for C55, and the conditions of C57 are calculated.  What the document stands for
  (Spec/SpacedDocument.lean) is compared with the grammar of JSON (Spec/JsonGrammar.lean), which is written after the RFC and not
  after the document, in both directions by induction (Proofs/DocTexts.lean, Proofs/JsonDoc.lean).
* C59: derivation trees are the derivations of Spec/Grammar, Spec/Whitespace and Spec/SpacedDocument together with the nodes
  (Spec/Trees.lean, Spec/TreesDocument.lean).  A match of the reference semantics is a derivation tree (Proofs/Trees.lean); the trees of
  the grammar with explicit whitespace are those of the grammar with whitespace definitions (Proofs/TreesWs.lean), and those are the
  trees of the document (Proofs/DocTrees.lean).
* C60: the texts of Spec/JsonGrammar together with their values, and a function that reads a value from a tree (Spec/JsonTree.lean).  By
  induction on the derivation trees of C59, the value of the tree is a value of the text (Proofs/TreeFits.lean, Proofs/JsonTree.lean); a
  text has a single value (Proofs/JsonUnique.lean), and C58 tells which texts are accepted.
* C61: under the conditions of C57 and those of Spec/Definite.lean, two derivation trees of a text are followed side by side: the next
  character decides about options and occurrences, and the whitespace has a single place (Proofs/Definite.lean, Proofs/DefiniteWs.lean).
  With C57 (there is a result) and C59 (it is a tree) the result is the only tree.  Proofs/DocTreesBack.lean is the other direction of
  Proofs/DocTrees.lean, which makes it a statement about the document.
* C62: the fuel of the model counts the nesting of calls and the iterations of each loop, so a sufficient fuel is a bound of them.  The
  number of pending marks at an offset bounds the nesting, the number of recorded results (`live_le`) the nesting of the builder.
* C63: Model/Trace.lean is the parser with a list of the executed choices and sequences; `C63_traced` says that without the list it is
  the parser of Model/Parser.lean.  Choices are tried once per offset.  The attempts of sequences are charged to the choice that
  called them, by a rank of the sequences (Proofs/TraceCost.lean), which gives a polynomial when sequences do not contain themselves
  directly; otherwise there is a counterexample with exponential work, by induction on the nesting depth (Proofs/Nest.lean).
* C64: the conditions of C09, C13, C56 and C63 are calculated for the example documents (Proofs/Dependable.lean, Proofs/Example*.lean);
  the theorems are then about all inputs.  `readDocument`, which is proved to be sound, reads the text of the example.
  No panic: either the root may be empty, or its failures always have a position (Proofs/Firm.lean): a character sets the fail offset,
  and so does a sequence with required characters, also as the last option of a choice that was not tried at the offset before.
* C65: that Init and Generate return is proved for all accepted definitions (Proofs/Returns.lean); check and show end when the parser of the
  document does not panic (`Panicless`), in particular with the documents of C64 (`C65_examples`). They do not end with an exit code for all
  documents: `C65_check_counterexample` is the panic of C13 in the command. Documents that are not valid unicode are not covered (C54).
* C66: by structural induction over the printed tree, and over the grammar for json.Indent: the indented text of a JSON value without
  whitespace is a text of the same value (Proofs/JsonIndent.lean). Then C58 and C60 apply.

## Testing the theorems

`seeded/LOG.jsonl` has one line for each wrong program that was tried: the definition of the model that was edited, the edit, the
claim that becomes false.  `theorems_failed` are the theorems of the manifest that no longer have a proof, because they are, or
depend on, the lemmas at which the build stops.
