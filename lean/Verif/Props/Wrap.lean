import Verif.Proofs.Wrap

/-
C47: the wrapping of the help texts.
-/

namespace Treerack
open Spec

/-- C47: when no word is longer than a line, the words stay the same and in the same order, no line is longer than the
width, and a line is not broken before it is full. -/
theorem C47_wrap_partial {text : List Rune} (h : ∀ w ∈ words text, w.length ≤ 72) :
    ∃ out, wrapLines text = .ok out ∧ Wrapped 72 text out := wrapLines_wrapped h

/-- Exactly when the first word does not fit in a line, the program panics. -/
theorem C47_panic (text : List Rune) :
    wrapLines text = .panic ↔ ∃ x, (words text).head? = some x ∧ 72 < x.length := wrapLines_panic text

/-- C47 does not hold: a word that is longer than a line can be lost, the word before it is printed twice. -/
theorem C47_lost_counterexample : wrapLines (runes "abc " ++ List.replicate 73 120 ++ runes " def") =
    .ok (runes "abc\nabc\ndef") := by decide +kernel

/-- C47 does not hold: the program can panic. -/
theorem C47_panic_counterexample : wrapLines (List.replicate 73 120) = .panic := by decide +kernel

/-- doc.go: the texts that are wrapped by the command. -/
def helpTexts : List (List Rune) := [
  -- docRef
  runes "See more documentation about the definition syntax and the parser output at\nhttps://github.com/aryszka/treerack.",
  -- positionalSyntaxUsage
  runes "The path to the syntax file is accepted as a positional argument.",
  -- positionalInputUsage
  runes "The path to the input file is accepted as a positional argument.",
  -- syntaxFileUsage
  runes "path to the syntax file in treerack format",
  -- syntaxStringUsage
  runes "inline syntax in treerack format",
  -- inputFileUsage
  runes "path to the input to be parsed",
  -- inputStringUsage
  runes "inline input string to be parsed",
  -- packageNameUsage
  runes "package name of the generated Go code",
  -- exportUsage
  runes "when the export flag is set, the generated code will have exported symbols to allow using\nit as a separate package.",
  -- prettyUsage
  runes "when the pretty flag is set, the AST will be pretty printed",
  -- indentUsage
  runes "string used for indentation of the printed AST",
  -- checkUsage
  runes "'treerack check' takes a syntax description from a file or inline string, an arbitrary piece\nof text from the standard input, or a file, or inline string, and parses the input text with the defined syntax.\nIt returns non-zero exit code and prints the problem if the provided syntax is not valid or the input cannot be\nparsed with it.",
  -- checkExample
  runes "Example:\ntreerack check -syntax example.treerack foo.example",
  -- showUsage
  runes "'treerack show' takes a syntax description from a file or inline string, an arbitrary piece\nof text from the standard input, or a file, or inline string, and parses the input text with the defined syntax.\nIf it was successfully parsed, it prints the resulting abstract syntax tree (AST) in JSON format.",
  -- showExample
  runes "Example:\ntreerack show -syntax example.treerack foo.example",
  -- checkSyntaxUsage
  runes "'treerack check-syntax' takes a syntax description from the standard input, or a file,\nor inline string, and validates it to check whether it represents a valid syntax. It returns with non-zero exit\ncode and prints the problem if the syntax is not valid.",
  -- checkSyntaxExample
  runes "Example:\ntreerack check-syntax example.treerack",
  -- generateUsage
  runes "'treerack generate' takes a syntax description from the standard input, or a file, or\ninline string, and generates parser code implementing the described syntax. It prints the parser code to the\nstandard output.",
  -- generateExample
  runes "Example:\ntreerack generate example.treerack > parser.go"]

/-- Whether the words of the text fit in a line. -/
theorem help_words : ∀ text ∈ helpTexts, ∀ w ∈ words text, w.length ≤ 72 := by decide +kernel

/-- C47: the help texts of the command are printed completely. -/
theorem C47_help : ∀ text ∈ helpTexts, ∃ out, wrapLines text = .ok out ∧ Wrapped 72 text out :=
  fun text h => C47_wrap_partial (help_words text h)

example : wrapLines (runes "when the export flag is set, the generated code will have exported symbols to allow using\nit as a separate package.") =
    .ok (runes "when the export flag is set, the generated code will have exported\nsymbols to allow using it as a separate package.") := by
  decide +kernel

end Treerack
