import Verif.Model.Json
import Verif.Model.Print

/-
cmd/treerack: the command line.  main.go, options.go, the functions generate, check, checkSyntax and show, and what the flag
package of the Go library does for them.  Not modelled: the texts of the help, and the messages written to stderr.
-/

namespace Treerack

inductive FlagKind where
  | bool
  | string
  deriving Repr, DecidableEq

inductive FlagValue where
  | bool (b : Bool)
  | string (s : List Rune)
  deriving Repr, DecidableEq

/-- strconv.ParseBool -/
def parseBool (s : List Rune) : Option Bool :=
  if ["1", "t", "T", "true", "TRUE", "True"].map runes |>.contains s then some true
  else if ["0", "f", "F", "false", "FALSE", "False"].map runes |>.contains s then some false
  else none

/-- The name and the value around the first `=`. -/
def cutEquals : List Rune → List Rune × Option (List Rune)
  | [] => ([], none)
  | c :: cs => if c = 61 then ([], some cs) else let x := cutEquals cs; (c :: x.1, x.2)

inductive FlagStep where
  /-- no further flag, with the remaining arguments -/
  | done (args : List Name)
  | error
  | set (name : Name) (value : FlagValue) (args : List Name)

/-- The end of flag.FlagSet.parseOne: the flag with the name and the value `x`, followed by the arguments. -/
def setFlag (formal : Name → Option FlagKind) (x : List Rune × Option (List Rune)) (args : List Name) : FlagStep :=
  match formal x.1 with
  | none => .error
  | some .bool =>
    match x.2 with
    | some v =>
      match parseBool v with
      | some b => .set x.1 (.bool b) args
      | none => .error
    | none => .set x.1 (.bool true) args
  | some .string =>
    match x.2, args with
    | some v, args => .set x.1 (.string v) args
    | none, a :: args => .set x.1 (.string a) args
    | none, [] => .error

/-- flag.FlagSet.parseOne -/
def parseOne (formal : Name → Option FlagKind) : List Name → FlagStep
  | [] => .done []
  | s :: args =>
    if s.length < 2 ∨ s.head? ≠ some 45 then .done (s :: args)
    else if s = [45, 45] then .done args
    else
      let name := if s[1]? = some 45 then s.drop 2 else s.drop 1
      if name = [] ∨ name.head? = some 45 ∨ name.head? = some 61 then .error
      else setFlag formal (cutEquals name) args

/-- flag.FlagSet.Parse: the assignments in their order, and the remaining arguments; `none` is an error. -/
def flagParse (formal : Name → Option FlagKind) : Nat → List Name → Option (List (Name × FlagValue) × List Name)
  | 0, _ => none
  | n + 1, args =>
    match parseOne formal args with
    | .done args => some ([], args)
    | .error => none
    | .set name v args => (flagParse formal n args).map fun x => ((name, v) :: x.1, x.2)

/-- The variables of the flags. -/
structure Settings where
  syntaxString : List Rune := []
  syntaxFile : Name := []
  inputString : List Rune := []
  inputFile : Name := []
  pretty : Bool := false
  indent : List Rune := []
  exported : Bool := false
  packageName : Name := []
  deriving Repr, DecidableEq

inductive Command where
  | check
  | show
  | checkSyntax
  | generate
  deriving Repr, DecidableEq

/-- The flags of the commands: check.go:14-18, show.go:48-55, checksyntax.go:13-14, generate.go:17-20. -/
def Command.flags : Command → List (Name × FlagKind)
  | .check => [(runes "syntax-string", .string), (runes "syntax", .string), (runes "input-string", .string),
      (runes "input", .string)]
  | .show => [(runes "syntax-string", .string), (runes "syntax", .string), (runes "input-string", .string),
      (runes "input", .string), (runes "pretty", .bool), (runes "indent", .string)]
  | .checkSyntax => [(runes "syntax-string", .string), (runes "syntax", .string)]
  | .generate => [(runes "export", .bool), (runes "package-name", .string), (runes "syntax-string", .string),
      (runes "syntax", .string)]

/-- `formal` of the flag set. -/
def Command.formal (c : Command) (name : Name) : Option FlagKind := (c.flags.find? fun x => x.1 == name).map Prod.snd

/-- The assignment of a flag to its variable. -/
def Settings.set (o : Settings) (x : Name × FlagValue) : Settings :=
  match x.2 with
  | .string v =>
    if x.1 = runes "syntax-string" then { o with syntaxString := v }
    else if x.1 = runes "syntax" then { o with syntaxFile := v }
    else if x.1 = runes "input-string" then { o with inputString := v }
    else if x.1 = runes "input" then { o with inputFile := v }
    else if x.1 = runes "indent" then { o with indent := v }
    else if x.1 = runes "package-name" then { o with packageName := v }
    else o
  | .bool b =>
    if x.1 = runes "pretty" then { o with pretty := b }
    else if x.1 = runes "export" then { o with exported := b }
    else o

/-- What surrounds the command: the files and the standard input, the standard output, the constants of the generator and
the help texts. -/
structure Surroundings where
  world : World
  stdout : Writer
  constants : GenConstants
  help : Option Command → List (List Rune)

/-- io.go:24-26: the errors of the output are ignored. -/
def Out.print (w : Writer) (o : Out) (t : List Rune) : Out := (o.write w t).1

/-- check.go:8-47, show.go:43-110, checksyntax.go:8-35, generate.go:12-45, options.go: the exit code and what was written to
the standard output. -/
def Command.run (c : Command) (x : Surroundings) (fuel : Nat) (args : List Name) : Res (Int × Out) :=
  if args.head? = some (runes "-help") then .ok (0, (x.help (some c)).foldl (Out.print x.stdout) {})
  else
    match flagParse c.formal (args.length + 1) args with
    | none => .ok (-1, {})
    | some (values, rest) =>
      let o := values.foldl Settings.set {}
      match c with
      | .check =>
        (checkCmd x.world fuel ⟨o.syntaxString, o.syntaxFile, []⟩ ⟨o.inputString, o.inputFile, rest⟩).bind fun code =>
          .ok (code, {})
      | .show =>
        (showCmd x.world fuel ⟨o.syntaxString, o.syntaxFile, []⟩ ⟨o.inputString, o.inputFile, rest⟩).bind fun (code, n) =>
          match n with
          | none => .ok (code, {})
          | some n => .ok (code, Out.print x.stdout {} (showText o.pretty o.indent n ++ [10]))
      | .checkSyntax =>
        (checkSyntaxCmd x.world fuel ⟨o.syntaxString, o.syntaxFile, rest⟩).bind fun code => .ok (code, {})
      | .generate =>
        (FileOptions.openSyntax ⟨o.syntaxString, o.syntaxFile, rest⟩ x.world fuel).bind fun s =>
          match s with
          | none => .ok (-1, {})
          | some s =>
            (s.GenerateTo x.constants ⟨o.packageName, o.exported⟩ x.stdout).bind fun (_, out, err) =>
              .ok (if err.isSome then -1 else 0, out)

/-- main.go:13-45, with the arguments behind the name of the program. -/
def mainCmd (x : Surroundings) (fuel : Nat) : List Name → Res (Int × Out)
  | [] => .ok (-1, {})
  | a :: args =>
    if a = runes "check-syntax" then Command.checkSyntax.run x fuel args
    else if a = runes "generate" then Command.generate.run x fuel args
    else if a = runes "check" then Command.check.run x fuel args
    else if a = runes "show" then Command.show.run x fuel args
    else if a = runes "help" ∨ a = runes "-help" then .ok (0, (x.help none).foldl (Out.print x.stdout) {})
    else .ok (-1, {})

end Treerack
