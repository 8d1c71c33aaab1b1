import Verif.Model.Main
import Verif.Model.Generate

/-
Specification: the arguments of a command.
-/

namespace Treerack.Spec

/-- A value written for a flag. -/
inductive Writes : FlagKind → List Rune → FlagValue → Prop
  | string (t : List Rune) : Writes .string t (.string t)
  | yes {t : List Rune} : t ∈ ["1", "t", "T", "true", "TRUE", "True"].map runes → Writes .bool t (.bool true)
  | no {t : List Rune} : t ∈ ["0", "f", "F", "false", "FALSE", "False"].map runes → Writes .bool t (.bool false)

/-- One or two dashes. -/
def Dashes (d : List Rune) : Prop := d = [45] ∨ d = [45, 45]

/-- The arguments give the flags `fs`, in this order, and the positional arguments `rest`: the flags end at the end of the
arguments, in front of an argument that is not a flag (it does not start with a dash, or it is a single dash), or at two
dashes. -/
inductive Flags (formal : Name → Option FlagKind) : List Name → List (Name × FlagValue) → List Name → Prop
  | nil : Flags formal [] [] []
  | positional {a : Name} {args : List Name} : a.head? ≠ some 45 ∨ a = [45] → Flags formal (a :: args) [] (a :: args)
  | terminator {args : List Name} : Flags formal ([45, 45] :: args) [] args
  | assigned {d name text : List Rune} {k : FlagKind} {v : FlagValue} {args : List Name} {fs : List (Name × FlagValue)}
      {rest : List Name} : Dashes d → formal name = some k → Writes k text v → Flags formal args fs rest →
      Flags formal ((d ++ name ++ 61 :: text) :: args) ((name, v) :: fs) rest
  | separate {d name text : List Rune} {args : List Name} {fs : List (Name × FlagValue)} {rest : List Name} :
      Dashes d → formal name = some .string → Flags formal args fs rest →
      Flags formal ((d ++ name) :: text :: args) ((name, .string text) :: fs) rest
  | switch {d name : List Rune} {args : List Name} {fs : List (Name × FlagValue)} {rest : List Name} :
      Dashes d → formal name = some .bool → Flags formal args fs rest →
      Flags formal ((d ++ name) :: args) ((name, .bool true) :: fs) rest

/-- The documented flags of the commands. -/
def documented (c : Command) (name : Name) : Option FlagKind :=
  if name = runes "syntax" ∨ name = runes "syntax-string" then some .string
  else if (name = runes "input" ∨ name = runes "input-string") ∧ (c = .check ∨ c = .show) then some .string
  else if name = runes "pretty" ∧ c = .show then some .bool
  else if name = runes "indent" ∧ c = .show then some .string
  else if name = runes "export" ∧ c = .generate then some .bool
  else if name = runes "package-name" ∧ c = .generate then some .string
  else none

/-- The last value given for the flag. -/
def given (fs : List (Name × FlagValue)) (name : String) : Option FlagValue :=
  (fs.reverse.find? fun x => x.1 == runes name).map Prod.snd

/-- A string flag, empty when it is not given. -/
def stringFlag (fs : List (Name × FlagValue)) (name : String) : List Rune :=
  match given fs name with
  | some (.string t) => t
  | _ => []

/-- A boolean flag, false when it is not given. -/
def boolFlag (fs : List (Name × FlagValue)) (name : String) : Bool :=
  match given fs name with
  | some (.bool b) => b
  | _ => false

/-- The source of the syntax, for the commands that take only a syntax with the positional arguments. -/
def syntaxSource (fs : List (Name × FlagValue)) (positional : List Name) : FileOptions :=
  { inline := stringFlag fs "syntax-string", fileName := stringFlag fs "syntax", positional := positional }

/-- The source of the input. -/
def inputSource (fs : List (Name × FlagValue)) (positional : List Name) : FileOptions :=
  { inline := stringFlag fs "input-string", fileName := stringFlag fs "input", positional := positional }

/-- The name of a command. -/
def commandName : Command → Name
  | .check => runes "check"
  | .show => runes "show"
  | .checkSyntax => runes "check-syntax"
  | .generate => runes "generate"

/-- A syntax can be read from the source. -/
def Reads (x : Surroundings) (fuel : Nat) (src : FileOptions) (s : Syntax) : Prop :=
  ∃ r e, src.open x.world = some (r, e) ∧ ({} : Syntax).ReadSyntax (selfParse fuel r e) = .ok (s, none)

/-- A syntax can be read from its source, and the text of the source of the input has the tree `t`. -/
def Parses (x : Surroundings) (fuel : Nat) (syn inp : FileOptions) (input : List Rune) (t : Node) : Prop :=
  ∃ s e s', Reads x fuel syn s ∧ inp.open (syn.after x.world) = some (input, e) ∧ s.Parse fuel input e = .ok (s', .node t)

/-- What is asked for by a command line can be done. -/
inductive Possible (x : Surroundings) (fuel : Nat) : List Name → Prop
  | help {a : Name} {args : List Name} : a = runes "help" ∨ a = runes "-help" → Possible x fuel (a :: args)
  | commandHelp (c : Command) {args : List Name} : Possible x fuel (commandName c :: runes "-help" :: args)
  | parse {c : Command} {args fs rest} {input : List Rune} {t : Node} : c = .check ∨ c = .show →
      args.head? ≠ some (runes "-help") → Flags (documented c) args fs rest →
      Parses x fuel (syntaxSource fs []) (inputSource fs rest) input t → Possible x fuel (commandName c :: args)
  | checkSyntax {args fs rest} {s s' : Syntax} : args.head? ≠ some (runes "-help") →
      Flags (documented .checkSyntax) args fs rest → Reads x fuel (syntaxSource fs rest) s → s.Init = .ok (s', none) →
      Possible x fuel (runes "check-syntax" :: args)
  | generate {args fs rest} {s s' : Syntax} {prog : Program} : args.head? ≠ some (runes "-help") →
      Flags (documented .generate) args fs rest → Reads x fuel (syntaxSource fs rest) s →
      s.Generate = .ok (s', .ok prog) → Possible x fuel (runes "generate" :: args)

end Treerack.Spec
