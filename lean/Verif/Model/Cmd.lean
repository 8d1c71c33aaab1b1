import Verif.Model.Define
import Verif.Model.Self

/-
cmd/treerack: the sources of the commands and the commands check-syntax, check and show, after the flags have
been parsed.  Not modelled: the flag package, the help texts, the messages written to stderr, the encoding of
the printed tree as JSON text.
-/

namespace Treerack

/-- What an io.Reader delivers: characters, and then io.EOF (`none`) or an error. -/
abbrev Stream := List Rune × Option Nat

/-- open.go:14-21: the values of the flags and the positional arguments. -/
structure FileOptions where
  inline : List Rune := []
  fileName : Name := []
  positional : List Name := []
  deriving Repr, DecidableEq

/-- The files that can be opened, and the standard input: `none` is a terminal. -/
structure World where
  files : Name → Option Stream
  stdin : Option Stream

/-- open.go:52-61: the loop over `[]bool{hasPositional, hasFile, hasInline}`; `true` is the error. -/
def multipleLoop : List Bool → Bool → Bool
  | [], _ => false
  | h :: hs, has => if h && has then true else multipleLoop hs h

/-- The results of `getSource`: `none` is the code -1. -/
structure Source where
  hasInput : Bool := false
  fileName : Name := []
  inline : List Rune := []
  deriving Repr, DecidableEq

/-- open.go:41-85 -/
def FileOptions.getSource (o : FileOptions) (w : World) : Option Source :=
  if o.positional.length > 1 then none
  else
    let hasPositional := o.positional.length == 1
    let hasFile := o.fileName != []
    let hasInline := o.inline != []
    if multipleLoop [hasPositional, hasFile, hasInline] false then none
    else
      match o.positional with
      | p :: _ => some { fileName := p }
      | [] =>
        if hasFile then some { fileName := o.fileName }
        else if hasInline then some { inline := o.inline }
        else if w.stdin.isSome then some { hasInput := true }
        else none

/-- open.go:87-109; `none` is the code -1. -/
def FileOptions.open (o : FileOptions) (w : World) : Option Stream :=
  (o.getSource w).bind fun x =>
    if x.hasInput then w.stdin
    else if x.fileName ≠ [] then w.files x.fileName
    else some (x.inline, none)

/-- The world after reading: the standard input is at its end once it was read.  A syntax is read to the end of
the input when it is read successfully. -/
def FileOptions.after (o : FileOptions) (w : World) : World :=
  match o.getSource w with
  | some x => if x.hasInput then { w with stdin := w.stdin.map fun _ => ([], none) } else w
  | none => w

/-- open.go:111-126; `none` is the code -1. -/
def FileOptions.openSyntax (o : FileOptions) (w : World) (fuel : Nat) : Res (Option Syntax) :=
  match o.open w with
  | none => .ok none
  | some (r, e) =>
    (({} : Syntax).ReadSyntax (selfParse fuel r e)).bind fun (s, err) =>
      match err with
      | some _ => .ok none
      | none => .ok (some s)

/-- checksyntax.go:19-35: the exit code. -/
def checkSyntaxCmd (w : World) (fuel : Nat) (syn : FileOptions) : Res Int :=
  (syn.openSyntax w fuel).bind fun s =>
    match s with
    | none => .ok (-1)
    | some s => s.Init.bind fun (_, err) => .ok (if err.isSome then -1 else 0)

/-- show.go:17-23 -/
inductive OutNode where
  | mk (name : Name) (from_ to : Nat) (text : List Rune) (nodes : List OutNode)
  deriving Repr

namespace OutNode
def name : OutNode → Name | mk n _ _ _ _ => n
def from_ : OutNode → Nat | mk _ f _ _ _ => f
def to : OutNode → Nat | mk _ _ t _ _ => t
def text : OutNode → List Rune | mk _ _ _ ts _ => ts
def nodes : OutNode → List OutNode | mk _ _ _ _ ns => ns
end OutNode

/-- show.go:25-41 -/
def mapNode : Node → Res OutNode
  | .mk name f t ts [] => (Node.text (.mk name f t ts [])).bind fun text => .ok (.mk name f t text [])
  | .mk name f t _ (n :: ns) => (go (n :: ns)).bind fun nodes => .ok (.mk name f t [] nodes)
where
  go : List Node → Res (List OutNode)
  | [] => .ok []
  | n :: ns => (mapNode n).bind fun n => (go ns).bind fun ns => .ok (n :: ns)

/-- check.go:22-47: opening and parsing, shared with show.go:60-85. `none` is the code -1. -/
def parseCmd (w : World) (fuel : Nat) (syn inp : FileOptions) : Res (Option Node) :=
  (syn.openSyntax w fuel).bind fun s =>
    match s with
    | none => .ok none
    | some s =>
      match inp.open (syn.after w) with
      | none => .ok none
      | some (r, e) =>
        (s.Parse fuel r e).bind fun (_, x) =>
          match x with
          | .node n => .ok (some n)
          | _ => .ok none

/-- check.go:22-47: the exit code. -/
def checkCmd (w : World) (fuel : Nat) (syn inp : FileOptions) : Res Int :=
  (parseCmd w fuel syn inp).bind fun n => .ok (if n.isSome then 0 else -1)

/-- show.go:60-109: the exit code and the printed tree. -/
def showCmd (w : World) (fuel : Nat) (syn inp : FileOptions) : Res (Int × Option OutNode) :=
  (parseCmd w fuel syn inp).bind fun n =>
    match n with
    | none => .ok (-1, none)
    | some n => (mapNode n).bind fun o => .ok (0, some o)

end Treerack
