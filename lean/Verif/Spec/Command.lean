import Verif.Model.Cmd

/-
Specification: the sources given to a command, and the printed tree.
-/

namespace Treerack.Spec

/-- A source that was given explicitly. -/
inductive Origin where
  | file (name : Name)
  | inline (text : List Rune)
  deriving Repr, DecidableEq

/-- The explicit sources: the positional arguments, the file option and the inline option; an option that is
not given or empty is no source. -/
def explicit (o : FileOptions) : List Origin :=
  o.positional.map .file ++ (if o.fileName = [] then [] else [.file o.fileName]) ++
    (if o.inline = [] then [] else [.inline o.inline])

/-- What reading an explicit source delivers; `none` when the file cannot be opened. -/
def Origin.read (w : World) : Origin → Option Stream
  | .file n => w.files n
  | .inline t => some (t, none)

/-- What a command should read: its only explicit source, or the standard input when there is none; nothing
when there is more than one. -/
def chosen (o : FileOptions) (w : World) : Option Stream :=
  match explicit o with
  | [] => w.stdin
  | [x] => x.read w
  | _ => none

/-- The node found by following the child numbers of a path. -/
def nodeAt : List Nat → Node → Option Node
  | [], n => some n
  | i :: is, n => (n.nodes[i]?).bind (nodeAt is)

/-- The same in a printed tree. -/
def outAt : List Nat → OutNode → Option OutNode
  | [], n => some n
  | i :: is, n => (n.nodes[i]?).bind (outAt is)

/-- The printed node shows the node of the parse tree of `input`; only leaves have text. -/
structure Shows (input : List Rune) (m : Node) (o : OutNode) : Prop where
  name : o.name = m.name
  from_ : o.from_ = m.from_
  to : o.to = m.to
  children : o.nodes.length = m.nodes.length
  leaf : m.nodes = [] → o.text = (input.drop m.from_).take (m.to - m.from_)
  inner : m.nodes ≠ [] → o.text = []

/-- Both or none of them are there, and the second one shows the first one. -/
def ShowsOpt (input : List Rune) : Option Node → Option OutNode → Prop
  | some m, some o => Shows input m o
  | none, none => True
  | _, _ => False

/-- The printed tree has the same nodes at the same places. -/
def Printed (input : List Rune) (t : Node) (o : OutNode) : Prop :=
  ∀ path, ShowsOpt input (nodeAt path t) (outAt path o)

end Treerack.Spec
