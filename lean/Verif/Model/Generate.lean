import Verif.Model.Syntax

/-
syntax.go:356-440 and the `generate` methods of chardefine.go:75-116, choicedefine.go:155-257,
sequencedefine.go:296-424: the generated parsers.

The generated code is a function body with declarations `var p1 = sequenceParser{...};`, assignments
`p1.items = []parser{&p2,...};`, the same for the builders (`b1`), then the list of the keywords and the
call of `parseInput`.  This module keeps the statements instead of their text; the text, the head of the file,
the options and the errors of the writer are in Print.lean.
-/

namespace Treerack

/-- The kind specific fields in a declaration. -/
inductive LitKind where
  | char (not : Bool) (chars : List Rune) (ranges : List (Rune × Rune))
  | choice
  | seq (ranges : List (Int × Int)) (allChars : Bool)
  deriving Repr, DecidableEq

/-- The composite literal of a declaration; the fields that are not printed have the zero value. -/
structure Lit where
  name : Name := []
  id : Nat := 0
  commit : Commit := {}
  gens : List Nat := []
  kind : LitKind
  deriving Repr, DecidableEq

/-- The field that an assignment is about. -/
inductive Field where
  | options
  | items
  deriving Repr, DecidableEq

/-- A statement about the variable `p<n>` or `b<n>`. -/
inductive Stmt where
  /-- `var p<n> = choiceParser{...};` -/
  | declare (n : Nat) (l : Lit)
  /-- `p<n>.options = []parser{&p1, ...};` or `p<n>.items = []parser{&p1, ...};` -/
  | assign (n : Nat) (field : Field) (refs : List Nat)
  deriving Repr, DecidableEq

/-- The body of the generated function. -/
structure Program where
  /-- The statements about the parsers, they come first. -/
  parsers : List Stmt
  /-- The statements about the builders. -/
  builders : List Stmt
  /-- `var keywords = []parser{&p1, ...}` -/
  keywords : List Nat
  /-- `return parseInput(r, &p<rootParser>, &b<rootBuilder>, keywords)` -/
  rootParser : Nat
  rootBuilder : Nat
  deriving Repr, DecidableEq

namespace PDef

/-- The literals in chardefine.go:75-111, choicedefine.go:155-205, sequencedefine.go:296-359. -/
def parserLit (d : PDef) : Lit :=
  match d.kind with
  | .char not chars ranges => { id := d.id, kind := .char not chars ranges }
  | .choice _ =>
    { name := if d.commit.userDefined then d.pname else [], id := d.id, commit := d.commit, gens := d.gens,
      kind := .choice }
  | .seq _ ranges allChars =>
    { name := if d.commit.userDefined then d.pname else [], id := d.id, commit := d.commit, gens := d.gens,
      kind := .seq ranges allChars }

/-- The literals in chardefine.go:113-116, choicedefine.go:207-257, sequencedefine.go:361-424. -/
def builderLit (d : PDef) : Lit :=
  match d.kind with
  | .char _ _ _ => { kind := .char false [] [] }
  | .choice _ =>
    { name := if d.commit.alias then [] else d.name, id := d.id, commit := d.commit, gens := d.gens,
      kind := .choice }
  | .seq _ ranges allChars =>
    { name := if d.commit.alias then [] else d.name, id := d.id, commit := d.commit, gens := d.gens,
      kind := .seq ranges allChars }

end PDef

/-- `p.items[i].nodeID()` for all the items; a dangling address is a nil dereference. -/
def nodeIDs (env : Env) : List Ptr → Res (List Nat)
  | [] => .ok []
  | p :: ps =>
    match env.defs[p]? with
    | none => .panic
    | some d => (nodeIDs env ps).bind fun ids => .ok (d.id :: ids)

/-- The loops over the options or items, e.g. choicedefine.go:190-194. -/
def generateAll (rec : Ptr → List Name → Res (List Stmt × List Name)) :
    List Ptr → List Name → Res (List Stmt × List Name)
  | [], done => .ok ([], done)
  | p :: ps, done =>
    (rec p done).bind fun (ss, done) =>
      (generateAll rec ps done).bind fun (ss', done) => .ok (ss ++ ss', done)

/-- The `generate` methods.  `key` is the name of the object, `lit` is its literal, `done` are the names that were
already generated; the characters do not look at them. -/
def generate (env : Env) (key : PDef → Name) (lit : PDef → Lit) : Nat → Ptr → List Name → Res (List Stmt × List Name)
  | 0, _, _ => .oof
  | n + 1, p, done =>
    match env.defs[p]? with
    | none => .panic
    | some d =>
      let go (field : Field) (children : List Ptr) : Res (List Stmt × List Name) :=
        if done.contains (key d) then .ok ([], done)
        else
          (generateAll (generate env key lit n) children (key d :: done)).bind fun (ss, done) =>
            if children.isEmpty then .ok (.declare d.id (lit d) :: ss, done)
            else
              (nodeIDs env children).bind fun ids =>
                .ok (.declare d.id (lit d) :: ss ++ [.assign d.id field ids], done)
      match d.kind with
      | .char _ _ _ => .ok ([.declare d.id (lit d)], done)
      | .choice options => go .options options
      | .seq items _ _ => go .items items

/-- syntax.go:398-438, for the parsers of an initialized syntax. -/
def generateProgram (env : Env) (root : Ptr) : Res Program :=
  let fuel := env.defs.length + 1
  (generateAll (generate env PDef.pname PDef.parserLit fuel) (env.keywords ++ [root]) []).bind fun (ps, _) =>
    (generate env PDef.name PDef.builderLit fuel root []).bind fun (bs, _) =>
      (nodeIDs env env.keywords).bind fun ks =>
        (nodeIDs env [root]).bind fun rs =>
          .ok { parsers := ps, builders := bs, keywords := ks, rootParser := rs.headD 0, rootBuilder := rs.headD 0 }

/-- syntax.go:356-440 -/
def Syntax.Generate (s : Syntax) : Res (Syntax × Except SynErr Program) :=
  s.Init.bind fun (s, e) =>
    match e with
    | some e => .ok (s, .error e)
    | none =>
      match s.root with
      | none => .panic
      | some root => (generateProgram s.env root).bind fun p => .ok (s, .ok p)

/-! ### Running the generated code -/

/-- The object of a declared variable, before the options or items are assigned. -/
def Lit.toPDef (l : Lit) : PDef :=
  { pname := l.name, name := l.name, id := l.id, gens := l.gens
    commit := match l.kind with
      | .char _ _ _ => { alias := true }
      | _ => l.commit
    kind := match l.kind with
      | .char not chars ranges => .char not chars ranges
      | .choice => .choice []
      | .seq ranges allChars => .seq [] ranges allChars }

/-- `p<n>.options = ...`, `p<n>.items = ...`; the program is not accepted by the compiler when there is no such field. -/
def PDef.assign (d : PDef) (field : Field) (refs : List Nat) : PDef :=
  match d.kind, field with
  | .choice _, .options => { d with kind := .choice refs }
  | .seq _ ranges allChars, .items => { d with kind := .seq refs ranges allChars }
  | _, _ => d

/-- The variables and their objects. -/
abbrev Vars := List (Nat × PDef)

def Stmt.exec : Stmt → Vars → Vars
  | .declare n l, vs => (n, l.toPDef) :: vs
  | .assign n field refs, vs => vs.map fun v => if v.1 == n then (v.1, v.2.assign field refs) else v

def execAll (ss : List Stmt) : Vars := ss.foldl (fun vs st => st.exec vs) []

/-- What is found at the numbers that are not used by a variable; nothing refers to them. -/
def unusedVar : PDef := { pname := [], name := [], id := 0, commit := {}, gens := [], kind := .char false [] [] }

/-- The objects, where the address of an object is the number in the name of its variable. -/
def Vars.defs (vs : Vars) : List PDef :=
  (List.range ((vs.map Prod.fst).foldl max 0 + 1)).map fun n => (vs.lookup n).getD unusedVar

def Program.parserEnv (p : Program) : Env := { defs := (execAll p.parsers).defs, keywords := p.keywords }

def Program.builderEnv (p : Program) : Env := { defs := (execAll p.builders).defs, keywords := [] }

/-- The generated function. -/
def Program.run (p : Program) (fuel : Nat) (reader : List Rune) (readerEnd : Option Nat) : Res (Except Err Node) :=
  parseWith p.parserEnv p.builderEnv fuel p.rootParser p.rootBuilder reader readerEnd

end Treerack
