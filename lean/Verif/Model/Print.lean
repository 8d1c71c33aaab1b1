import Verif.Model.Generate

/-
The text of the generated code: syntax.go:356-440 and the `generate` methods of chardefine.go:75-116,
choicedefine.go:155-257, sequencedefine.go:296-424, with the writes to the io.Writer and their errors.

The constants `gendoc` (gendoc.go) and `headCode` (head.go) are parameters.  Simplification: a write that fails writes
nothing.
-/

namespace Treerack

/-- An io.Writer: whether the write with the given number fails. -/
abbrev Writer := Nat → Bool

/-- What was written, and the number of writes. -/
structure Out where
  text : List Rune := []
  writes : Nat := 0
  deriving Repr, DecidableEq

/-- `fmt.Fprintf(w, ...)`, one write; `true` is an error. -/
def Out.write (w : Writer) (o : Out) (t : List Rune) : Out × Bool :=
  if w o.writes then ({ o with writes := o.writes + 1 }, true)
  else ({ text := o.text ++ t, writes := o.writes + 1 }, false)

/-- The functions `fprintf` and `fprint`, e.g. choicedefine.go:163-169, that do nothing after an error. -/
def Out.fprint (w : Writer) (x : Out × Bool) (t : List Rune) : Out × Bool := if x.2 then x else x.1.write w t

def Out.fprints (w : Writer) (x : Out × Bool) (ts : List (List Rune)) : Out × Bool := ts.foldl (Out.fprint w) x

/-- `%d` -/
def printInt : Int → List Rune
  | .ofNat n => itoa n
  | .negSucc n => 45 :: itoa (n + 1)

/-- syntaxhead.go:12-23: `Alias CommitType = 1 << iota`, where iota is 1. -/
def Commit.value (c : Commit) : Nat :=
  (if c.alias then 2 else 0) + (if c.whitespace then 4 else 0) + (if c.noWhitespace then 8 else 0) +
  (if c.keyword then 16 else 0) + (if c.noKeyword then 32 else 0) + (if c.failPass then 64 else 0) +
  (if c.root then 128 else 0) + (if c.userDefined then 256 else 0)

/-- A list as the writes `open`, `%d,` ..., `},`; nothing when the list is empty, e.g. chardefine.go:91-98. -/
def listWrites {α : Type} (opening : String) (item : α → List Rune) : List α → List (List Rune)
  | [] => []
  | l => runes opening :: l.map item ++ [runes "},"]

def intWrite (z : Int) : List Rune := printInt z ++ runes ","

def pairWrite (x : Int × Int) : List Rune := runes "{" ++ printInt x.1 ++ runes ", " ++ printInt x.2 ++ runes "},"

/-- chardefine.go:85-109, choicedefine.go:171-187, sequencedefine.go:312-341 -/
def parserWrites (n : Nat) (l : Lit) : List (List Rune) :=
  match l.kind with
  | .char not chars ranges =>
    [runes "var p" ++ itoa n ++ runes " = charParser{", runes "id: " ++ itoa l.id ++ runes ","] ++
    (if not then [runes "not: true,"] else []) ++
    listWrites "chars: []rune{" (fun c => intWrite (c : Nat)) chars ++
    listWrites "ranges: [][]rune{" (fun x => pairWrite ((x.1 : Nat), (x.2 : Nat))) ranges ++ [runes "};"]
  | .choice =>
    [runes "var p" ++ itoa n ++ runes " = choiceParser{",
      runes "id: " ++ itoa l.id ++ runes ", commit: " ++ itoa l.commit.value ++ runes ","] ++
    (if l.commit.userDefined then [runes "name: \"" ++ l.name ++ runes "\","] else []) ++
    listWrites "generalizations: []int{" (fun g => intWrite (g : Nat)) l.gens ++ [runes "};"]
  | .seq ranges allChars =>
    [runes "var p" ++ itoa n ++ runes " = sequenceParser{",
      runes "id: " ++ itoa l.id ++ runes ", commit: " ++ itoa l.commit.value ++ runes ","] ++
    (if l.commit.userDefined then [runes "name: \"" ++ l.name ++ runes "\","] else []) ++
    (if allChars then [runes "allChars: true,"] else []) ++
    listWrites "ranges: [][]int{" pairWrite ranges ++
    listWrites "generalizations: []int{" (fun g => intWrite (g : Nat)) l.gens ++ [runes "};"]

/-- chardefine.go:113-116, choicedefine.go:223-239, sequencedefine.go:377-406 -/
def builderWrites (n : Nat) (l : Lit) : List (List Rune) :=
  match l.kind with
  | .char _ _ _ => [runes "var b" ++ itoa n ++ runes " = charBuilder{};"]
  | .choice =>
    [runes "var b" ++ itoa n ++ runes " = choiceBuilder{",
      runes "id: " ++ itoa l.id ++ runes ", commit: " ++ itoa l.commit.value ++ runes ","] ++
    (if l.commit.alias then [] else [runes "name: \"" ++ l.name ++ runes "\","]) ++
    listWrites "generalizations: []int{" (fun g => intWrite (g : Nat)) l.gens ++ [runes "};"]
  | .seq ranges allChars =>
    [runes "var b" ++ itoa n ++ runes " = sequenceBuilder{",
      runes "id: " ++ itoa l.id ++ runes ", commit: " ++ itoa l.commit.value ++ runes ","] ++
    (if l.commit.alias then [] else [runes "name: \"" ++ l.name ++ runes "\","]) ++
    (if allChars then [runes "allChars: true,"] else []) ++
    listWrites "ranges: [][]int{" pairWrite ranges ++
    listWrites "generalizations: []int{" (fun g => intWrite (g : Nat)) l.gens ++ [runes "};"]

/-- choicedefine.go:196-201, 248-253, sequencedefine.go:350-355, 415-420 -/
def assignWrites (builder : Bool) (n : Nat) (field : Field) (refs : List Nat) : List (List Rune) :=
  let v := if builder then "b" else "p"
  [runes v ++ itoa n ++ runes (match field with | .options => ".options" | .items => ".items") ++ runes " = []" ++
    runes (if builder then "builder" else "parser") ++ runes "{"] ++
  refs.map (fun r => runes "&" ++ runes v ++ itoa r ++ runes ",") ++ [runes "};"]

/-- The loops over the options or items, e.g. choicedefine.go:190-194; `true` is an error. -/
def generateAllTo (rec : Ptr → List Name → Out → Res (List Name × Out × Bool)) :
    List Ptr → List Name → Out → Res (List Name × Out × Bool)
  | [], done, o => .ok (done, o, false)
  | p :: ps, done, o =>
    (rec p done o).bind fun (done, o, e) => if e then .ok (done, o, true) else generateAllTo rec ps done o

/-- The `generate` methods, see `generate`.  The error of the own writes is returned at the end, when the options or
items have been written. -/
def generateTo (env : Env) (key : PDef → Name) (declare : PDef → List (List Rune)) (builder : Bool) (w : Writer) :
    Nat → Ptr → List Name → Out → Res (List Name × Out × Bool)
  | 0, _, _, _ => .oof
  | n + 1, p, done, o =>
    match env.defs[p]? with
    | none => .panic
    | some d =>
      let x := Out.fprints w (o, false) (declare d)
      let go (field : Field) (children : List Ptr) : Res (List Name × Out × Bool) :=
        if done.contains (key d) then .ok (done, o, false)
        else if children.isEmpty then .ok (key d :: done, x.1, x.2)
        else
          (generateAllTo (generateTo env key declare builder w n) children (key d :: done) x.1).bind fun (done, o, e) =>
            if e then .ok (done, o, true)
            else
              (nodeIDs env children).bind fun ids =>
                let y := Out.fprints w (o, x.2) (assignWrites builder d.id field ids)
                .ok (done, y.1, y.2)
      match d.kind with
      | .char _ _ _ => .ok (done, x.1, x.2)
      | .choice options => go .options options
      | .seq items _ _ => go .items items

/-- syntax.go:28-31 -/
structure GeneratorOptions where
  packageName : Name := []
  exported : Bool := false
  deriving Repr, DecidableEq

/-- The constants gendoc and headCode. -/
structure GenConstants where
  gendoc : List Rune
  headCode : List Rune

inductive GenErr where
  | syntax (e : SynErr)
  | write

/-- syntax.go:385-404: the writes in front of the parsers. -/
def headWrites (k : GenConstants) (o : GeneratorOptions) : List (List Rune) :=
  let nl := runes "\n"
  [k.gendoc, nl, nl, runes "package " ++ (if o.packageName = [] then runes "main" else o.packageName), nl, nl,
    k.headCode, nl, nl,
    if o.exported then runes "func Parse(r io.Reader) (*Node, error) {" else runes "func parse(r io.Reader) (*Node, error) {", nl]

/-- syntax.go:424-437: the writes behind the builders. -/
def closingWrites (keywords : List Nat) (rootParser rootBuilder : Nat) : List (List Rune) :=
  let nl := runes "\n"
  [nl, nl, runes "var keywords = []parser{"] ++ keywords.map (fun k => runes "&p" ++ itoa k ++ runes ", ") ++
  [runes "}", nl, nl,
    runes "return parseInput(r, &p" ++ itoa rootParser ++ runes ", &b" ++ itoa rootBuilder ++ runes ", keywords)", nl,
    runes "}", nl]

/-- syntax.go:385-439, for the parsers of an initialized syntax; `true` is the error of a write.  The error of the
writes of this function itself is not returned. -/
def generateCode (env : Env) (root : Ptr) (k : GenConstants) (opts : GeneratorOptions) (w : Writer) : Res (Out × Bool) :=
  let fuel := env.defs.length + 1
  let x := Out.fprints w ({}, false) (headWrites k opts)
  let parsers := generateTo env PDef.pname (fun d => parserWrites d.id d.parserLit) false w fuel
  let builders := generateTo env PDef.name (fun d => builderWrites d.id d.builderLit) true w fuel
  (generateAllTo parsers env.keywords [] x.1).bind fun (done, o, e) =>
    if e then .ok (o, true)
    else
      let x := Out.fprint w (o, x.2) (runes "\n")
      (parsers root done x.1).bind fun (_, o, e) =>
        if e then .ok (o, true)
        else
          (builders root [] o).bind fun (_, o, e) =>
            if e then .ok (o, true)
            else
              (nodeIDs env env.keywords).bind fun ks =>
                (nodeIDs env [root]).bind fun rs =>
                  .ok ((Out.fprints w (o, x.2) (closingWrites ks (rs.headD 0) (rs.headD 0))).1, false)

/-- syntax.go:356-440 -/
def Syntax.GenerateTo (s : Syntax) (k : GenConstants) (opts : GeneratorOptions) (w : Writer) :
    Res (Syntax × Out × Option GenErr) :=
  s.Init.bind fun (s, e) =>
    match e with
    | some e => .ok (s, {}, some (.syntax e))
    | none =>
      match s.root with
      | none => .panic
      | some root =>
        (generateCode s.env root k opts w).bind fun (o, e) => .ok (s, o, if e then some .write else none)

end Treerack
