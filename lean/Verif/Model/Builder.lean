import Verif.Model.Parser

/-
char.go:54-59, choice.go:126-181, sequence.go:131-227 (build), nodehead.go, context.go:134-176,
syntaxhead.go:85-105.
-/

namespace Treerack

/-- nodehead.go:5-10 -/
inductive Node where
  | mk (name : Name) (from_ to : Nat) (tokens : List Rune) (nodes : List Node)
  deriving Repr

namespace Node
def name : Node → Name | mk n _ _ _ _ => n
def from_ : Node → Nat | mk _ f _ _ _ => f
def to : Node → Nat | mk _ _ t _ _ => t
/-- nodehead.go:12-14 -/
def tokens : Node → List Rune | mk _ _ _ ts _ => ts
def nodes : Node → List Node | mk _ _ _ _ ns => ns
/-- nodehead.go:20-22; slicing out of range panics. -/
def text (n : Node) : Res (List Rune) :=
  if n.from_ ≤ n.to ∧ n.to ≤ n.tokens.length then .ok ((n.tokens.take n.to).drop n.from_) else .panic
end Node

/-- choice.go:139-142 and sequence.go:155-158: drop the match of the definition and of its
generalizations. -/
def dropAll (offset to : Nat) : List Nat → Results → Res Results
  | [], r => .ok r
  | id :: ids, r => (r.dropMatchTo offset id to).bind fun r => dropAll offset to ids r

/-- choice.go:148-151 and sequence.go:164-168 -/
def markAll (offset : Nat) (ids : List Nat) (r : Results) : Results :=
  ids.foldl (fun r id => r.markPending offset id) r

/-- choice.go:164-167 and sequence.go:208-211 -/
def unmarkAll (offset : Nat) : List Nat → Results → Res Results
  | [], r => .ok r
  | id :: ids, r => (r.unmarkPending offset id).bind fun r => unmarkAll offset ids r

/-- choice.go:154-160: the first option with a match to `to`; `none` stays a nil interface. -/
def findOption (env : Env) (r : Results) (offset to : Nat) : List Ptr → Res (Option Ptr)
  | [] => .ok none
  | o :: os =>
    match env.defs[o]? with
    | none => .panic
    | some d => if r.hasMatchTo offset d.id to then .ok (some o) else findOption env r offset to os

/-- choice.go:129-181; the result `none` is the Go result `(nil, false)`. -/
def choiceBuild (rec : Ptr → Ctx → Res (Option (List Node) × Ctx)) (env : Env)
    (d : PDef) (options : List Ptr) (c : Ctx) : Res (Option (List Node) × Ctx) :=
  match c.res.longestMatch c.offset d.id with
  | none => .ok (none, c)
  | some to =>
    let from_ := c.offset
    let parsed := decide (to > from_)
    if !parsed && c.res.pending from_ d.id then .ok (none, c)
    else
      (if parsed then dropAll from_ to (d.id :: d.gens) c.res
       else .ok (markAll from_ (d.id :: d.gens) c.res)).bind fun r =>
        let c := { c with res := r }
        (findOption env c.res from_ to options).bind fun option =>
          match option with
          | none => .panic
          | some o =>
            (rec o c).bind fun (n, c) =>
              let n := n.getD []
              (if parsed then .ok c.res else unmarkAll from_ (d.id :: d.gens) c.res).bind fun r =>
                let c := { c with res := r }
                if d.commit.alias then .ok (some n, c)
                else .ok (some [Node.mk d.name from_ to c.tokens n], c)

/-- sequence.go:175-204.  The budget bounds the number of iterations. -/
def seqBuildLoop (rec : Ptr → Ctx → Res (Option (List Node) × Ctx)) :
    Nat → List (Ptr × (Int × Int)) → Nat → List Node → Ctx → Res (List Node × Ctx)
  | 0, _, _, _, _ => .oof
  | _ + 1, [], _, nodes, c => .ok (nodes, c)
  | n + 1, (item, (mn, mx)) :: rest, currentCount, nodes, c =>
    let itemFrom := c.offset
    (rec item c).bind fun (ns, c) =>
      match ns with
      | none => seqBuildLoop rec n rest 0 nodes c
      | some ns =>
        if c.offset > itemFrom then
          let nodes := nodes ++ ns
          let currentCount := currentCount + 1
          if decide (mx > 0) && (currentCount : Int) == mx then
            seqBuildLoop rec n rest 0 nodes c
          else seqBuildLoop rec n ((item, (mn, mx)) :: rest) currentCount nodes c
        else
          let nodes := nodes ++ (List.replicate (mn - currentCount).toNat ns).flatten
          seqBuildLoop rec n rest 0 nodes c

/-- sequence.go:131-227 -/
def seqBuild (rec : Ptr → Ctx → Res (Option (List Node) × Ctx)) (lfuel : Nat)
    (d : PDef) (items : List Ptr) (ranges : List (Int × Int)) (allChars : Bool) (c : Ctx) :
    Res (Option (List Node) × Ctx) :=
  match c.res.longestMatch c.offset d.id with
  | none => .ok (none, c)
  | some to =>
    let from_ := c.offset
    let parsed := decide (to > from_)
    if allChars then
      let c := { c with offset := to }
      if d.commit.alias then .ok (some [], c)
      else .ok (some [Node.mk d.name from_ to c.tokens []], c)
    else if !parsed && c.res.pending from_ d.id then .ok (none, c)
    else
      (if parsed then dropAll from_ to (d.id :: d.gens) c.res
       else .ok (markAll from_ (d.id :: d.gens) c.res)).bind fun r =>
        let c := { c with res := r }
        (seqBuildLoop rec lfuel (items.zip ranges) 0 [] c).bind fun (nodes, c) =>
          (if parsed then .ok c.res else unmarkAll from_ (d.id :: d.gens) c.res).bind fun r =>
            let c := { c with res := r }
            if d.commit.alias then .ok (some nodes, c)
            else .ok (some [Node.mk d.name from_ to c.tokens nodes], c)

/-- The `build` methods: char.go:57, choice.go:129, sequence.go:134. -/
def build (env : Env) : Nat → Ptr → Ctx → Res (Option (List Node) × Ctx)
  | 0, _, _ => .oof
  | n + 1, p, c =>
    match env.defs[p]? with
    | none => .panic
    | some d =>
      match d.kind with
      | .char _ _ _ => .ok (none, c)
      | .choice options => choiceBuild (build env n) env d options c
      | .seq items ranges allChars => seqBuild (build env n) (n + 1) d items ranges allChars c

/-- `p.nodeName()` of a parser address; a dangling address is a nil dereference. -/
def Env.nodeName (env : Env) (p : Ptr) : Res Name :=
  match env.defs[p]? with
  | some d => .ok d.pname
  | none => .panic

/-- context.go:134-153 -/
def parseError (env : Env) (c : Ctx) (p : Ptr) : Res Err :=
  (env.nodeName p).bind fun n =>
    let failOffset : Int := if c.failing == none then (c.consumed : Int) else c.failOffset
    (findLine c.tokens failOffset).bind fun (line, col) =>
      .ok (.parseError failOffset.toNat line col (definitionPart n))

/-- context.go:155-176; the result is the returned error (or nil) and the context. -/
def finalizeParse (env : Env) (c : Ctx) (root : Ptr) : Res (Option Err × Ctx) :=
  let fp := c.failing.getD root
  match env.defs[root]? with
  | none => .panic
  | some d =>
    let failed := match c.res.longestResult 0 d.id with
      | none => true
      | some none => true
      | some (some to) => decide (to < c.readOffset)
    if failed then (parseError env c fp).bind fun e => .ok (some e, c)
    else
      let c := c.read.2
      if c.eof then .ok (none, c)
      else
        match c.readErr with
        | some e => .ok (some e, c)
        | none => (parseError env c root).bind fun e => .ok (some e, c)

/-- syntaxhead.go:85-105 `parseInput`.  Indexing `n[0]` panics when nothing was built. `fuel` is the
recursion budget. -/
def parseInput (env : Env) (fuel : Nat) (root : Ptr) (reader : List Rune) (readerEnd : Option Nat) :
    Res (Except Err Node) :=
  (parse env fuel root (newContext reader readerEnd)).bind fun c =>
    match c.readErr with
    | some e => .ok (.error e)
    | none =>
      (finalizeParse env c root).bind fun (err, c) =>
        match err with
        | some e => .ok (.error e)
        | none =>
          let c := { c with offset := 0, res := c.res.resetPending }
          (build env fuel root c).bind fun (n, _) =>
            match n with
            | some (n :: _) => .ok (.ok n)
            | _ => .panic

/-- syntaxhead.go:85-105 `parseInput` again, for separate parser and builder objects: `penv` and `p` are the parsers
(with the keywords), `benv` and `b` are the builders. -/
def parseWith (penv benv : Env) (fuel : Nat) (p b : Ptr) (reader : List Rune) (readerEnd : Option Nat) :
    Res (Except Err Node) :=
  (parse penv fuel p (newContext reader readerEnd)).bind fun c =>
    match c.readErr with
    | some e => .ok (.error e)
    | none =>
      (finalizeParse penv c p).bind fun (err, c) =>
        match err with
        | some e => .ok (.error e)
        | none =>
          let c := { c with offset := 0, res := c.res.resetPending }
          (build benv fuel b c).bind fun (n, _) =>
            match n with
            | some (n :: _) => .ok (.ok n)
            | _ => .panic

/-- The objects of an initialized syntax are both parsers and builders. -/
theorem parseInput_eq (env : Env) (fuel : Nat) (root : Ptr) (reader : List Rune) (readerEnd : Option Nat) :
    parseInput env fuel root reader readerEnd = parseWith env env fuel root root reader readerEnd := rfl

end Treerack
