import Verif.Model.Context

/-
char.go, choice.go, sequence.go (parse), context.go:93-106 (isKeyword).

The Go methods are mutually recursive through the `parser` interface.  The model uses open recursion:
the functions below take `rec`, the meaning of a nested `parse` call, and `parse` ties the knot with a
recursion budget `n`.  `Res.oof` stands for an exhausted budget.
-/

namespace Treerack

/-- The reporting condition that occurs four times in choice.go:82-85,113-116 and
sequence.go:69-72,98-101: the definition is user defined, not whitespace and not fail-pass. -/
def Commit.reports (ct : Commit) : Bool := ct.userDefined && !ct.whitespace && !ct.failPass

/-- choice.go:82-86,114-118, sequence.go:69-74,98-103: remember the first reporting parser. -/
def Ctx.setFailing (c : Ctx) (ct : Commit) (p : Ptr) : Ctx :=
  if c.failing == none && ct.reports then { c with failing := some p } else c

/-- char.go:40-52 -/
def charParse (not : Bool) (chars : List Rune) (ranges : List (Rune × Rune)) (c : Ctx) : Res Ctx :=
  c.token.bind fun (tok, c) =>
    let matched := match tok with
      | some t => matchChar chars ranges not t
      | none => false
    if matched then .ok (c.success (c.offset + 1))
    else
      let c := if (c.offset : Int) > c.failOffset then
          { c with failOffset := c.offset, failing := none } else c
      .ok (c.fail c.offset)

/-- The loop of context.go:97-103. -/
def isKeywordLoop (rec : Ptr → Ctx → Res Ctx) (from_ to : Nat) : List Ptr → Ctx → Res (Bool × Ctx)
  | [], c => .ok (false, c)
  | kw :: kws, c =>
    (rec kw { c with offset := from_ }).bind fun c =>
      if c.matchLast && c.offset == to then .ok (true, c)
      else isKeywordLoop rec from_ to kws c

/-- context.go:93-106; the deferred function restores `offsetLimit`. -/
def isKeyword (rec : Ptr → Ctx → Res Ctx) (keywords : List Ptr) (c : Ctx) (from_ to : Nat) :
    Res (Bool × Ctx) :=
  let ol := c.offsetLimit
  (isKeywordLoop rec from_ to keywords { c with offsetLimit := (to : Int) }).bind fun (b, c) =>
    .ok (b, { c with offsetLimit := ol })

/-- Local variables of choice.go:35-46. -/
structure ChoiceSt where
  c : Ctx
  mtch : Bool
  found : Bool
  to : Nat
  failOffset : Int
  failing : Option Ptr
  deriving Repr, DecidableEq

/-- choice.go:52-73: one pass over the options. -/
def choicePass (rec : Ptr → Ctx → Res Ctx) (id from_ : Nat) : List Ptr → ChoiceSt → Res ChoiceSt
  | [], st => .ok st
  | o :: os, st =>
    (rec o st.c).bind fun c =>
      let st := if !c.matchLast && decide (c.failOffset > st.failOffset) then
          { st with failOffset := c.failOffset, failing := c.failing } else st
      if !c.matchLast || (st.mtch && decide (c.offset ≤ st.to)) then
        choicePass rec id from_ os { st with c := { c with offset := from_ } }
      else
        choicePass rec id from_ os { st with
          mtch := true
          found := true
          to := c.offset
          c := { c with offset := from_, res := c.res.setMatch from_ id c.offset } }

/-- choice.go:48-78: repeat the pass until it does not find a (longer) match. -/
def choiceLoop (rec : Ptr → Ctx → Res Ctx) (id from_ : Nat) (options : List Ptr) :
    Nat → ChoiceSt → Res ChoiceSt
  | 0, _ => .oof
  | n + 1, st =>
    (choicePass rec id from_ options { st with found := false }).bind fun st =>
      if st.found then choiceLoop rec id from_ options n st else .ok st

/-- choice.go:110-123 and the end of the function: no option matched. -/
def choiceNoMatch (p : Ptr) (d : PDef) (from_ : Nat) (initialFailOffset : Int) (st : ChoiceSt) :
    Res Ctx :=
  let c := st.c
  let c := if st.failOffset > initialFailOffset then
      Ctx.setFailing { c with failOffset := st.failOffset, failing := st.failing } d.commit p
    else c
  let c := { c with res := c.res.setNoMatch from_ d.id }
  let c := c.fail from_
  (c.res.unmarkPending from_ d.id).bind fun r => .ok { c with res := r }

/-- choice.go:23-124.  `lfuel` is the budget of the `for` loop. -/
def choiceParse (rec : Ptr → Ctx → Res Ctx) (keywords : List Ptr) (lfuel : Nat)
    (p : Ptr) (d : PDef) (options : List Ptr) (c : Ctx) : Res Ctx :=
  match c.fromResults d.id with
  | some c' => .ok c'
  | none =>
    if c.res.pending c.offset d.id then .ok (c.fail c.offset)
    else
      let from_ := c.offset
      let initialFailOffset := c.failOffset
      let initialFailing := c.failing
      let c := { c with res := c.res.markPending from_ d.id }
      let st : ChoiceSt := { c := c, mtch := false, found := false, to := from_,
                             failOffset := initialFailOffset, failing := none }
      (choiceLoop rec d.id from_ options lfuel st).bind fun st =>
        if st.mtch then
          (if d.commit.noKeyword then isKeyword rec keywords st.c from_ st.to
           else .ok (false, st.c)).bind fun (kw, c) =>
            if kw then
              let c := c.setFailing d.commit p
              let c := c.fail from_
              (c.res.unmarkPending from_ d.id).bind fun r => .ok { c with res := r }
            else
              let c :=
                if st.failOffset > (st.to : Int) then
                  { c with failOffset := st.failOffset, failing := st.failing }
                else if (st.to : Int) > initialFailOffset then
                  { c with failOffset := -1, failing := none }
                else
                  { c with failOffset := initialFailOffset, failing := initialFailing }
              let c := c.success st.to
              (c.res.unmarkPending from_ d.id).bind fun r => .ok { c with res := r }
        else
          choiceNoMatch p d from_ initialFailOffset st

/-- sequence.go:62-63,78-80,103-106,126-128: `if !p.allChars { unmarkPending }`. -/
def unmarkUnless (allChars : Bool) (from_ id : Nat) (c : Ctx) : Res Ctx :=
  if allChars then .ok c
  else (c.res.unmarkPending from_ id).bind fun r => .ok { c with res := r }

/-- How the loop of sequence.go:46-95 ends: all items are done, or an item failed and the method has
returned with this context. -/
inductive SeqOut where
  | complete (to : Nat) (c : Ctx)
  | returned (c : Ctx)
  deriving Repr, DecidableEq

/-- sequence.go:53-81: an item failed before reaching its minimum. -/
def seqItemFailed (p : Ptr) (d : PDef) (allChars : Bool) (from_ to : Nat) (c : Ctx) : Res Ctx :=
  let c := { c with offset := from_ }
  match c.fromResults d.id with
  | some c =>
    let c := if (to : Int) > c.failOffset then { c with failOffset := -1, failing := none } else c
    unmarkUnless allChars from_ d.id c
  | none =>
    let c := c.setFailing d.commit p
    unmarkUnless allChars from_ d.id (c.fail from_)

/-- sequence.go:46-95.  The budget bounds the number of iterations. `items` are the items from
`itemIndex` on, paired with their ranges. -/
def seqLoop (rec : Ptr → Ctx → Res Ctx) (p : Ptr) (d : PDef) (allChars : Bool) (from_ : Nat) :
    Nat → List (Ptr × (Int × Int)) → Nat → Nat → Ctx → Res SeqOut
  | 0, _, _, _, _ => .oof
  | _ + 1, [], _, to, c => .ok (.complete to c)
  | n + 1, (item, (mn, mx)) :: rest, currentCount, to, c =>
    (rec item c).bind fun c =>
      if !c.matchLast then
        if (currentCount : Int) ≥ mn then
          seqLoop rec p d allChars from_ n rest 0 to c
        else
          (seqItemFailed p d allChars from_ to c).bind fun c => .ok (.returned c)
      else
        let parsed := decide (c.offset > to)
        let currentCount := if parsed then currentCount + 1 else currentCount
        let to := c.offset
        if !parsed || (decide (mx > 0) && (currentCount : Int) == mx) then
          seqLoop rec p d allChars from_ n rest 0 to c
        else
          seqLoop rec p d allChars from_ n ((item, (mn, mx)) :: rest) currentCount to c

/-- sequence.go:113-117 -/
def setGeneralizations (from_ to : Nat) (gens : List Nat) (r : Results) : Results :=
  gens.foldl (fun r g => if r.pending from_ g then r.setMatch from_ g to else r) r

/-- sequence.go:27-129.  Simplification: `p.ranges[itemIndex]` is read through `List.zip`; `ranges` is
never shorter than `items` (theorem `init_ranges`), so the index never panics. -/
def seqParse (rec : Ptr → Ctx → Res Ctx) (keywords : List Ptr) (lfuel : Nat)
    (p : Ptr) (d : PDef) (items : List Ptr) (ranges : List (Int × Int)) (allChars : Bool) (c : Ctx) :
    Res Ctx :=
  if !allChars && c.res.pending c.offset d.id then .ok (c.fail c.offset)
  else
    let from_ := c.offset
    let c := if allChars then c else { c with res := c.res.markPending from_ d.id }
    (seqLoop rec p d allChars from_ lfuel (items.zip ranges) 0 from_ c).bind fun out =>
      match out with
      | .returned c => .ok c
      | .complete to c =>
        (if d.commit.noKeyword then isKeyword rec keywords c from_ to
         else .ok (false, c)).bind fun (kw, c) =>
          if kw then
            let c := c.setFailing d.commit p
            unmarkUnless allChars from_ d.id (c.fail from_)
          else
            let c := { c with res := setGeneralizations from_ to d.gens c.res }
            let c := if (to : Int) > c.failOffset then
                { c with failOffset := -1, failing := none } else c
            let c := { c with res := c.res.setMatch from_ d.id to }
            unmarkUnless allChars from_ d.id (c.success to)

/-- The `parse` methods: char.go:40, choice.go:23, sequence.go:27, dispatched on the parser object.
A dangling address would be a nil interface in Go. `n` is the recursion budget. -/
def parse (env : Env) : Nat → Ptr → Ctx → Res Ctx
  | 0, _, _ => .oof
  | n + 1, p, c =>
    match env.defs[p]? with
    | none => .panic
    | some d =>
      match d.kind with
      | .char not chars ranges => charParse not chars ranges c
      | .choice options => choiceParse (parse env n) env.keywords (n + 1) p d options c
      | .seq items ranges allChars =>
        seqParse (parse env n) env.keywords (n + 1) p d items ranges allChars c

end Treerack
