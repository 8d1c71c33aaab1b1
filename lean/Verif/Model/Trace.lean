import Verif.Model.Parser

/-
The functions of Model/Parser.lean with a trace: which parsers tried their options or items, and where.  Nothing else is changed;
`parseTraced_erase` (Proofs/Trace.lean) says that without the trace, the results are those of `parse`.
-/

namespace Treerack

/-- The body of the parser was executed at the offset: a choice tried its options (choice.go:34-123), a sequence its items
(sequence.go:38-128). -/
abbrev Event := Ptr × Nat

/-- A result together with the events that happened on the way. -/
abbrev Traced (α : Type) := Res (α × List Event)

namespace Traced

def bind {α β : Type} (x : Traced α) (f : α → Traced β) : Traced β :=
  Res.bind x fun a => Res.bind (f a.1) fun b => .ok (b.1, a.2 ++ b.2)

/-- No events. -/
def lift {α : Type} (x : Res α) : Traced α := Res.bind x fun a => .ok (a, [])

/-- Forget the events. -/
def erase {α : Type} (x : Traced α) : Res α := Res.bind x fun a => .ok a.1

/-- An event in front. -/
def record {α : Type} (e : Event) (x : Traced α) : Traced α := Res.bind x fun a => .ok (a.1, e :: a.2)

end Traced

/-- As `isKeywordLoop`. -/
def isKeywordLoopT (rec : Ptr → Ctx → Traced Ctx) (from_ to : Nat) : List Ptr → Ctx → Traced (Bool × Ctx)
  | [], c => .lift (.ok (false, c))
  | kw :: kws, c =>
    (rec kw { c with offset := from_ }).bind fun c =>
      if c.matchLast && c.offset == to then .lift (.ok (true, c))
      else isKeywordLoopT rec from_ to kws c

/-- As `isKeyword`. -/
def isKeywordT (rec : Ptr → Ctx → Traced Ctx) (keywords : List Ptr) (c : Ctx) (from_ to : Nat) :
    Traced (Bool × Ctx) :=
  let ol := c.offsetLimit
  (isKeywordLoopT rec from_ to keywords { c with offsetLimit := (to : Int) }).bind fun (b, c) =>
    .lift (.ok (b, { c with offsetLimit := ol }))

/-- As `choicePass`. -/
def choicePassT (rec : Ptr → Ctx → Traced Ctx) (id from_ : Nat) : List Ptr → ChoiceSt → Traced ChoiceSt
  | [], st => .lift (.ok st)
  | o :: os, st =>
    (rec o st.c).bind fun c =>
      let st := if !c.matchLast && decide (c.failOffset > st.failOffset) then
          { st with failOffset := c.failOffset, failing := c.failing } else st
      if !c.matchLast || (st.mtch && decide (c.offset ≤ st.to)) then
        choicePassT rec id from_ os { st with c := { c with offset := from_ } }
      else
        choicePassT rec id from_ os { st with
          mtch := true
          found := true
          to := c.offset
          c := { c with offset := from_, res := c.res.setMatch from_ id c.offset } }

/-- As `choiceLoop`. -/
def choiceLoopT (rec : Ptr → Ctx → Traced Ctx) (id from_ : Nat) (options : List Ptr) :
    Nat → ChoiceSt → Traced ChoiceSt
  | 0, _ => .lift .oof
  | n + 1, st =>
    (choicePassT rec id from_ options { st with found := false }).bind fun st =>
      if st.found then choiceLoopT rec id from_ options n st else .lift (.ok st)

/-- As `choiceParse`, with the event. -/
def choiceParseT (rec : Ptr → Ctx → Traced Ctx) (keywords : List Ptr) (lfuel : Nat)
    (p : Ptr) (d : PDef) (options : List Ptr) (c : Ctx) : Traced Ctx :=
  match c.fromResults d.id with
  | some c' => .lift (.ok c')
  | none =>
    if c.res.pending c.offset d.id then .lift (.ok (c.fail c.offset))
    else
      let from_ := c.offset
      let initialFailOffset := c.failOffset
      let initialFailing := c.failing
      let c := { c with res := c.res.markPending from_ d.id }
      let st : ChoiceSt := { c := c, mtch := false, found := false, to := from_,
                             failOffset := initialFailOffset, failing := none }
      .record (p, from_) <| (choiceLoopT rec d.id from_ options lfuel st).bind fun st =>
        if st.mtch then
          (if d.commit.noKeyword then isKeywordT rec keywords st.c from_ st.to
           else .lift (.ok (false, st.c))).bind fun (kw, c) =>
            if kw then
              let c := c.setFailing d.commit p
              let c := c.fail from_
              .lift ((c.res.unmarkPending from_ d.id).bind fun r => .ok { c with res := r })
            else
              let c :=
                if st.failOffset > (st.to : Int) then
                  { c with failOffset := st.failOffset, failing := st.failing }
                else if (st.to : Int) > initialFailOffset then
                  { c with failOffset := -1, failing := none }
                else
                  { c with failOffset := initialFailOffset, failing := initialFailing }
              let c := c.success st.to
              .lift ((c.res.unmarkPending from_ d.id).bind fun r => .ok { c with res := r })
        else
          .lift (choiceNoMatch p d from_ initialFailOffset st)

/-- As `seqLoop`. -/
def seqLoopT (rec : Ptr → Ctx → Traced Ctx) (p : Ptr) (d : PDef) (allChars : Bool) (from_ : Nat) :
    Nat → List (Ptr × (Int × Int)) → Nat → Nat → Ctx → Traced SeqOut
  | 0, _, _, _, _ => .lift .oof
  | _ + 1, [], _, to, c => .lift (.ok (.complete to c))
  | n + 1, (item, (mn, mx)) :: rest, currentCount, to, c =>
    (rec item c).bind fun c =>
      if !c.matchLast then
        if (currentCount : Int) ≥ mn then
          seqLoopT rec p d allChars from_ n rest 0 to c
        else
          .lift ((seqItemFailed p d allChars from_ to c).bind fun c => .ok (.returned c))
      else
        let parsed := decide (c.offset > to)
        let currentCount := if parsed then currentCount + 1 else currentCount
        let to := c.offset
        if !parsed || (decide (mx > 0) && (currentCount : Int) == mx) then
          seqLoopT rec p d allChars from_ n rest 0 to c
        else
          seqLoopT rec p d allChars from_ n ((item, (mn, mx)) :: rest) currentCount to c

/-- As `seqParse`, with the event. -/
def seqParseT (rec : Ptr → Ctx → Traced Ctx) (keywords : List Ptr) (lfuel : Nat)
    (p : Ptr) (d : PDef) (items : List Ptr) (ranges : List (Int × Int)) (allChars : Bool) (c : Ctx) :
    Traced Ctx :=
  if !allChars && c.res.pending c.offset d.id then .lift (.ok (c.fail c.offset))
  else
    let from_ := c.offset
    let c := if allChars then c else { c with res := c.res.markPending from_ d.id }
    .record (p, from_) <| (seqLoopT rec p d allChars from_ lfuel (items.zip ranges) 0 from_ c).bind fun out =>
      match out with
      | .returned c => .lift (.ok c)
      | .complete to c =>
        (if d.commit.noKeyword then isKeywordT rec keywords c from_ to
         else .lift (.ok (false, c))).bind fun (kw, c) =>
          if kw then
            let c := c.setFailing d.commit p
            .lift (unmarkUnless allChars from_ d.id (c.fail from_))
          else
            let c := { c with res := setGeneralizations from_ to d.gens c.res }
            let c := if (to : Int) > c.failOffset then
                { c with failOffset := -1, failing := none } else c
            let c := { c with res := c.res.setMatch from_ d.id to }
            .lift (unmarkUnless allChars from_ d.id (c.success to))

/-- As `parse`. -/
def parseTraced (env : Env) : Nat → Ptr → Ctx → Traced Ctx
  | 0, _, _ => .lift .oof
  | n + 1, p, c =>
    match env.defs[p]? with
    | none => .lift .panic
    | some d =>
      match d.kind with
      | .char not chars ranges => .lift (charParse not chars ranges c)
      | .choice options => choiceParseT (parseTraced env n) env.keywords (n + 1) p d options c
      | .seq items ranges allChars =>
        seqParseT (parseTraced env n) env.keywords (n + 1) p d items ranges allChars c

end Treerack
