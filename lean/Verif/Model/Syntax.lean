import Verif.Model.Builder

/-
syntax.go, registry.go, chardefine.go, choicedefine.go, sequencedefine.go, whitespace.go: how a syntax
is defined and initialized.

Go definition objects are mutable and referenced by pointers; the identity matters (`Syntax.keywords`
and `Syntax.root` keep pointers to definitions that whitespace.go may replace in the registry).  The
model has an explicit heap: a list of definition objects, addressed by their index.
-/

namespace Treerack

/-- syntax.go:14-17 -/
structure SeqItem where
  name : Name
  min : Int := 0
  max : Int := 0
  deriving Repr, DecidableEq

/-- The kind specific fields of char.go:3-9, choicedefine.go:8-19, sequencedefine.go:9-23. -/
inductive DKind where
  | char (not : Bool) (chars : List Rune) (ranges : List (Rune × Rune))
  | choice (options : List Name) (optionDefs : List Ptr)
  | seq (originalItems items : List SeqItem) (itemDefs : List Ptr) (ranges : List (Int × Int))
      (allChars : Bool)
  deriving Repr, DecidableEq

/-- The fields common to char.go:3-9, choicedefine.go:8-19, sequencedefine.go:9-23. -/
structure Def where
  name : Name
  id : Nat := 0
  commit : Commit := {}
  gens : List Nat := []
  validated : Bool := false
  initialized : Bool := false
  kind : DKind
  deriving Repr, DecidableEq

abbrev Heap := List Def

/-- Errors of the definition API, syntax.go:54-61,86-92 and others.  For the incompatible commit
types error only the definition name is kept: which of several incompatible pairs is named in the
message depends on Go's random map iteration order (syntax.go:130), see Model/DefErrors.lean. -/
inductive SynErr where
  | syntaxInitialized
  | initFailed
  | noParsersDefined
  | multipleRoots
  | invalidSymbolName
  | duplicateDefinition (n : Name)
  | parserNotFound (n : Name)
  | incompatibleCommit (n : Name)
  | number
  | readSyntax (e : Err)
  deriving Repr, DecidableEq

/-- registry.go:3-7 -/
structure Registry where
  idSeed : Nat := 0
  definition : List (Name × Ptr) := []
  definitions : List Ptr := []
  deriving Repr, DecidableEq

/-- syntax.go:19-26, together with the heap of definition objects.  A nil registry is represented by
the empty registry (syntax.go:179-181 creates it on the first registration). -/
structure Syntax where
  heap : Heap := []
  registry : Registry := {}
  initialized : Bool := false
  initFailed : Bool := false
  explicitRoot : Bool := false
  keywords : List Ptr := []
  root : Option Ptr := none
  deriving Repr, DecidableEq

/-- chardefine.go:13-25 -/
def newChar (name : Name) (not : Bool) (chars : List Rune) (ranges : List (Rune × Rune)) : Def :=
  { name := name, kind := .char not chars ranges }

/-- choicedefine.go:29-35 -/
def newChoice (name : Name) (ct : Commit) (options : List Name) : Def :=
  { name := name, commit := ct, kind := .choice options [] }

/-- sequencedefine.go:25-37 -/
def newSequence (name : Name) (ct : Commit) (items : List SeqItem) : Def :=
  { name := name, commit := ct, kind := .seq items items [] [] false }

namespace Def

/-- char.go:18, choicedefine.go:25, sequencedefine.go:43 -/
def commitType (d : Def) : Commit :=
  match d.kind with
  | .char _ _ _ => { alias := true }
  | _ => d.commit

/-- chardefine.go:29 (no effect on characters), choicedefine.go:26, sequencedefine.go:44 -/
def setCommitType (d : Def) (ct : Commit) : Def :=
  match d.kind with
  | .char _ _ _ => d
  | _ => { d with commit := ct }

/-- The parser (and builder) object of a definition: chardefine.go:34-41, choicedefine.go:86-135,
sequencedefine.go:129-183. -/
def toPDef (d : Def) : PDef :=
  { pname := d.name, name := d.name, id := d.id, commit := d.commitType, gens := d.gens,
    kind := match d.kind with
      | .char not chars ranges => .char not chars ranges
      | .choice _ optionDefs => .choice optionDefs
      | .seq _ _ itemDefs ranges allChars => .seq itemDefs ranges allChars }

end Def

/-- Apply a method with side effect to the object at an address. -/
def Heap.update (h : Heap) (p : Ptr) (f : Def → Def) : Heap := List.modify h p f

/-- sequencedefine.go:46-61 -/
def normalizeItemRange (item : SeqItem) : SeqItem :=
  if item.min == 0 && item.max == 0 then { item with min := 1, max := 1 }
  else
    let item := if item.min ≤ 0 then { item with min := 0 } else item
    if item.max ≤ 0 then { item with max := -1 } else item

/-- sequencedefine.go:63-73 (`initRanges`, which is also `preinit` for sequences; choicedefine.go:27
and chardefine.go:30 do nothing). -/
def Def.initRanges (d : Def) : Def :=
  match d.kind with
  | .seq orig items itemDefs ranges allChars =>
    let items := items.map normalizeItemRange
    { d with kind := .seq orig items itemDefs (ranges ++ items.map fun i => (i.min, i.max)) allChars }
  | _ => d

/-- Decimal digits of `strconv.Itoa` (non-negative numbers), as runes. -/
def itoa (n : Nat) : List Rune := (Nat.toDigits 10 n).map Char.toNat

/-- syntax.go:210-212 -/
def childName (name : Name) (i : Nat) : Name := name ++ colon :: itoa i

/-- syntax.go:94 -/
def symbolChars : List Rune := runes "\\ \n\t\x08\x0c\r\x0b/.[]\"{}^+*?|():=;"

/-- syntax.go:96-106 -/
def isValidSymbol (n : Name) : Bool := n.all fun r => matchChar symbolChars [] true r

/-- syntax.go:122-150: some commit type of the table is set together with one it excludes. -/
def Commit.incompatible (ct : Commit) : Bool :=
  ct.alias && ct.root
  || ct.whitespace && (ct.keyword || ct.noKeyword || ct.failPass || ct.root)
  || ct.keyword && (ct.noKeyword || ct.root)
  || ct.failPass && ct.root

namespace Registry

/-- `r.definition[name]` -/
def lookup (r : Registry) (name : Name) : Option Ptr := r.definition.lookup name

/-- registry.go:21-33 -/
def setDefinition (r : Registry) (h : Heap) (p : Ptr) : Registry × Heap × Option SynErr :=
  match h[p]? with
  | none => (r, h, none)
  | some d =>
    match r.lookup d.name with
    | some _ => (r, h, some (.duplicateDefinition d.name))
    | none =>
      let id := r.idSeed + 1
      ({ idSeed := id, definition := (d.name, p) :: r.definition, definitions := r.definitions ++ [p] },
       h.update p fun d => { d with id := id }, none)

/-- registry.go:9-19; errors are ignored. -/
def newRegistry (h : Heap) (defs : List Ptr) : Registry × Heap :=
  defs.foldl (fun (rh : Registry × Heap) p =>
    let x := rh.1.setDefinition rh.2 p
    (x.1, x.2.1)) ({}, h)

end Registry

/-- whitespace.go:8 -/
def whitespaceName : Name := runes ":ws"

/-- whitespace.go:52-54 -/
def patchName (s : List Name) : Name := [colon].intercalate s

namespace Syntax

/-- The commit type of the object at an address. -/
def commitOf (h : Heap) (p : Ptr) : Commit :=
  match h[p]? with
  | some d => d.commitType
  | none => {}

/-- syntax.go:152-172 -/
def applyRoot (s : Syntax) (p : Ptr) : Syntax × Option SynErr :=
  let explicitRoot := (commitOf s.heap p).root
  if explicitRoot && s.explicitRoot then (s, some .multipleRoots)
  else
    let s := match s.root with
      | some r =>
        if explicitRoot || !s.explicitRoot then
          { s with heap := s.heap.update r fun d => d.setCommitType { d.commitType with root := false } }
        else s
      | none => s
    let s := if explicitRoot || !s.explicitRoot then
        { s with root := some p,
                 heap := s.heap.update p fun d => d.setCommitType { d.commitType with root := true } }
      else s
    let s := if explicitRoot then { s with explicitRoot := true } else s
    (s, none)

/-- syntax.go:174-196.  The definition object is allocated by the caller in Go. -/
def register (s : Syntax) (d : Def) : Syntax × Option SynErr :=
  if s.initialized then (s, some .syntaxInitialized)
  else
    let p := s.heap.length
    let s := { s with heap := s.heap ++ [d] }
    if d.commitType.incompatible then (s, some (.incompatibleCommit d.name))
    else
      match s.applyRoot p with
      | (s, some e) => (s, some e)
      | (s, none) =>
        let s := if (commitOf s.heap p).keyword then { s with keywords := s.keywords ++ [p] } else s
        let (r, h, e) := s.registry.setDefinition s.heap p
        ({ s with registry := r, heap := h }, e)

/-- syntax.go:261-263 -/
def sequence_ (s : Syntax) (name : Name) (ct : Commit) (items : List SeqItem) : Syntax × Option SynErr :=
  s.register (newSequence name ct items)

/-- syntax.go:273-275 -/
def choice_ (s : Syntax) (name : Name) (ct : Commit) (options : List Name) : Syntax × Option SynErr :=
  s.register (newChoice name ct options)

/-- syntax.go:223-230 -/
def class_ (s : Syntax) (name : Name) (ct : Commit) (not : Bool) (chars : List Rune)
    (ranges : List (Rune × Rune)) : Syntax × Option SynErr :=
  let cname := childName name 0
  match s.register (newChar cname not chars ranges) with
  | (s, some e) => (s, some e)
  | (s, none) => s.sequence_ name ct [{ name := cname }]

/-- syntax.go:198-200 -/
def anyChar_ (s : Syntax) (name : Name) (ct : Commit) : Syntax × Option SynErr :=
  s.class_ name ct true [] []

/-- The loop of syntax.go:242-248: registers the characters, collects their names. -/
def charSequenceLoop (name : Name) : Nat → List Rune → List Name → Syntax →
    Syntax × Option SynErr × List Name
  | _, [], refs, s => (s, none, refs)
  | i, c :: cs, refs, s =>
    let ref := childName name i
    match s.register (newChar ref false [c] []) with
    | (s, some e) => (s, some e, refs)
    | (s, none) => charSequenceLoop name (i + 1) cs (refs ++ [ref]) s

/-- syntax.go:240-251 (with syntax.go:214-221 `namesToSequenceItems`) -/
def charSequence_ (s : Syntax) (name : Name) (ct : Commit) (chars : List Rune) :
    Syntax × Option SynErr :=
  match charSequenceLoop name 0 chars [] s with
  | (s, some e, _) => (s, some e)
  | (s, none, refs) =>
    s.sequence_ name { ct with noWhitespace := true } (refs.map fun r => { name := r })

/-- syntax.go:202-208 -/
def AnyChar (s : Syntax) (name : Name) (ct : Commit) : Syntax × Option SynErr :=
  if !isValidSymbol name then (s, some .invalidSymbolName)
  else s.anyChar_ name { ct with userDefined := true }

/-- syntax.go:232-238 -/
def Class (s : Syntax) (name : Name) (ct : Commit) (not : Bool) (chars : List Rune)
    (ranges : List (Rune × Rune)) : Syntax × Option SynErr :=
  if !isValidSymbol name then (s, some .invalidSymbolName)
  else s.class_ name { ct with userDefined := true } not chars ranges

/-- syntax.go:253-259 -/
def CharSequence (s : Syntax) (name : Name) (ct : Commit) (chars : List Rune) :
    Syntax × Option SynErr :=
  if !isValidSymbol name then (s, some .invalidSymbolName)
  else s.charSequence_ name { ct with userDefined := true } chars

/-- syntax.go:265-271 -/
def Sequence (s : Syntax) (name : Name) (ct : Commit) (items : List SeqItem) :
    Syntax × Option SynErr :=
  if !isValidSymbol name then (s, some .invalidSymbolName)
  else s.sequence_ name { ct with userDefined := true } items

/-- syntax.go:277-283 -/
def Choice (s : Syntax) (name : Name) (ct : Commit) (options : List Name) :
    Syntax × Option SynErr :=
  if !isValidSymbol name then (s, some .invalidSymbolName)
  else s.choice_ name { ct with userDefined := true } options

end Syntax

/-! ### whitespace.go -/

namespace Whitespace

/-- whitespace.go:10-23: returns the whitespace definitions, the others and the updated heap. -/
def splitDefs (h : Heap) (defs : List Ptr) : List Ptr × List Ptr × Heap :=
  (defs.filter fun p => (Syntax.commitOf h p).whitespace,
   defs.filter fun p => !(Syntax.commitOf h p).whitespace,
   defs.foldl (fun h p =>
     if (Syntax.commitOf h p).whitespace then
       h.update p fun d => d.setCommitType { d.commitType with alias := true }
     else h) h)

/-- whitespace.go:25-41: the last definition with the Root bit, and the ones without it. -/
def splitRoot (h : Heap) (defs : List Ptr) : Option Ptr × List Ptr :=
  ((defs.filter fun p => (Syntax.commitOf h p).root).getLast?,
   defs.filter fun p => !(Syntax.commitOf h p).root)

/-- whitespace.go:43-50 -/
def mergeDefs (h : Heap) (ws : List Ptr) : Def :=
  newChoice whitespaceName { alias := true } (ws.filterMap fun p => (h[p]?).map Def.name)

/-- whitespace.go:62 -/
def wsItem : SeqItem := { name := whitespaceName, min := 0, max := -1 }

/-- Output of the loop of whitespace.go:63-105: new definitions and new items, for one item. -/
def applyToItem (seqName : Name) (i : Nat) (item : SeqItem) : List Def × List SeqItem :=
  let lead := if i > 0 then [wsItem] else []
  if item.max == 1 then ([], lead ++ [item])
  else
    let singleItem : SeqItem := { name := item.name, min := 1, max := 1 }
    let restName := patchName [item.name, seqName, runes "wsrest", itoa i]
    let restDef := newSequence restName { alias := true } [wsItem, singleItem]
    let restItems : SeqItem :=
      { name := restName
        min := if item.min > 0 then item.min - 1 else 0
        max := if item.max > 1 then item.max - 1 else -1 }
    if item.min > 0 then ([restDef], lead ++ [singleItem, restItems])
    else
      let optItems := lead ++ [singleItem, restItems]
      let optName := patchName [item.name, seqName, runes "wsopt", itoa i]
      let optDef := newSequence optName { alias := true } optItems
      ([restDef, optDef], [{ name := optName, min := 0, max := 1 }])

/-- The loop of whitespace.go:63-105. -/
def applyToItems (seqName : Name) : Nat → List SeqItem → List Def × List SeqItem
  | _, [] => ([], [])
  | i, item :: items =>
    let (d, it) := applyToItem seqName i item
    let (ds, its) := applyToItems seqName (i + 1) items
    (d ++ ds, it ++ its)

/-- whitespace.go:56-110: the definitions replacing a sequence definition. -/
def applyToSeq (name : Name) (ct : Commit) (items : List SeqItem) : List Def :=
  let (defs, items) := applyToItems name 0 items
  defs ++ [newSequence name ct items]

/-- Allocate new objects. -/
def alloc (h : Heap) (ds : List Def) : Heap × List Ptr :=
  (h ++ ds, (List.range ds.length).map (h.length + ·))

/-- whitespace.go:112-130 -/
def applyToDefs : List Ptr → Heap → List Ptr × Heap
  | [], h => ([], h)
  | p :: ps, h =>
    let (new, h) : List Ptr × Heap :=
      match h[p]? with
      | none => ([p], h)
      | some d =>
        if d.commitType.noWhitespace then ([p], h)
        else
          match d.kind with
          | .seq _ items _ _ _ =>
            let (h, ps) := alloc h (applyToSeq d.name d.commitType items)
            (ps, h)
          | _ => ([p], h)
    let (rest, h) := applyToDefs ps h
    (new ++ rest, h)

/-- whitespace.go:132-155: renames the original root object; returns the new root definition. -/
def applyToRoot (h : Heap) (root : Ptr) (d : Def) : Heap × Def :=
  let wsName := patchName [d.name, runes "wsroot"]
  (h.update root fun d =>
     let d := { d with name := wsName }
     let d := d.setCommitType { d.commitType with root := false }
     d.setCommitType { d.commitType with alias := true },
   newSequence d.name { root := true } [wsItem, { name := wsName, min := 1, max := 1 }, wsItem])

/-- whitespace.go:157-165 -/
def hasWhitespace (h : Heap) (defs : List Ptr) : Bool :=
  defs.any fun p => (Syntax.commitOf h p).whitespace

/-- whitespace.go:167-187; panics when there is no root among the definitions. -/
def apply (h : Heap) (defs : List Ptr) : Res (Heap × List Ptr × Ptr) :=
  let (wsDefs, defs, h) := splitDefs h defs
  let ws := mergeDefs h wsDefs
  let (h, wsPtr) := (h ++ [ws], h.length)
  let (defs, h) := applyToDefs defs h
  let (root, rest) := splitRoot h defs
  match root with
  | none => .panic
  | some r =>
    match h[r]? with
    | none => .panic
    | some d =>
      let (h, rootDef) := applyToRoot h r d
      .ok (h ++ [rootDef], rest ++ wsDefs ++ [wsPtr, r, h.length], h.length)

end Whitespace

/-! ### Validation and initialization -/

/-- choicedefine.go:43-52 and sequencedefine.go:81-90: all the references, in order. -/
def validateRefs (rec : Ptr → Heap → Res (Heap × Option SynErr)) (r : Registry) :
    List Name → Heap → Res (Heap × Option SynErr)
  | [], h => .ok (h, none)
  | n :: ns, h =>
    match r.lookup n with
    | none => .ok (h, some (.parserNotFound n))
    | some p =>
      (rec p h).bind fun (h, e) =>
        match e with
        | some e => .ok (h, some e)
        | none => validateRefs rec r ns h

/-- chardefine.go:31, choicedefine.go:37-55, sequencedefine.go:75-93. -/
def validate (r : Registry) : Nat → Ptr → Heap → Res (Heap × Option SynErr)
  | 0, _, _ => .oof
  | n + 1, p, h =>
    match h[p]? with
    | none => .panic
    | some d =>
      let go (names : List Name) : Res (Heap × Option SynErr) :=
        if d.validated then .ok (h, none)
        else validateRefs (validate r n) r names (h.update p fun d => { d with validated := true })
      match d.kind with
      | .char _ _ _ => .ok (h, none)
      | .choice options _ => go options
      | .seq _ items _ _ _ => go (items.map SeqItem.name)

/-- choicedefine.go:81-83 -/
def addGenAll (rec : Ptr → Heap → Res Heap) : List Ptr → Heap → Res Heap
  | [], h => .ok h
  | p :: ps, h => (rec p h).bind fun h => addGenAll rec ps h

/-- chardefine.go:33, choicedefine.go:75-84, sequencedefine.go:121-127. -/
def addGeneralization (g : Nat) : Nat → Ptr → Heap → Res Heap
  | 0, _, _ => .oof
  | n + 1, p, h =>
    match h[p]? with
    | none => .panic
    | some d =>
      match d.kind with
      | .char _ _ _ => .ok h
      | .seq _ _ _ _ _ =>
        if d.gens.contains g then .ok h
        else .ok (h.update p fun d => { d with gens := d.gens ++ [g] })
      | .choice _ optionDefs =>
        if d.gens.contains g then .ok h
        else
          addGenAll (addGeneralization g n) optionDefs
            (h.update p fun d => { d with gens := d.gens ++ [g] })

/-- `d.optionDefs = append(d.optionDefs, def)` / `d.itemDefs = append(d.itemDefs, def)` -/
def Def.appendChild (d : Def) (c : Ptr) : Def :=
  match d.kind with
  | .char _ _ _ => d
  | .choice options optionDefs => { d with kind := .choice options (optionDefs ++ [c]) }
  | .seq orig items itemDefs ranges allChars =>
    { d with kind := .seq orig items (itemDefs ++ [c]) ranges allChars }

/-- The loop of choicedefine.go:58-63. -/
def initOptions (rec : Ptr → Heap → Res Heap) (addGen : Nat → Ptr → Heap → Res Heap) (r : Registry)
    (p : Ptr) (id : Nat) : List Name → Heap → Res Heap
  | [], h => .ok h
  | o :: os, h =>
    match r.lookup o with
    | none => .panic
    | some def_ =>
      (rec def_ (h.update p fun d => d.appendChild def_)).bind fun h =>
        (addGen id def_ h).bind fun h => initOptions rec addGen r p id os h

/-- Is the object a character parser (sequencedefine.go:102)? -/
def isCharDef (h : Heap) (p : Ptr) : Bool :=
  match h[p]? with
  | some { kind := .char _ _ _, .. } => true
  | _ => false

/-- The loop of sequencedefine.go:97-106; returns the final value of `allChars`. -/
def initItems (rec : Ptr → Heap → Res Heap) (r : Registry) (p : Ptr) :
    List Name → Bool → Heap → Res (Heap × Bool)
  | [], allChars, h => .ok (h, allChars)
  | i :: is, allChars, h =>
    match r.lookup i with
    | none => .panic
    | some def_ =>
      (rec def_ (h.update p fun d => d.appendChild def_)).bind fun h =>
        initItems rec r p is (allChars && isCharDef h def_) h

/-- `d.allChars = allChars` -/
def Def.setAllChars (d : Def) (b : Bool) : Def :=
  match d.kind with
  | .seq orig items itemDefs ranges _ => { d with kind := .seq orig items itemDefs ranges b }
  | _ => d

/-- chardefine.go:32, choicedefine.go:66-73, sequencedefine.go:95-119.  `m` is the budget of
`addGeneralization`. -/
def initDef (r : Registry) (m : Nat) : Nat → Ptr → Heap → Res Heap
  | 0, _, _ => .oof
  | n + 1, p, h =>
    match h[p]? with
    | none => .panic
    | some d =>
      match d.kind with
      | .char _ _ _ => .ok h
      | .choice options _ =>
        if d.initialized then .ok h
        else
          initOptions (initDef r m n) (fun g => addGeneralization g m) r p d.id options
            (h.update p fun d => { d with initialized := true })
      | .seq _ items _ _ _ =>
        if d.initialized then .ok h
        else
          (initItems (initDef r m n) r p (items.map SeqItem.name) true
            (h.update p fun d => { d with initialized := true }.initRanges)).bind fun (h, allChars) =>
              .ok (h.update p fun d => d.setAllChars allChars)

namespace Syntax

/-- syntax.go:326-331 (the keywords) and 333-336 (the root). -/
def validateAll (r : Registry) (n : Nat) : List Ptr → Heap → Res (Heap × Option SynErr)
  | [], h => .ok (h, none)
  | p :: ps, h =>
    (validate r n p h).bind fun (h, e) =>
      match e with
      | some e => .ok (h, some e)
      | none => validateAll r n ps h

/-- syntax.go:338-342 -/
def initAll (r : Registry) (m n : Nat) : List Ptr → Heap → Res Heap
  | [], h => .ok h
  | p :: ps, h => (initDef r m n p h).bind fun h => initAll r m n ps h

/-- syntax.go:316-324: `preinit` of every definition, then the whitespace is applied. -/
def prepare (s : Syntax) (root : Ptr) : Res (Syntax × Ptr) :=
  let heap := s.registry.definitions.foldl (fun h p => h.update p Def.initRanges) s.heap
  if Whitespace.hasWhitespace heap s.registry.definitions then
    (Whitespace.apply heap s.registry.definitions).bind fun (heap, defs, root) =>
      let (registry, heap) := Registry.newRegistry heap defs
      .ok ({ s with heap := heap, registry := registry, root := some root }, root)
  else .ok ({ s with heap := heap }, root)

/-- syntax.go:299-345.  The recursion budget of `validate`, `init` and `addGeneralization` is the
number of objects plus one, which is always enough (theorem `init_terminates`). -/
def Init (s : Syntax) : Res (Syntax × Option SynErr) :=
  if s.initFailed then .ok (s, some .initFailed)
  else if s.initialized then .ok (s, none)
  else
    match s.root with
    | none => .ok (s, some .noParsersDefined)
    | some root =>
      match s.heap[root]? with
      | none => .panic
      | some d =>
        if d.commitType.incompatible then .ok (s, some (.incompatibleCommit d.name))
        else
          (s.prepare root).bind fun (s, root) =>
            let n := s.heap.length + 1
            (validateAll s.registry n (s.keywords ++ [root]) s.heap).bind fun (h, e) =>
              match e with
              | some e => .ok ({ s with heap := h, initFailed := true }, some e)
              | none =>
                (initAll s.registry n n (s.keywords ++ [root]) h).bind fun h =>
                  .ok ({ s with heap := h, initialized := true }, none)

/-- The parser objects of an initialized syntax; syntax.go:347-354 for the keywords. -/
def env (s : Syntax) : Env := { defs := s.heap.map Def.toPDef, keywords := s.keywords }

/-- What `Parse` returns. -/
inductive ParseResult where
  | syntaxError (e : SynErr)
  | error (e : Err)
  | node (n : Node)
  deriving Repr

/-- syntax.go:442-448.  `fuel` is the recursion budget of parsing and building. -/
def Parse (s : Syntax) (fuel : Nat) (reader : List Rune) (readerEnd : Option Nat) :
    Res (Syntax × ParseResult) :=
  s.Init.bind fun (s, e) =>
    match e with
    | some e => .ok (s, .syntaxError e)
    | none =>
      match s.root with
      | none => .panic
      | some root =>
        (parseInput s.env fuel root reader readerEnd).bind fun x =>
          match x with
          | .error e => .ok (s, .error e)
          | .ok n => .ok (s, .node n)

end Syntax
end Treerack
