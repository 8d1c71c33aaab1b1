import Verif.Model.Syntax

/-
define.go, node.go and escape.go: from a parsed syntax document to definitions.
-/

namespace Treerack

/-- escape.go:3-11 -/
def runesContain (rs : List Rune) (r : Rune) : Bool := rs.any fun ri => ri == r

/-- escape.go:13-30.  8 = '\b', 12 = '\f', 10 = '\n', 13 = '\r', 9 = '\t', 11 = '\v'. -/
def escapeChar (escape c : Rune) : List Rune :=
  if c == 8 then [escape, 98]
  else if c == 12 then [escape, 102]
  else if c == 10 then [escape, 110]
  else if c == 13 then [escape, 114]
  else if c == 9 then [escape, 116]
  else if c == 11 then [escape, 118]
  else [escape, c]

/-- escape.go:32-44 -/
def escape (esc : Rune) (banned : List Rune) (chars : List Rune) : List Rune :=
  chars.flatMap fun c => if runesContain banned c then escapeChar esc c else [c]

/-- escape.go:46-63.  98 = 'b', 102 = 'f', 110 = 'n', 114 = 'r', 116 = 't', 118 = 'v'. -/
def unescapeChar (c : Rune) : Rune :=
  if c == 98 then 8
  else if c == 102 then 12
  else if c == 110 then 10
  else if c == 114 then 13
  else if c == 116 then 9
  else if c == 118 then 11
  else c

/-- The loop of escape.go:65-92; `none` is ErrInvalidEscapeCharacter. -/
def unescapeLoop (esc : Rune) (banned : List Rune) : Bool → List Rune → Option (List Rune)
  | true, [] => none
  | false, [] => some []
  | true, c :: cs => (unescapeLoop esc banned false cs).map (unescapeChar c :: ·)
  | false, c :: cs =>
    if c == esc then unescapeLoop esc banned true cs
    else if runesContain banned c then none
    else (unescapeLoop esc banned false cs).map (c :: ·)

/-- escape.go:65-92 -/
def unescape (esc : Rune) (banned : List Rune) (chars : List Rune) : Option (List Rune) :=
  unescapeLoop esc banned false chars

/-- define.go:5-11 `dropComments` (with node.go:5-23 `mapNodes`, `filterNodes`). -/
def dropComments : Node → Node
  | .mk name f t ts nodes => .mk name f t ts (go nodes)
where
  go : List Node → List Node
  | [] => []
  | n :: ns => if n.name == runes "comment" then go ns else dropComments n :: go ns

/-- define.go:13-35 -/
def flagsToCommitType : List Node → Commit
  | ns => ns.foldl (fun ct n =>
      if n.name == runes "alias" then { ct with alias := true }
      else if n.name == runes "ws" then { ct with whitespace := true }
      else if n.name == runes "nows" then { ct with noWhitespace := true }
      else if n.name == runes "kw" then { ct with keyword := true }
      else if n.name == runes "nokw" then { ct with noKeyword := true }
      else if n.name == runes "failpass" then { ct with failPass := true }
      else if n.name == runes "root" then { ct with root := true }
      else ct) {}

/-- define.go:41-48 (with define.go:37-39 `toRune`); 92 = '\\'.  Simplification: `s[0] == '\\'` looks at
the first byte of the UTF-8 text, which is a backslash exactly when the first rune is. -/
def nodeChar (n : Node) : Res Rune :=
  n.text.bind fun s =>
    match s with
    | [] => .panic
    | 92 :: [] => .panic
    | 92 :: c :: _ => .ok (unescapeChar c)
    | c :: _ => .ok c

/-- `nodeChar` of several nodes, in order. -/
def nodeChars : List Node → Res (List Rune)
  | [] => .ok []
  | n :: ns => (nodeChar n).bind fun c => (nodeChars ns).bind fun cs => .ok (c :: cs)

/-- The loop of define.go:70-77. -/
def classMembers : List Node → Res (List Rune × List (Rune × Rune))
  | [] => .ok ([], [])
  | n :: ns =>
    if n.name == runes "class-char" then
      (nodeChar n).bind fun c => (classMembers ns).bind fun (cs, rs) => .ok (c :: cs, rs)
    else if n.name == runes "char-range" then
      match n.nodes with
      | a :: b :: _ =>
        (nodeChar a).bind fun a => (nodeChar b).bind fun b =>
          (classMembers ns).bind fun (cs, rs) => .ok (cs, (a, b) :: rs)
      | _ => .panic
    else classMembers ns

/-- define.go:59-80 -/
def defineClass (s : Syntax) (name : Name) (ct : Commit) (n : List Node) :
    Res (Syntax × Option SynErr) :=
  let (not, n) := match n with
    | n0 :: rest => if n0.name == runes "class-not" then (true, rest) else (false, n)
    | [] => (false, [])
  (classMembers n).bind fun (chars, ranges) => .ok (s.class_ name ct not chars ranges)

/-- define.go:82-89 -/
def defineCharSequence (s : Syntax) (name : Name) (ct : Commit) (n : List Node) :
    Res (Syntax × Option SynErr) :=
  (nodeChars n).bind fun chars => .ok (s.charSequence_ name ct chars)

/-- Value of decimal digits; `none` on another character. -/
def digitsVal : List Rune → Nat → Option Nat
  | [], acc => some acc
  | d :: ds, acc => if 48 ≤ d ∧ d ≤ 57 then digitsVal ds (acc * 10 + (d - 48)) else none

/-- `strconv.Atoi` on the text of a `number` node (64 bit int): error when not a number or out of
range.  Simplification: signs (not possible in a `number` node) are an error here. -/
def atoi (s : List Rune) : Option Int :=
  match s with
  | [] => none
  | _ => (digitsVal s 0).bind fun v => if v < 2 ^ 63 then some (v : Int) else none

/-- define.go:103-116: the parts of a range quantifier. -/
def rangeQuantity : List Node → Int × Int → Res (Option (Int × Int))
  | [], mm => .ok (some mm)
  | rq :: rqs, (mn, mx) =>
    if rq.name == runes "range-from" then
      rq.text.bind fun t => match atoi t with
        | none => .ok none
        | some v => rangeQuantity rqs (v, mx)
    else if rq.name == runes "range-to" then
      rq.text.bind fun t => match atoi t with
        | none => .ok none
        | some v => rangeQuantity rqs (mn, v)
    else rangeQuantity rqs (mn, mx)

/-- define.go:91-126; `none` is a number conversion error. -/
def getQuantity (n : Node) : Res (Option (Int × Int)) :=
  if n.name == runes "count-quantifier" then
    match n.nodes with
    | [] => .panic
    | c :: _ => c.text.bind fun t => .ok ((atoi t).map fun v => (v, v))
  else if n.name == runes "range-quantifier" then rangeQuantity n.nodes (0, -1)
  else if n.name == runes "one-or-more" then .ok (some (1, -1))
  else if n.name == runes "zero-or-more" then .ok (some (0, -1))
  else if n.name == runes "zero-or-one" then .ok (some (0, 1))
  else .ok (some (0, 0))

/-- define.go:128-130 -/
def defineSymbol (s : Syntax) (name : Name) (ct : Commit) (n : Node) : Res (Syntax × Option SynErr) :=
  n.text.bind fun t => .ok (s.sequence_ name ct [{ name := t }])

/-- define.go:50-57 `defineMember`: the name of the member and the outcome of defining it. -/
def defineMember (rec : Syntax → Name → Commit → Node → Res (Syntax × Option SynErr))
    (s : Syntax) (defaultName : Name) (ct : Commit) (n : Node) : Res (Syntax × Option SynErr × Name) :=
  if n.name == runes "symbol" then n.text.bind fun t => .ok (s, none, t)
  else (rec s defaultName ct n).bind fun (s, e) => .ok (s, e, defaultName)

/-- define.go:132-158: the loop over the items. -/
def defineItems (rec : Syntax → Name → Commit → Node → Res (Syntax × Option SynErr))
    (name : Name) (ct : Commit) : Nat → List Node → List SeqItem → Syntax →
    Res (Syntax × Option SynErr × List SeqItem)
  | _, [], items, s => .ok (s, none, items)
  | i, ni :: ns, items, s =>
    match ni.nodes with
    | [] => .panic
    | m :: rest =>
      (defineMember rec s (childName name i) ({ alias := true, noWhitespace := ct.noWhitespace } : Commit) m).bind
        fun (s, e, itemName) =>
          match e with
          | some e => .ok (s, some e, items)
          | none =>
            (match rest with
             | [q] => getQuantity q
             | _ => (.ok (some (0, 0)) : Res (Option (Int × Int)))).bind fun q =>
              match q with
              | none => .ok (s, some .number, items)
              | some (mn, mx) =>
                defineItems rec name ct (i + 1) ns
                  (items ++ [({ name := itemName, min := mn, max := mx } : SeqItem)]) s

/-- define.go:160-174: the loop over the options. -/
def defineOptions (rec : Syntax → Name → Commit → Node → Res (Syntax × Option SynErr))
    (name : Name) (ct : Commit) : Nat → List Node → List Name → Syntax →
    Res (Syntax × Option SynErr × List Name)
  | _, [], refs, s => .ok (s, none, refs)
  | i, ni :: ns, refs, s =>
    (defineMember rec s (childName name i) ({ alias := true, noWhitespace := ct.noWhitespace } : Commit) ni).bind
      fun (s, e, ref) =>
        match e with
        | some e => .ok (s, some e, refs)
        | none => defineOptions rec name ct (i + 1) ns (refs ++ [ref]) s

/-- define.go:176-194 (with define.go:132-174).  The budget is the depth of the node tree. -/
def defineExpression : Nat → Syntax → Name → Commit → Node → Res (Syntax × Option SynErr)
  | 0, _, _, _, _ => .oof
  | k + 1, s, name, ct, e =>
    if e.name == runes "any-char" then .ok (s.anyChar_ name ct)
    else if e.name == runes "char-class" then defineClass s name ct e.nodes
    else if e.name == runes "char-sequence" then defineCharSequence s name ct e.nodes
    else if e.name == runes "symbol" then defineSymbol s name ct e
    else if e.name == runes "sequence" then
      (defineItems (defineExpression k) name ct 0 e.nodes [] s).bind fun (s, err, items) =>
        match err with
        | some err => .ok (s, some err)
        | none => .ok (s.sequence_ name ct items)
    else if e.name == runes "choice" then
      (defineOptions (defineExpression k) name ct 0 e.nodes [] s).bind fun (s, err, refs) =>
        match err with
        | some err => .ok (s, some err)
        | none => .ok (s.choice_ name ct refs)
    else .ok (s, none)

/-- Depth of a node tree. -/
def Node.depth : Node → Nat
  | .mk _ _ _ _ nodes => go nodes + 1
where
  go : List Node → Nat
  | [] => 0
  | n :: ns => max n.depth (go ns)

/-- define.go:196-203 -/
def addDefinition (s : Syntax) (n : Node) : Res (Syntax × Option SynErr) :=
  match n.nodes with
  | [] => .panic
  | [_] => .panic
  | n0 :: rest =>
    match rest.getLast? with
    | none => .panic
    | some e =>
      n0.text.bind fun name =>
        defineExpression (e.depth + 1) s name
          { flagsToCommitType rest.dropLast with userDefined := true } e

/-- define.go:208-214 -/
def defineAll : List Node → Syntax → Res (Syntax × Option SynErr)
  | [], s => .ok (s, none)
  | n :: ns, s =>
    (addDefinition s n).bind fun (s, e) =>
      match e with
      | some e => .ok (s, some e)
      | none => defineAll ns s

/-- define.go:205-215 -/
def define (s : Syntax) (tree : Node) : Res (Syntax × Option SynErr) :=
  defineAll (dropComments tree).nodes s

/-- syntax.go:285-297, for the result of `self.Parse`. -/
def Syntax.ReadSyntax (s : Syntax) (selfParse : Res (Except Err Node)) : Res (Syntax × Option SynErr) :=
  if s.initialized then .ok (s, some .syntaxInitialized)
  else
    selfParse.bind fun x =>
      match x with
      | .error e => .ok (s, some (.readSyntax e))
      | .ok n => define s n

end Treerack
