import Verif.Model.Basic

/-
cmd/treerack/doc.go:96-129: the wrapping of the help texts.  A string is the list of its runes (the texts are valid UTF-8).
-/

namespace Treerack

/-- strings.Split, for a separator of a single rune. -/
def splitAt (sep : Rune) : List Rune → List (List Rune)
  | [] => [[]]
  | c :: cs =>
    if c = sep then [] :: splitAt sep cs
    else
      match splitAt sep cs with
      | [] => [[c]]
      | w :: ws => (c :: w) :: ws

/-- strings.Join, for a separator of a single rune. -/
def joinWith (sep : Rune) : List (List Rune) → List Rune
  | [] => []
  | [w] => w
  | w :: v :: ws => w ++ sep :: joinWith sep (v :: ws)

/-- strings.Replace(s, "\n", " ", -1) -/
def replaceNewlines (s : List Rune) : List Rune := s.map fun c => if c = 10 then 32 else c

/-- doc.go:96 -/
def wrapWidth : Nat := 72

/-- doc.go:103-122: the loop, with the words `w`, the index `i`, the words `ll` of the current line and the
finished lines `l`; doc.go:124-126: the last line.  The budget is for the number of the iterations. -/
def wrapLoop (w : List (List Rune)) : Nat → Int → List (List Rune) → List (List Rune) → Res (List (List Rune))
  | 0, _, _, _ => .oof
  | fuel + 1, i, ll, l =>
    if i < w.length then
      (index w i).bind fun x =>
      let ll := ll ++ [x]
      let lineLength := (joinWith 32 ll).length
      if lineLength < wrapWidth then wrapLoop w fuel (i + 1) ll l
      else
        let (ll, i) := if lineLength > wrapWidth then (ll.dropLast, i - 1) else (ll, i)
        if ll.length = 0 then (index w i).bind fun x => wrapLoop w fuel (i + 1 + 1) ll (l ++ [x])
        else wrapLoop w fuel (i + 1) [] (l ++ [joinWith 32 ll])
    else .ok (if ll.length > 0 then l ++ [joinWith 32 ll] else l)
where
  /-- An index expression. -/
  index (w : List (List Rune)) (i : Int) : Res (List Rune) :=
    if i < 0 then .panic
    else
      match w[i.toNat]? with
      | some x => .ok x
      | none => .panic

/-- doc.go:98-129 -/
def wrapLines (s : List Rune) : Res (List Rune) :=
  let w := splitAt 32 (replaceNewlines s)
  (wrapLoop w (2 * w.length + 1) 0 [] []).bind fun l => .ok (joinWith 10 l)

end Treerack
