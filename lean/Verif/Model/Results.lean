import Verif.Model.Basic

/-
results.go: the parse result store, at the level of slice contents.

Go slices are modelled by lists (length and contents).  The representation below that level (slice
capacity, re-slicing up to the capacity, growth by `append`, the flat `[id, to, id, to, ...]` layout
and the bit set of idset.go) is modelled in `Verif.Model.Store` and proved to implement the operations
of this file in `Verif.Proofs.Store`.
-/

namespace Treerack

/-- results.go:3-7.  `matches[offset]` lists the `(id, to)` pairs in insertion order, a dropped entry
has id `-1`.  `noMatch[offset]` is the set of ids that are known not to match (nil and empty set are
identified).  `isPending[id]` lists offsets, `-1` is a free slot. -/
structure Results where
  noMatch : List (List Nat) := []
  matches_ : List (List (Int × Nat)) := []
  isPending : List (List Int) := []
  deriving Repr, DecidableEq

/-- results.go:9-25 `ensureOffsetInts` and results.go:27-43 `ensureOffsetIDs`: extend with nil entries
until `offset` is a valid index. -/
def ensureOffset {α : Type} (l : List (List α)) (offset : Nat) : List (List α) :=
  l ++ List.replicate (offset + 1 - l.length) []

namespace Results

/-- The entries recorded for an offset (`r.match[offset]`, empty when the offset is out of range). -/
def at_ (r : Results) (offset : Nat) : List (Int × Nat) := r.matches_.getD offset []

/-- results.go:45-57 -/
def setMatch (r : Results) (offset id to : Nat) : Results :=
  let m := ensureOffset r.matches_ offset
  if (m.getD offset []).any (fun e => e.1 == (id : Int) && e.2 == to) then
    { r with matches_ := m }
  else
    { r with matches_ := m.modify offset (· ++ [((id : Int), to)]) }

/-- results.go:59-76 -/
def setNoMatch (r : Results) (offset id : Nat) : Results :=
  if (r.at_ offset).any (fun e => e.1 == (id : Int)) then r
  else
    { r with noMatch := (ensureOffset r.noMatch offset).modify offset (id :: ·) }

/-- results.go:78-94 -/
def hasMatchTo (r : Results) (offset id to : Nat) : Bool :=
  (r.at_ offset).any (fun e => e.1 == (id : Int) && e.2 == to)

/-- The loop of results.go:103-113: `to` starts at -1, the greatest `to` of the entries of `id`. -/
def longestLoop (id : Nat) : List (Int × Nat) → Option Nat → Option Nat
  | [], acc => acc
  | e :: es, acc =>
    if e.1 == (id : Int) then
      match acc with
      | none => longestLoop id es (some e.2)
      | some t => longestLoop id es (some (if e.2 > t then e.2 else t))
    else longestLoop id es acc

/-- results.go:96-116; `none` is the Go result `(_, false)`. -/
def longestMatch (r : Results) (offset id : Nat) : Option Nat :=
  longestLoop id (r.at_ offset) none

/-- results.go:118-125.  `none`: not found; `some none`: known not to match; `some (some to)`. -/
def longestResult (r : Results) (offset id : Nat) : Option (Option Nat) :=
  if (r.noMatch.getD offset []).contains id then some none
  else
    match r.longestMatch offset id with
    | some to => some (some to)
    | none => none

/-- The loop of results.go:128-137: the first entry `(id, to)` gets the id -1. -/
def dropLoop (id to : Nat) : List (Int × Nat) → List (Int × Nat)
  | [] => []
  | e :: es => if e.1 == (id : Int) && e.2 == to then (-1, e.2) :: es else e :: dropLoop id to es

/-- results.go:127-138; panics when the offset is out of range. -/
def dropMatchTo (r : Results) (offset id to : Nat) : Res Results :=
  if offset < r.matches_.length then
    .ok { r with matches_ := r.matches_.modify offset (dropLoop id to) }
  else .panic

/-- results.go:140-142 -/
def resetPending (r : Results) : Results := { r with isPending := [] }

/-- results.go:144-156 -/
def pending (r : Results) (offset id : Nat) : Bool :=
  (r.isPending.getD id []).contains (offset : Int)

/-- results.go:160-167: reuse the first free slot, or append. -/
def markLoop (offset : Nat) : List Int → List Int
  | [] => [(offset : Int)]
  | x :: xs => if x == -1 then (offset : Int) :: xs else x :: markLoop offset xs

/-- results.go:158-168 -/
def markPending (r : Results) (offset id : Nat) : Results :=
  { r with isPending := (ensureOffset r.isPending id).modify id (markLoop offset) }

/-- results.go:171-176: free the first slot holding the offset. -/
def unmarkLoop (offset : Nat) : List Int → List Int
  | [] => []
  | x :: xs => if x == (offset : Int) then -1 :: xs else x :: unmarkLoop offset xs

/-- results.go:170-177; panics when the id is out of range. -/
def unmarkPending (r : Results) (offset id : Nat) : Res Results :=
  if id < r.isPending.length then
    .ok { r with isPending := r.isPending.modify id (unmarkLoop offset) }
  else .panic

end Results
end Treerack
