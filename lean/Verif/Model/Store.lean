import Verif.Model.Basic

/-
results.go and idset.go at the level of Go slices: length, capacity, re-slicing up to the capacity,
growth by `append`, the flat `[id, to, id, to, ...]` layout and the bit sets.

`Verif.Proofs.Store` proves that these operations implement those of `Verif.Model.Results`, which are
the ones used by the rest of the model.
-/

namespace Treerack

/-- A Go slice that does not share its backing array with another one: the contents of the backing
array from the first element on up to the capacity, and the length.  (No two slices of results.go or
idset.go share a backing array: the results of `append` and of re-slicing are always stored back to the
variable that the operand was taken from.)  A nil slice is the one without backing array. -/
structure Slice (α : Type) where
  arr : List α := []
  len : Nat := 0
  deriving Repr, DecidableEq

namespace Slice
variable {α : Type}

/-- `cap(s)` -/
def cap (s : Slice α) : Nat := s.arr.length

/-- The elements of the slice. -/
def toList (s : Slice α) : List α := s.arr.take s.len

/-- `s[i]` -/
def index (s : Slice α) (i : Nat) : Res α :=
  if i < s.len then Res.index s.arr i else .panic

/-- `s[i] = a` -/
def set (s : Slice α) (i : Nat) (a : α) : Res (Slice α) :=
  if i < s.len then .ok { s with arr := s.arr.set i a } else .panic

/-- `s[:n]` -/
def reslice (s : Slice α) (n : Nat) : Res (Slice α) :=
  if n ≤ s.cap then .ok { s with len := n } else .panic

/-- `append(s, xs...)`.  When the capacity is not enough, a new backing array is allocated, whose
capacity is up to the runtime: at least what is needed, otherwise arbitrary.  `g` stands for that
choice, it gets the old capacity and the needed length.  The rest of the new array is zeroed. -/
def append (g : Nat → Nat → Nat) (zero : α) (s : Slice α) (xs : List α) : Slice α :=
  let need := s.len + xs.length
  if need ≤ s.cap then
    { arr := s.arr.take s.len ++ xs ++ s.arr.drop need, len := need }
  else
    { arr := s.arr.take s.len ++ xs ++ List.replicate (g s.cap need - need) zero, len := need }

/-- `for i := ...; i <= offset; i++ { s = append(s, zero) }`, executed `k` times. -/
def appendZeros (g : Nat → Nat → Nat) (zero : α) : Nat → Slice α → Slice α
  | 0, s => s
  | k + 1, s => appendZeros g zero k (s.append g zero [zero])

/-- results.go:9-25 `ensureOffsetInts`, results.go:27-43 `ensureOffsetIDs` and idset.go:15-24. -/
def ensureOffset (g : Nat → Nat → Nat) (zero : α) (s : Slice α) (offset : Nat) : Res (Slice α) :=
  if s.len > offset then .ok s
  else if s.cap > offset then s.reslice (offset + 1)
  else (s.reslice s.cap).bind fun s => .ok (s.appendZeros g zero (offset + 1 - s.len))

end Slice

/-! ### idset.go -/

/-- idset.go:5-7; `w` is `strconv.IntSize`, the number of bits of `uint`. -/
structure IdSet (w : Nat) where
  ids : Slice (BitVec w) := {}
  deriving Repr, DecidableEq

namespace IdSet
variable {w : Nat}

/-- idset.go:13-27 (with idset.go:9-11 `divModBits`) -/
def set (g : Nat → Nat → Nat) (s : IdSet w) (id : Nat) : Res (IdSet w) :=
  (s.ids.ensureOffset g 0#w (id / w)).bind fun ids =>
    (ids.index (id / w)).bind fun x =>
      (ids.set (id / w) (x ||| (1#w <<< (id % w)))).bind fun ids => .ok { ids := ids }

/-- idset.go:29-36; `&^=` is "and not".  (Only used by the tests.) -/
def unset (s : IdSet w) (id : Nat) : Res (IdSet w) :=
  if id / w ≥ s.ids.len then .ok s
  else
    (s.ids.index (id / w)).bind fun x =>
      (s.ids.set (id / w) (x &&& ~~~(1#w <<< (id % w)))).bind fun ids => .ok { ids := ids }

/-- idset.go:38-45 -/
def has (s : IdSet w) (id : Nat) : Res Bool :=
  if id / w ≥ s.ids.len then .ok false
  else (s.ids.index (id / w)).bind fun x => .ok ((x &&& (1#w <<< (id % w))) != 0#w)

end IdSet

/-! ### results.go -/

/-- results.go:3-7 -/
structure Store (w : Nat) where
  noMatch : Slice (Option (IdSet w)) := {}
  mtch : Slice (Slice Int) := {}
  isPending : Slice (Slice Int) := {}
  deriving Repr, DecidableEq

namespace Store
variable {w : Nat}

/-- The loop of results.go:48-54 and 83-92: is there an entry `id, to`?  Reading `[i+1]` behind the end
panics. -/
def pairLoop (id to : Int) : List Int → Res Bool
  | [] => .ok false
  | x :: rest =>
    if x != id then
      match rest with
      | [] => .ok false
      | _ :: rest => pairLoop id to rest
    else
      match rest with
      | [] => .panic
      | y :: rest => if y == to then .ok true else pairLoop id to rest

/-- results.go:45-57 -/
def setMatch (g : Nat → Nat → Nat) (r : Store w) (offset id to : Nat) : Res (Store w) :=
  (r.mtch.ensureOffset g {} offset).bind fun m =>
    (m.index offset).bind fun es =>
      (pairLoop id to es.toList).bind fun found =>
        if found then .ok { r with mtch := m }
        else (m.set offset (es.append g 0 [(id : Int), (to : Int)])).bind fun m =>
          .ok { r with mtch := m }

/-- The loop of results.go:61-67: is there an entry of `id`? -/
def idLoop (id : Int) : List Int → Bool
  | [] => false
  | [x] => x == id
  | x :: _ :: rest => if x != id then idLoop id rest else true

/-- results.go:59-76 -/
def setNoMatch (g : Nat → Nat → Nat) (r : Store w) (offset id : Nat) : Res (Store w) :=
  (if r.mtch.len > offset then
     (r.mtch.index offset).bind fun es => .ok (idLoop id es.toList)
   else .ok false).bind fun found =>
    if found then .ok r
    else
      (r.noMatch.ensureOffset g none offset).bind fun nm =>
        (nm.index offset).bind fun s =>
          ((s.getD {}).set g id).bind fun s =>
            (nm.set offset (some s)).bind fun nm => .ok { r with noMatch := nm }

/-- results.go:78-94 -/
def hasMatchTo (r : Store w) (offset id to : Nat) : Res Bool :=
  if r.mtch.len ≤ offset then .ok false
  else (r.mtch.index offset).bind fun es => pairLoop id to es.toList

/-- The loop of results.go:103-113. -/
def longestLoop (id : Int) : List Int → Int × Bool → Res (Int × Bool)
  | [], acc => .ok acc
  | x :: rest, (to, found) =>
    if x != id then
      match rest with
      | [] => .ok (to, found)
      | _ :: rest => longestLoop id rest (to, found)
    else
      match rest with
      | [] => .panic
      | y :: rest => longestLoop id rest (if y > to then y else to, true)

/-- results.go:96-116 -/
def longestMatch (r : Store w) (offset id : Nat) : Res (Int × Bool) :=
  if r.mtch.len ≤ offset then .ok (0, false)
  else (r.mtch.index offset).bind fun es => longestLoop id es.toList (-1, false)

/-- The condition of results.go:119. -/
def noMatchHas (r : Store w) (offset id : Nat) : Res Bool :=
  if r.noMatch.len > offset then
    (r.noMatch.index offset).bind fun s =>
      match s with
      | some s => s.has id
      | none => .ok false
  else .ok false

/-- results.go:118-125: `to`, matched, found. -/
def longestResult (r : Store w) (offset id : Nat) : Res (Int × Bool × Bool) :=
  (r.noMatchHas offset id).bind fun no =>
    if no then .ok (0, false, true)
    else (r.longestMatch offset id).bind fun (to, ok) => .ok (to, ok, ok)

/-- The loop of results.go:128-137: the index of the entry that is dropped. -/
def dropIndex (id to : Int) : Nat → List Int → Res (Option Nat)
  | _, [] => .ok none
  | i, x :: rest =>
    if x != id then
      match rest with
      | [] => .ok none
      | _ :: rest => dropIndex id to (i + 2) rest
    else
      match rest with
      | [] => .panic
      | y :: rest => if y == to then .ok (some i) else dropIndex id to (i + 2) rest

/-- results.go:127-138 -/
def dropMatchTo (r : Store w) (offset id to : Nat) : Res (Store w) :=
  (r.mtch.index offset).bind fun es =>
    (dropIndex id to 0 es.toList).bind fun i =>
      match i with
      | none => .ok r
      | some i =>
        (es.set i (-1)).bind fun es =>
          (r.mtch.set offset es).bind fun m => .ok { r with mtch := m }

/-- results.go:140-142 -/
def resetPending (r : Store w) : Store w := { r with isPending := {} }

/-- results.go:144-156 -/
def pending (r : Store w) (offset id : Nat) : Res Bool :=
  if r.isPending.len ≤ id then .ok false
  else (r.isPending.index id).bind fun os => .ok (os.toList.any fun o => o == (offset : Int))

/-- results.go:158-168 -/
def markPending (g : Nat → Nat → Nat) (r : Store w) (offset id : Nat) : Res (Store w) :=
  (r.isPending.ensureOffset g {} id).bind fun ps =>
    (ps.index id).bind fun os =>
      (match os.toList.findIdx? (fun o => o == -1) with
       | some i => os.set i (offset : Int)
       | none => .ok (os.append g 0 [(offset : Int)])).bind fun os =>
        (ps.set id os).bind fun ps => .ok { r with isPending := ps }

/-- results.go:170-177 -/
def unmarkPending (r : Store w) (offset id : Nat) : Res (Store w) :=
  (r.isPending.index id).bind fun os =>
    match os.toList.findIdx? (fun o => o == (offset : Int)) with
    | none => .ok r
    | some i =>
      (os.set i (-1)).bind fun os =>
        (r.isPending.set id os).bind fun ps => .ok { r with isPending := ps }

end Store
end Treerack
