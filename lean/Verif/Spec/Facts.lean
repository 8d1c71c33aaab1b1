import Verif.Model.Store

/-
What a result store is for: a set of recorded matches, a set of recorded non-matches and a multiset of
pending marks.
-/

namespace Treerack.Spec

/-- The operations that change a result store (results.go). -/
inductive StoreOp where
  | setMatch (offset id to : Nat)
  | setNoMatch (offset id : Nat)
  | dropMatchTo (offset id to : Nat)
  | resetPending
  | markPending (offset id : Nat)
  | unmarkPending (offset id : Nat)
  deriving DecidableEq

/-- The recorded facts. -/
structure Facts where
  /-- `id` matches from `offset` to `to` -/
  mtch : Nat → Nat → Nat → Prop
  /-- `id` does not match at `offset` -/
  noMatch : Nat → Nat → Prop
  /-- how many times `id` is marked as pending at `offset` -/
  pending : Nat → Nat → Nat
  /-- no match was ever recorded at this offset or behind it -/
  offsets : Nat
  /-- no id from this one on has been marked since the last reset -/
  ids : Nat

/-- Nothing is recorded. -/
def Facts.empty : Facts :=
  { mtch := fun _ _ _ => False, noMatch := fun _ _ => False, pending := fun _ _ => 0,
    offsets := 0, ids := 0 }

/-- The effect of an operation; `none` is a panic: dropping a match at an offset where none has ever
been recorded, or removing a mark of an id that has never been marked. -/
def Facts.step (f : Facts) : StoreOp → Option Facts
  | .setMatch o i t =>
    some { f with mtch := fun o' i' t' => f.mtch o' i' t' ∨ (o' = o ∧ i' = i ∧ t' = t),
                  offsets := max f.offsets (o + 1) }
  | .setNoMatch o i =>
    some { f with
      noMatch := fun o' i' => f.noMatch o' i' ∨ (o' = o ∧ i' = i ∧ ∀ t, ¬ f.mtch o i t) }
  | .dropMatchTo o i t =>
    if o < f.offsets then
      some { f with mtch := fun o' i' t' => f.mtch o' i' t' ∧ ¬ (o' = o ∧ i' = i ∧ t' = t) }
    else none
  | .resetPending => some { f with pending := fun _ _ => 0, ids := 0 }
  | .markPending o i =>
    some { f with pending := fun o' i' => f.pending o' i' + if o' = o ∧ i' = i then 1 else 0,
                  ids := max f.ids (i + 1) }
  | .unmarkPending o i =>
    if i < f.ids then
      some { f with pending := fun o' i' => f.pending o' i' - if o' = o ∧ i' = i then 1 else 0 }
    else none

/-- A sequence of operations. -/
def Facts.run : List StoreOp → Facts → Option Facts
  | [], f => some f
  | op :: ops, f => (f.step op).bind (Facts.run ops)

/-- The answers of the store to all the queries are those given by the facts. -/
structure Answers {w : Nat} (st : Store w) (f : Facts) : Prop where
  hasMatchTo : ∀ o i t, ∃ b, st.hasMatchTo o i t = .ok b ∧ (b = true ↔ f.mtch o i t)
  longestMatch : ∀ o i, ∃ to found, st.longestMatch o i = .ok (to, found) ∧
    (found = true ↔ ∃ t, f.mtch o i t) ∧
    (found = true → ∃ t : Nat, to = t ∧ f.mtch o i t ∧ ∀ t', f.mtch o i t' → t' ≤ t)
  longestResult : ∀ o i, ∃ to matched found, st.longestResult o i = .ok (to, matched, found) ∧
    (found = true ↔ f.noMatch o i ∨ ∃ t, f.mtch o i t) ∧
    (matched = true ↔ ¬ f.noMatch o i ∧ ∃ t, f.mtch o i t) ∧
    (matched = true → ∃ t : Nat, to = t ∧ f.mtch o i t ∧ ∀ t', f.mtch o i t' → t' ≤ t)
  pending : ∀ o i, ∃ b, st.pending o i = .ok b ∧ (b = true ↔ 0 < f.pending o i)

end Treerack.Spec
