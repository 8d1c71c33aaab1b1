import Verif.Proofs.Store
import Verif.Spec.Facts

/-
C29: the result store behaves like a set of facts (results.go, idset.go).
-/

namespace Treerack
open Spec

/-- An operation on the slice level store.  `g` is the growth of slices during the operation. -/
def Store.step {w : Nat} (g : Nat → Nat → Nat) (st : Store w) : StoreOp → Res (Store w)
  | .setMatch o i t => st.setMatch g o i t
  | .setNoMatch o i => st.setNoMatch g o i
  | .dropMatchTo o i t => st.dropMatchTo o i t
  | .resetPending => .ok st.resetPending
  | .markPending o i => st.markPending g o i
  | .unmarkPending o i => st.unmarkPending o i

/-- A sequence of operations, each with its own growth of slices. -/
def Store.run {w : Nat} : List ((Nat → Nat → Nat) × StoreOp) → Store w → Res (Store w)
  | [], st => .ok st
  | (g, op) :: ops, st => (st.step g op).bind (Store.run ops)

/-- An operation on the list level store that the parser model uses. -/
def Results.step (r : Results) : StoreOp → Res Results
  | .setMatch o i t => .ok (r.setMatch o i t)
  | .setNoMatch o i => .ok (r.setNoMatch o i)
  | .dropMatchTo o i t => r.dropMatchTo o i t
  | .resetPending => .ok r.resetPending
  | .markPending o i => .ok (r.markPending o i)
  | .unmarkPending o i => r.unmarkPending o i

def Results.run : List StoreOp → Results → Res Results
  | [], r => .ok r
  | op :: ops, r => (r.step op).bind (Results.run ops)

/-- Both levels end in the same way. -/
def SameOutcome {w : Nat} (x : Res (Store w)) (y : Res Results) : Prop :=
  match y with
  | .ok r => ∃ st, x = .ok st ∧ st.Abs r
  | .panic => x = .panic
  | .oof => False

theorem step_abs {w : Nat} (hw : 0 < w) {st : Store w} {r : Results} (h : st.Abs r)
    (g : Nat → Nat → Nat) (op : StoreOp) : SameOutcome (st.step g op) (r.step op) := by
  cases op with
  | setMatch o i t => exact Store.setMatch_abs h g o i t
  | setNoMatch o i => exact Store.setNoMatch_abs hw h g o i
  | dropMatchTo o i t =>
    have := Store.dropMatchTo_abs h o i t
    simp only [Store.step, Results.step, SameOutcome]
    cases hr : r.dropMatchTo o i t <;> rw [hr] at this <;> exact this
  | resetPending => exact ⟨_, rfl, Store.resetPending_abs h⟩
  | markPending o i => exact Store.markPending_abs h g o i
  | unmarkPending o i =>
    have := Store.unmarkPending_abs h o i
    simp only [Store.step, Results.step, SameOutcome]
    cases hr : r.unmarkPending o i <;> rw [hr] at this <;> exact this

theorem run_abs {w : Nat} (hw : 0 < w) : ∀ (ops : List ((Nat → Nat → Nat) × StoreOp)) {st : Store w}
    {r : Results}, st.Abs r → SameOutcome (Store.run ops st) (Results.run (ops.map Prod.snd) r)
  | [], st, r, h => ⟨st, rfl, h⟩
  | (g, op) :: ops, st, r, h => by
    have := step_abs hw h g op
    simp only [Store.run, List.map_cons, Results.run]
    cases hr : r.step op with
    | ok r' =>
      rw [hr] at this
      obtain ⟨st', e, h'⟩ := this
      rw [e]
      exact run_abs hw ops h'
    | panic => rw [hr] at this; rw [show st.step g op = .panic from this]; exact rfl
    | oof => rw [hr] at this; exact this.elim

/-- The list level store answers the queries in the same way. -/
structure SameAnswers {w : Nat} (st : Store w) (r : Results) : Prop where
  hasMatchTo : ∀ o i t, st.hasMatchTo o i t = .ok (r.hasMatchTo o i t)
  longestMatch : ∀ o i, match r.longestMatch o i with
    | some t => st.longestMatch o i = .ok ((t : Int), true)
    | none => ∃ to, st.longestMatch o i = .ok (to, false)
  longestResult : ∀ o i, match r.longestResult o i with
    | some (some t) => st.longestResult o i = .ok ((t : Int), true, true)
    | some none => ∃ to, st.longestResult o i = .ok (to, false, true)
    | none => ∃ to, st.longestResult o i = .ok (to, false, false)
  pending : ∀ o i, st.pending o i = .ok (r.pending o i)

theorem Store.Abs.answers {w : Nat} (hw : 0 < w) {st : Store w} {r : Results} (h : st.Abs r) :
    SameAnswers st r where
  hasMatchTo := Store.hasMatchTo_abs h
  longestMatch o i := by
    obtain ⟨⟨to, found⟩, hy, hL⟩ := Store.longestMatch_abs h o i
    unfold Store.Longest at hL
    cases hm : r.longestMatch o i with
    | none => rw [hm] at hL; simp only at hL; subst hL; exact ⟨to, hy⟩
    | some t => rw [hm] at hL; simp only at hL; rw [hy, hL]
  longestResult o i := by
    obtain ⟨⟨to, m, found⟩, hy, hL⟩ := Store.longestResult_abs hw h o i
    unfold Store.LongestResult at hL
    cases hm : r.longestResult o i with
    | none =>
      rw [hm] at hL; simp only [Prod.mk.injEq] at hL
      obtain ⟨rfl, rfl⟩ := hL; exact ⟨to, hy⟩
    | some x =>
      cases x with
      | none =>
        rw [hm] at hL; simp only [Prod.mk.injEq] at hL
        obtain ⟨rfl, rfl⟩ := hL; exact ⟨to, hy⟩
      | some t => rw [hm] at hL; simp only at hL; rw [hy, hL]
  pending := Store.pending_abs h

/-- **C29** (refinement): for every word size, every growth of slices and every sequence of operations,
the slice level store of results.go panics exactly when the list level store of the parser model does,
and otherwise it answers every query in the same way. -/
theorem C29_refinement {w : Nat} (hw : 0 < w) (ops : List ((Nat → Nat → Nat) × StoreOp)) :
    match Results.run (ops.map Prod.snd) {} with
    | .ok r => ∃ st : Store w, Store.run ops {} = .ok st ∧ SameAnswers st r
    | .panic => Store.run ops ({} : Store w) = .panic
    | .oof => False := by
  have := run_abs hw ops (Store.Abs.empty (w := w))
  unfold SameOutcome at this
  cases hr : Results.run (ops.map Prod.snd) {} with
  | ok r =>
    rw [hr] at this
    obtain ⟨st, e, h⟩ := this
    exact ⟨st, e, h.answers hw⟩
  | panic => rw [hr] at this; exact this
  | oof => rw [hr] at this; exact this

/-! ### The list level store and the facts -/

/-- The list level store records the facts, every match at most once. -/
structure Records (r : Results) (f : Facts) : Prop where
  mtch : ∀ o i t, r.Has o i t ↔ f.mtch o i t
  once : ∀ o (i : Nat) t, (r.at_ o).count ((i : Int), t) ≤ 1
  noMatch : ∀ o i, r.NoM o i ↔ f.noMatch o i
  pending : ∀ o i, r.pcount o i = f.pending o i
  offsets : r.matches_.length = f.offsets
  ids : r.isPending.length = f.ids

theorem Records.empty : Records {} Facts.empty where
  mtch := by simp [Results.Has, Results.at_, Facts.empty]
  once := by simp [Results.at_]
  noMatch := by simp [Results.NoM, Facts.empty]
  pending := by simp [Results.pcount, Facts.empty]
  offsets := rfl
  ids := rfl

theorem count_dropLoop (i t id to : Nat) : ∀ es : List (Int × Nat),
    (Results.dropLoop i t es).count ((id : Int), to) =
      es.count ((id : Int), to) - if id = i ∧ to = t then 1 else 0
  | [] => by simp [Results.dropLoop]
  | e :: es => by
    rw [Results.dropLoop]
    by_cases he : e = ((i : Int), t)
    · subst he
      rw [if_pos (by simp), List.count_cons, List.count_cons]
      have h1 : (((-1 : Int), t) == ((id : Int), to)) = false := by
        rw [beq_eq_false_iff_ne]
        intro h
        have := (Prod.mk.inj h).1
        omega
      rw [h1]
      by_cases hc : id = i ∧ to = t
      · obtain ⟨rfl, rfl⟩ := hc; simp
      · rw [if_neg hc]
        have : (((i : Int), t) == ((id : Int), to)) = false := by
          rw [beq_eq_false_iff_ne]
          intro h
          exact hc ⟨(Int.ofNat_inj.1 (Prod.mk.inj h).1).symm, (Prod.mk.inj h).2.symm⟩
        rw [this]; simp
    · have hb : (e.1 == (i : Int) && e.2 == t) = false := by
        cases h : (e.1 == (i : Int) && e.2 == t) with
        | false => rfl
        | true =>
          simp only [Bool.and_eq_true, beq_iff_eq] at h
          exact absurd (Prod.ext h.1 h.2) he
      rw [if_neg (by rw [hb]; simp), List.count_cons, List.count_cons, count_dropLoop i t id to es]
      by_cases hc : id = i ∧ to = t
      · obtain ⟨rfl, rfl⟩ := hc
        rw [if_pos ⟨rfl, rfl⟩, beq_eq_false_iff_ne.2 he]; simp
      · rw [if_neg hc]; simp

theorem records_step {r : Results} {f : Facts} (h : Records r f) (op : StoreOp) :
    match f.step op with
    | some f' => ∃ r', r.step op = .ok r' ∧ Records r' f'
    | none => r.step op = .panic := by
  cases op with
  | setMatch o i t =>
    refine ⟨_, rfl, ⟨?_, ?_, ?_, ?_, ?_, ?_⟩⟩
    · intro o' i' t'
      rw [Results.has_setMatch, h.mtch]
    · intro o' i' t'
      rw [Results.at_setMatch]
      split
      · rename_i ho
        subst ho
        split
        · exact h.once _ _ _
        · rename_i hn
          rw [List.count_append]
          have h1 := h.once o' i' t'
          by_cases hc : (i', t') = (i, t)
          · obtain ⟨rfl, rfl⟩ := Prod.mk.inj hc
            have : (r.at_ o').count ((i' : Int), t') = 0 := by
              rw [List.count_eq_zero]
              intro hm
              apply hn
              rw [List.any_eq_true]
              exact ⟨_, hm, by simp⟩
            rw [this]; simp
          · have : List.count ((i' : Int), t') [((i : Int), t)] = 0 := by
              rw [List.count_eq_zero]
              intro hm
              rw [List.mem_singleton] at hm
              exact hc (Prod.ext (Int.ofNat_inj.1 (Prod.mk.inj hm).1) (Prod.mk.inj hm).2)
            omega
      · exact h.once _ _ _
    · intro o' i'; rw [Results.noM_setMatch, h.noMatch]
    · intro o' i'; rw [Results.pcount_setMatch, h.pending]
    · rw [← h.offsets, Results.setMatch]
      simp only []
      split <;> simp [length_ensureOffset]
    · rw [Results.isPending_setMatch, h.ids]
  | setNoMatch o i =>
    have hm : (r.setNoMatch o i).matches_ = r.matches_ := by
      unfold Results.setNoMatch; split <;> rfl
    refine ⟨_, rfl, ⟨?_, ?_, ?_, ?_, ?_, ?_⟩⟩
    · intro o' i' t'; rw [Results.has_setNoMatch, h.mtch]
    · intro o' i' t'; rw [Results.at_, hm]; exact h.once o' i' t'
    · intro o' i'
      rw [Results.noM_setNoMatch, h.noMatch]
      simp only [h.mtch]
    · intro o' i'; rw [Results.pcount_setNoMatch, h.pending]
    · rw [hm, h.offsets]
    · rw [Results.isPending_setNoMatch, h.ids]
  | dropMatchTo o i t =>
    simp only [Facts.step, Results.step]
    by_cases ho : o < f.offsets
    · rw [if_pos ho]
      obtain ⟨r', hr⟩ := Results.dropMatchTo_spec r o i t (by rw [h.offsets]; exact ho)
      obtain ⟨h1, h2, h3, h4⟩ := Results.dropMatchTo_ok hr
      have hcount : ∀ o' (i' : Nat) t', (r'.at_ o').count ((i' : Int), t') =
          (r.at_ o').count ((i' : Int), t') - if o' = o ∧ i' = i ∧ t' = t then 1 else 0 := by
        intro o' i' t'
        rw [h4]
        by_cases ho' : o' = o
        · subst ho'
          rw [if_pos rfl, count_dropLoop]; simp
        · rw [if_neg ho', if_neg (fun h => ho' h.1)]; simp
      refine ⟨r', hr, ⟨?_, ?_, ?_, ?_, ?_, ?_⟩⟩
      · intro o' i' t'
        have hc := hcount o' i' t'
        have ho1 := h.once o' i' t'
        simp only []
        rw [← h.mtch, Results.Has, Results.Has, ← List.count_pos_iff, ← List.count_pos_iff]
        by_cases hx : o' = o ∧ i' = i ∧ t' = t
        · rw [if_pos hx] at hc
          constructor
          · intro hp; omega
          · intro hp; exact absurd hx hp.2
        · rw [if_neg hx] at hc
          constructor
          · intro hp; exact ⟨by omega, hx⟩
          · intro hp; omega
      · intro o' i' t'
        have hc := hcount o' i' t'
        have ho1 := h.once o' i' t'
        omega
      · intro o' i'; rw [Results.NoM.congr h1, h.noMatch]
      · intro o' i'; rw [Results.pcount, h2]; exact h.pending o' i'
      · rw [h3, h.offsets]
      · rw [h2, h.ids]
    · rw [if_neg ho]
      rw [Results.dropMatchTo, if_neg (by rw [h.offsets]; exact ho)]
  | resetPending =>
    refine ⟨_, rfl, ⟨h.mtch, h.once, h.noMatch, ?_, h.offsets, rfl⟩⟩
    intro o i; simp [Results.pcount, Results.resetPending]
  | markPending o i =>
    refine ⟨_, rfl, ⟨?_, ?_, ?_, ?_, ?_, ?_⟩⟩
    · intro o' i' t'; rw [Results.has_markPending, h.mtch]
    · exact h.once
    · intro o' i'; rw [Results.noM_markPending, h.noMatch]
    · intro o' i'; rw [Results.pcount_markPending, h.pending]
    · exact h.offsets
    · rw [Results.length_markPending, h.ids]
  | unmarkPending o i =>
    simp only [Facts.step, Results.step]
    by_cases hi : i < f.ids
    · rw [if_pos hi]
      obtain ⟨r', hr, h1, h2, h3, h4⟩ := Results.unmarkPending_spec r o i (by rw [h.ids]; exact hi)
      refine ⟨r', hr, ⟨?_, ?_, ?_, ?_, ?_, ?_⟩⟩
      · intro o' i' t'; rw [Results.Has.congr h1, h.mtch]
      · intro o' i' t'; rw [Results.at_, h1]; exact h.once o' i' t'
      · intro o' i'; rw [Results.NoM.congr h2, h.noMatch]
      · intro o' i'; rw [h4, h.pending]
      · rw [h1, h.offsets]
      · rw [h3, h.ids]
    · rw [if_neg hi]
      rw [Results.unmarkPending, if_neg (by rw [h.ids]; exact hi)]

theorem records_run : ∀ (ops : List StoreOp) {r : Results} {f : Facts}, Records r f →
    match f.run ops with
    | some f' => ∃ r', Results.run ops r = .ok r' ∧ Records r' f'
    | none => Results.run ops r = .panic
  | [], r, f, h => ⟨r, rfl, h⟩
  | op :: ops, r, f, h => by
    have := records_step h op
    simp only [Facts.run, Results.run]
    cases hf : f.step op with
    | some f' =>
      rw [hf] at this
      obtain ⟨r', e, h'⟩ := this
      rw [e]
      exact records_run ops h'
    | none =>
      rw [hf] at this
      simp only at this
      rw [this]; rfl

theorem Records.answers {w : Nat} {st : Store w} {r : Results} {f : Facts} (ha : SameAnswers st r)
    (h : Records r f) : Answers st f where
  hasMatchTo o i t :=
    ⟨_, ha.hasMatchTo o i t, by rw [Results.hasMatchTo_iff, h.mtch]⟩
  longestMatch o i := by
    have hl := ha.longestMatch o i
    cases hm : r.longestMatch o i with
    | none =>
      rw [hm] at hl
      obtain ⟨to, hl⟩ := hl
      have := (Results.longestMatch_none r o i).1 hm
      refine ⟨to, false, hl, ⟨fun h => absurd h (by simp), fun ⟨t, ht⟩ => ?_⟩, fun h => absurd h (by simp)⟩
      exact absurd ((h.mtch o i t).2 ht) (this t)
    | some t =>
      rw [hm] at hl
      have := (Results.longestMatch_some r o i t).1 hm
      have ht := (h.mtch o i t).1 this.1
      exact ⟨t, true, hl, ⟨fun _ => ⟨t, ht⟩, fun _ => rfl⟩,
        fun _ => ⟨t, rfl, ht, fun t' h' => this.2 t' ((h.mtch o i t').2 h')⟩⟩
  longestResult o i := by
    have hl := ha.longestResult o i
    cases hm : r.longestResult o i with
    | none =>
      rw [hm] at hl
      obtain ⟨to, hl⟩ := hl
      have := (Results.longestResult_none r o i).1 hm
      have h1 : ¬ f.noMatch o i := fun hn => this.1 ((h.noMatch o i).2 hn)
      have h2 : ∀ t, ¬ f.mtch o i t := fun t ht => this.2 t ((h.mtch o i t).2 ht)
      refine ⟨to, false, false, hl, ⟨fun h => absurd h (by simp), ?_⟩,
        ⟨fun h => absurd h (by simp), ?_⟩, fun h => absurd h (by simp)⟩
      · rintro (hn | ⟨t, ht⟩)
        · exact absurd hn h1
        · exact absurd ht (h2 t)
      · rintro ⟨_, t, ht⟩
        exact absurd ht (h2 t)
    | some x =>
      cases x with
      | none =>
        rw [hm] at hl
        obtain ⟨to, hl⟩ := hl
        have := (h.noMatch o i).1 ((Results.longestResult_fail r o i).1 hm)
        exact ⟨to, false, true, hl, ⟨fun _ => .inl this, fun _ => rfl⟩,
          ⟨fun h => absurd h (by simp), fun h => absurd this h.1⟩, fun h => absurd h (by simp)⟩
      | some t =>
        rw [hm] at hl
        have := (Results.longestResult_some r o i t).1 hm
        have hn : ¬ f.noMatch o i := fun hn => this.1 ((h.noMatch o i).2 hn)
        have ht := (h.mtch o i t).1 this.2.1
        exact ⟨t, true, true, hl, ⟨fun _ => .inr ⟨t, ht⟩, fun _ => rfl⟩,
          ⟨fun _ => ⟨hn, t, ht⟩, fun _ => rfl⟩,
          fun _ => ⟨t, rfl, ht, fun t' h' => this.2.2 t' ((h.mtch o i t').2 h')⟩⟩
  pending o i := ⟨_, ha.pending o i, by rw [Results.pending_iff, h.pending]⟩

/-- **C29**: for every word size, every growth of slices (also a different one in each operation) and
every sequence of operations, the result store answers every query as the recorded facts say, and it
panics exactly when a match is dropped at an offset that has never been used or a mark is removed of an
id that has never been used. -/
theorem C29_facts {w : Nat} (hw : 0 < w) (ops : List ((Nat → Nat → Nat) × StoreOp)) :
    match Facts.run (ops.map Prod.snd) Facts.empty with
    | some f => ∃ st : Store w, Store.run ops {} = .ok st ∧ Answers st f
    | none => Store.run ops ({} : Store w) = .panic := by
  have h1 := C29_refinement (w := w) hw ops
  have h2 := records_run (ops.map Prod.snd) Records.empty
  cases hf : Facts.run (ops.map Prod.snd) Facts.empty with
  | none =>
    rw [hf] at h2
    simp only at h2
    rw [h2] at h1
    exact h1
  | some f =>
    rw [hf] at h2
    obtain ⟨r, hr, hrec⟩ := h2
    rw [hr] at h1
    obtain ⟨st, hst, hans⟩ := h1
    exact ⟨st, hst, hrec.answers hans⟩

/-- **C29** for the set of ids (idset.go): it contains what was set last and not unset, for every word
size and every growth of its slice. -/
theorem C29_idSet {w : Nat} (hw : 0 < w) (g : Nat → Nat → Nat) {s : IdSet w} (h : s.WF) (id : Nat) :
    (∃ s', s.set g id = .ok s' ∧ s'.WF ∧
      ∀ i, ∃ b b', s.has i = .ok b ∧ s'.has i = .ok b' ∧ (b' = true ↔ b = true ∨ i = id)) ∧
    (∃ s', s.unset id = .ok s' ∧ s'.WF ∧
      ∀ i, ∃ b b', s.has i = .ok b ∧ s'.has i = .ok b' ∧ (b' = true ↔ b = true ∧ i ≠ id)) := by
  constructor
  · obtain ⟨s', a, b, c⟩ := IdSet.set_eq hw g h id
    exact ⟨s', a, b, fun i => ⟨_, _, IdSet.has_eq hw h i, IdSet.has_eq hw b i, by simp [c]⟩⟩
  · obtain ⟨s', a, b, c⟩ := IdSet.unset_eq hw h id
    exact ⟨s', a, b, fun i => ⟨_, _, IdSet.has_eq hw h i, IdSet.has_eq hw b i, by simp [c]⟩⟩

/-! ### A concrete case -/

/-- Operations with growth, re-slicing up to the capacity, a reused slot and two words in the bit set. -/
def sampleOps : List ((Nat → Nat → Nat) × StoreOp) :=
  [(fun _ n => 2 * n, .setMatch 2 1 5), (fun _ n => n + 3, .setMatch 2 1 7), (fun _ _ => 0, .setMatch 4 1 4),
   (fun _ n => 2 * n, .setNoMatch 1 70), (fun _ _ => 0, .setNoMatch 2 1), (fun _ n => n + 1, .setNoMatch 1 3),
   (fun _ _ => 0, .dropMatchTo 2 1 7), (fun _ n => n, .markPending 3 2), (fun _ n => n, .markPending 3 2),
   (fun _ n => n, .unmarkPending 3 2), (fun _ n => n, .markPending 0 2)]

/-- The run of the sample succeeds, and the store gives the expected answers. -/
example : (match Store.run sampleOps ({} : Store 32) with
    | .ok st => decide (st.longestMatch 2 1 = .ok (5, true) ∧ st.hasMatchTo 2 1 7 = .ok false ∧
        st.longestResult 1 70 = .ok (0, false, true) ∧ st.longestResult 1 71 = .ok (-1, false, false) ∧
        st.longestResult 2 1 = .ok (5, true, true) ∧ st.pending 3 2 = .ok true ∧
        st.pending 0 2 = .ok true ∧ st.pending 1 2 = .ok false)
    | _ => false) = true := by
  decide +kernel

end Treerack
