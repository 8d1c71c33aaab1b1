import Verif.Model.Results

/-
Lemmas on the result store: its operations in terms of three abstract views, `Has` (recorded match),
`NoM` (recorded non-match) and `pcount` (number of pending marks).
-/

namespace Treerack

theorem getD_ensureOffset {α : Type} (l : List (List α)) (o k : Nat) :
    (ensureOffset l o).getD k [] = l.getD k [] := by
  unfold ensureOffset
  simp only [List.getD_eq_getElem?_getD, List.getElem?_append, List.getElem?_replicate]
  split
  · rfl
  · rename_i h
    have : l[k]? = none := by simp; omega
    rw [this]
    split <;> rfl

theorem length_ensureOffset {α : Type} (l : List (List α)) (o : Nat) :
    (ensureOffset l o).length = max l.length (o + 1) := by
  unfold ensureOffset; simp; omega

theorem getD_modify {α : Type} (l : List (List α)) (o k : Nat) (f : List α → List α) :
    (l.modify o f).getD k [] = if k = o ∧ o < l.length then f (l.getD k []) else l.getD k [] := by
  simp only [List.getD_eq_getElem?_getD, List.getElem?_modify]
  by_cases h : o = k
  · subst h
    by_cases h2 : o < l.length
    · simp [h2]
    · simp [h2]
  · have : ¬ (k = o ∧ o < l.length) := fun h' => h h'.1.symm
    simp [h, this]

namespace Results

/-- A match of the definition `id` from `off` to `to` is recorded. -/
def Has (r : Results) (off id to : Nat) : Prop := ((id : Int), to) ∈ r.at_ off

/-- It is recorded that the definition `id` does not match at `off`. -/
def NoM (r : Results) (off id : Nat) : Prop := id ∈ r.noMatch.getD off []

/-- The number of pending marks of the definition `id` at `off`. -/
def pcount (r : Results) (off id : Nat) : Nat := (r.isPending.getD id []).count (off : Int)

theorem pending_iff (r : Results) (off id : Nat) : r.pending off id = true ↔ 0 < r.pcount off id := by
  simp [pending, pcount, List.count_pos_iff]

theorem pending_false_iff (r : Results) (off id : Nat) :
    r.pending off id = false ↔ r.pcount off id = 0 := by
  have := pending_iff r off id
  cases h : r.pending off id <;> simp_all
  omega

theorem at_setMatch (r : Results) (o i t off : Nat) :
    (r.setMatch o i t).at_ off = if off = o then
      (if (r.at_ o).any (fun e => e.1 == (i : Int) && e.2 == t) then r.at_ o
       else r.at_ o ++ [((i : Int), t)]) else r.at_ off := by
  unfold setMatch at_
  simp only [getD_ensureOffset]
  split
  · simp only [getD_ensureOffset]; split
    · subst_vars; rfl
    · rfl
  · simp only [getD_modify, getD_ensureOffset, length_ensureOffset]
    by_cases h : off = o
    · subst h
      have : off < max r.matches_.length (off + 1) := by omega
      simp
      omega
    · simp [h]

theorem has_setMatch (r : Results) (o i t off id to : Nat) :
    (r.setMatch o i t).Has off id to ↔ r.Has off id to ∨ (off = o ∧ id = i ∧ to = t) := by
  unfold Has
  rw [at_setMatch]
  by_cases h : off = o
  · subst h
    simp only [if_true, true_and]
    split
    · rename_i h
      simp only [List.any_eq_true, Bool.and_eq_true, beq_iff_eq] at h
      obtain ⟨e, he, h1, h2⟩ := h
      constructor
      · exact Or.inl
      · rintro (h | ⟨rfl, rfl⟩)
        · exact h
        · rw [← h1, ← h2]; exact he
    · simp [Int.ofNat_inj]
  · simp [h]

@[simp] theorem noM_setMatch (r : Results) (o i t off id : Nat) :
    (r.setMatch o i t).NoM off id ↔ r.NoM off id := by
  unfold NoM setMatch; simp only []; split <;> rfl

@[simp] theorem pcount_setMatch (r : Results) (o i t off id : Nat) :
    (r.setMatch o i t).pcount off id = r.pcount off id := by
  unfold pcount setMatch; simp only []; split <;> rfl

@[simp] theorem pending_setMatch (r : Results) (o i t off id : Nat) :
    (r.setMatch o i t).pending off id = r.pending off id := by
  unfold pending setMatch; simp only []; split <;> rfl

theorem isPending_setMatch (r : Results) (o i t : Nat) :
    (r.setMatch o i t).isPending = r.isPending := by
  unfold setMatch; simp only []; split <;> rfl

@[simp] theorem has_setNoMatch (r : Results) (o i off id to : Nat) :
    (r.setNoMatch o i).Has off id to ↔ r.Has off id to := by
  unfold Has setNoMatch at_; split <;> rfl

theorem noM_setNoMatch (r : Results) (o i off id : Nat) :
    (r.setNoMatch o i).NoM off id ↔ r.NoM off id ∨ (off = o ∧ id = i ∧ ∀ t, ¬ r.Has o i t) := by
  unfold setNoMatch
  split
  · rename_i h
    simp only [List.any_eq_true, beq_iff_eq] at h
    obtain ⟨⟨e1, e2⟩, he, h1⟩ := h
    constructor
    · exact Or.inl
    · rintro (h | ⟨-, -, h3⟩)
      · exact h
      · simp only at h1
        subst h1
        exact absurd he (h3 _)
  · rename_i h
    unfold NoM
    simp only [getD_modify, getD_ensureOffset, length_ensureOffset]
    have hno : ∀ t, ¬ r.Has o i t := by
      intro t ht
      apply h
      simp only [List.any_eq_true, beq_iff_eq]
      exact ⟨_, ht, rfl⟩
    by_cases h : off = o
    · subst h
      have : off < max r.noMatch.length (off + 1) := by omega
      simp only [this, and_self, if_true, List.mem_cons, true_and]
      constructor
      · rintro (h | h)
        · exact Or.inr ⟨h, hno⟩
        · exact Or.inl h
      · rintro (h | h)
        · exact Or.inr h
        · exact Or.inl h.1
    · simp [h]

@[simp] theorem pcount_setNoMatch (r : Results) (o i off id : Nat) :
    (r.setNoMatch o i).pcount off id = r.pcount off id := by
  unfold pcount setNoMatch; split <;> rfl

theorem isPending_setNoMatch (r : Results) (o i : Nat) :
    (r.setNoMatch o i).isPending = r.isPending := by
  unfold setNoMatch; split <;> rfl

theorem hasMatchTo_iff (r : Results) (off id to : Nat) : r.hasMatchTo off id to = true ↔ r.Has off id to := by
  unfold hasMatchTo Has
  simp only [List.any_eq_true, Bool.and_eq_true, beq_iff_eq]
  constructor
  · rintro ⟨e, he, h1, h2⟩
    rw [← h1, ← h2]; exact he
  · intro h; exact ⟨_, h, rfl, rfl⟩

/-- What the loop of `longestMatch` computes. -/
theorem longestLoop_spec (id : Nat) (es : List (Int × Nat)) (acc : Option Nat) :
    match longestLoop id es acc with
    | none => acc = none ∧ ∀ t, ((id : Int), t) ∉ es
    | some t => (acc = some t ∨ ((id : Int), t) ∈ es) ∧ (∀ t', acc = some t' → t' ≤ t) ∧
        ∀ t', ((id : Int), t') ∈ es → t' ≤ t := by
  induction es generalizing acc with
  | nil =>
    cases acc <;> simp [longestLoop]
  | cons e es ih =>
    obtain ⟨ei, et⟩ := e
    by_cases h : ei = (id : Int)
    · subst h
      rw [show longestLoop id (((id : Int), et) :: es) acc =
        (match acc with
          | none => longestLoop id es (some et)
          | some t => longestLoop id es (some (if et > t then et else t))) by
        conv => lhs; unfold longestLoop
        cases acc <;> simp]
      cases acc with
      | none =>
        simp only
        have := ih (some et)
        split at this
        · simp at this
        · rename_i t ht
          obtain ⟨h1, h2, h3⟩ := this
          refine ⟨?_, by simp, ?_⟩
          · rcases h1 with h1 | h1
            · simp at h1; subst h1; simp
            · right; simp [h1]
          · intro t' ht'
            simp only [List.mem_cons, Prod.mk.injEq, true_and] at ht'
            rcases ht' with ht' | ht'
            · subst ht'; exact h2 _ rfl
            · exact h3 _ ht'
      | some a =>
        simp only
        have := ih (some (if et > a then et else a))
        split at this
        · simp at this
        · rename_i t ht
          obtain ⟨h1, h2, h3⟩ := this
          have h2' := h2 _ rfl
          refine ⟨?_, ?_, ?_⟩
          · rcases h1 with h1 | h1
            · simp only [Option.some.injEq] at h1
              split at h1
              · subst h1; right; simp
              · subst h1; left; rfl
            · right; simp [h1]
          · intro t' ht'
            simp only [Option.some.injEq] at ht'
            subst ht'
            split at h2' <;> omega
          · intro t' ht'
            simp only [List.mem_cons, Prod.mk.injEq, true_and] at ht'
            rcases ht' with ht' | ht'
            · subst ht'; split at h2' <;> omega
            · exact h3 _ ht'
    · rw [show longestLoop id ((ei, et) :: es) acc = longestLoop id es acc by
        conv => lhs; unfold longestLoop
        simp [h]]
      have := ih acc
      split at this
      · rename_i ht
        refine ⟨this.1, ?_⟩
        intro t ht'
        simp only [List.mem_cons, Prod.mk.injEq] at ht'
        rcases ht' with ht' | ht'
        · exact h ht'.1.symm
        · exact this.2 _ ht'
      · rename_i t ht
        obtain ⟨h1, h2, h3⟩ := this
        refine ⟨?_, h2, ?_⟩
        · rcases h1 with h1 | h1
          · exact Or.inl h1
          · right; simp [h1]
        · intro t' ht'
          simp only [List.mem_cons, Prod.mk.injEq] at ht'
          rcases ht' with ht' | ht'
          · exact absurd ht'.1.symm h
          · exact h3 _ ht'

theorem longestMatch_none (r : Results) (off id : Nat) :
    r.longestMatch off id = none ↔ ∀ t, ¬ r.Has off id t := by
  have := longestLoop_spec id (r.at_ off) none
  unfold longestMatch
  split at this
  · rename_i h; rw [h]; simpa [Has] using this.2
  · rename_i t h
    rw [h]
    simp only [reduceCtorEq, false_iff]
    intro hn
    apply hn t
    rcases this.1 with h | h
    · cases h
    · exact h

theorem longestMatch_some (r : Results) (off id t : Nat) :
    r.longestMatch off id = some t ↔ r.Has off id t ∧ ∀ t', r.Has off id t' → t' ≤ t := by
  have := longestLoop_spec id (r.at_ off) none
  unfold longestMatch
  split at this
  · rename_i h
    rw [h]
    simp only [reduceCtorEq, false_iff]
    intro h'
    exact this.2 _ h'.1
  · rename_i u h
    rw [h]
    obtain ⟨h1, -, h3⟩ := this
    have h1 : r.Has off id u := by
      rcases h1 with h | h
      · cases h
      · exact h
    constructor
    · intro h; simp at h; subst h; exact ⟨h1, h3⟩
    · rintro ⟨h4, h5⟩
      have := h5 _ h1
      have := h3 _ h4
      simp; omega

theorem longestResult_none (r : Results) (off id : Nat) :
    r.longestResult off id = none ↔ ¬ r.NoM off id ∧ ∀ t, ¬ r.Has off id t := by
  unfold longestResult
  simp only [List.contains_iff_mem]
  split
  · rename_i h
    have h : r.NoM off id := h
    simp [h]
  · rename_i h
    have h : ¬ r.NoM off id := h
    rw [← longestMatch_none]
    cases h' : r.longestMatch off id <;> simp [h]

theorem longestResult_fail (r : Results) (off id : Nat) :
    r.longestResult off id = some none ↔ r.NoM off id := by
  unfold longestResult
  simp only [List.contains_iff_mem]
  split
  · rename_i h
    have h : r.NoM off id := h
    simp [h]
  · rename_i h
    have h : ¬ r.NoM off id := h
    cases h' : r.longestMatch off id <;> simp [h]

theorem longestResult_some (r : Results) (off id t : Nat) :
    r.longestResult off id = some (some t) ↔
      ¬ r.NoM off id ∧ r.Has off id t ∧ ∀ t', r.Has off id t' → t' ≤ t := by
  rw [← longestMatch_some]
  unfold longestResult
  simp only [List.contains_iff_mem]
  split
  · rename_i h
    have h : r.NoM off id := h
    simp [h]
  · rename_i h
    have h : ¬ r.NoM off id := h
    cases h' : r.longestMatch off id <;> simp [h]

theorem count_markLoop (o : Nat) (l : List Int) (off : Nat) :
    (markLoop o l).count (off : Int) = l.count (off : Int) + if off = o then 1 else 0 := by
  induction l with
  | nil =>
    simp only [markLoop, List.count_cons, List.count_nil, beq_iff_eq, Nat.zero_add]
    by_cases h : off = o
    · simp [h]
    · have : ¬ ((o : Int) = (off : Int)) := by omega
      simp [h, this]
  | cons x xs ih =>
    unfold markLoop
    split
    · rename_i h
      simp only [beq_iff_eq] at h
      subst h
      simp only [List.count_cons, beq_iff_eq]
      have : ¬ ((-1 : Int) = (off : Int)) := by omega
      by_cases h : off = o
      · subst h; simp [this]
      · have h2 : ¬ ((o : Int) = (off : Int)) := by omega
        simp [h, this, h2]
    · simp only [List.count_cons, ih]; omega

theorem pcount_markPending (r : Results) (o i off id : Nat) :
    (r.markPending o i).pcount off id = r.pcount off id + if off = o ∧ id = i then 1 else 0 := by
  unfold pcount markPending
  simp only [getD_modify, getD_ensureOffset, length_ensureOffset]
  by_cases h : id = i
  · subst h
    have : id < max r.isPending.length (id + 1) := by omega
    simp only [this, and_self, if_true, count_markLoop, and_true]
  · simp [h]

@[simp] theorem has_markPending (r : Results) (o i off id to : Nat) :
    (r.markPending o i).Has off id to ↔ r.Has off id to := Iff.rfl

@[simp] theorem noM_markPending (r : Results) (o i off id : Nat) :
    (r.markPending o i).NoM off id ↔ r.NoM off id := Iff.rfl

theorem length_markPending (r : Results) (o i : Nat) :
    (r.markPending o i).isPending.length = max r.isPending.length (i + 1) := by
  simp [markPending, length_ensureOffset]

theorem count_unmarkLoop (o : Nat) (l : List Int) (off : Nat) :
    (unmarkLoop o l).count (off : Int) = l.count (off : Int) - if off = o then 1 else 0 := by
  induction l with
  | nil => simp [unmarkLoop]
  | cons x xs ih =>
    unfold unmarkLoop
    split
    · rename_i h
      simp only [beq_iff_eq] at h
      subst h
      simp only [List.count_cons, beq_iff_eq]
      have : ¬ ((-1 : Int) = (off : Int)) := by omega
      by_cases h : off = o
      · subst h; simp [this]
      · have h2 : ¬ ((o : Int) = (off : Int)) := by omega
        simp [h, this, h2]
    · rename_i h
      simp only [beq_iff_eq] at h
      simp only [List.count_cons, ih, beq_iff_eq]
      by_cases h3 : off = o
      · subst h3
        have : ¬ (x = (off : Int)) := h
        simp [this]
      · simp [h3]

theorem pcount_pos_lt {r : Results} {o i : Nat} (h : 0 < r.pcount o i) : i < r.isPending.length := by
  unfold pcount at h
  by_cases h2 : i < r.isPending.length
  · exact h2
  · rw [List.getD_eq_getElem?_getD, List.getElem?_eq_none (by omega)] at h
    simp at h

/-- `unmarkPending` frees one mark, and it does not panic when there is one. -/
theorem unmarkPending_spec (r : Results) (o i : Nat) (h : i < r.isPending.length) :
    ∃ r', r.unmarkPending o i = .ok r' ∧ r'.matches_ = r.matches_ ∧ r'.noMatch = r.noMatch ∧
      r'.isPending.length = r.isPending.length ∧
      ∀ off id, r'.pcount off id = r.pcount off id - if off = o ∧ id = i then 1 else 0 := by
  unfold unmarkPending
  rw [if_pos h]
  refine ⟨_, rfl, rfl, rfl, by simp, ?_⟩
  intro off id
  unfold pcount
  simp only [getD_modify]
  by_cases h2 : id = i
  · subst h2; simp [h, count_unmarkLoop]
  · simp [h2]

theorem unmarkPending_ok {r r' : Results} {o i : Nat} (h : r.unmarkPending o i = .ok r') :
    i < r.isPending.length ∧ r'.matches_ = r.matches_ ∧ r'.noMatch = r.noMatch ∧
      r'.isPending.length = r.isPending.length ∧
      ∀ off id, r'.pcount off id = r.pcount off id - if off = o ∧ id = i then 1 else 0 := by
  have hi : i < r.isPending.length := by
    unfold unmarkPending at h
    split at h
    · assumption
    · cases h
  obtain ⟨r'', h1, h2⟩ := unmarkPending_spec r o i hi
  rw [h1] at h; cases h
  exact ⟨hi, h2⟩

theorem unmarkPending_ne_oof (r : Results) (o i : Nat) : r.unmarkPending o i ≠ .oof := by
  unfold unmarkPending; split <;> simp

theorem Has.congr {r r' : Results} (h : r'.matches_ = r.matches_) {off id to : Nat} :
    r'.Has off id to ↔ r.Has off id to := by unfold Has at_; rw [h]

theorem NoM.congr {r r' : Results} (h : r'.noMatch = r.noMatch) {off id : Nat} :
    r'.NoM off id ↔ r.NoM off id := by unfold NoM; rw [h]

/-! Dropping matches. -/

theorem mem_dropLoop_of_mem {i t : Nat} {es : List (Int × Nat)} {id to : Nat}
    (h : ((id : Int), to) ∈ dropLoop i t es) : ((id : Int), to) ∈ es := by
  induction es with
  | nil => simp [dropLoop] at h
  | cons e es ih =>
    unfold dropLoop at h
    split at h
    · simp only [List.mem_cons, Prod.mk.injEq] at h
      rcases h with h | h
      · omega
      · exact List.mem_cons_of_mem _ h
    · simp only [List.mem_cons] at h ⊢
      rcases h with h | h
      · exact Or.inl h
      · exact Or.inr (ih h)

theorem mem_dropLoop_of_ne {i t : Nat} {es : List (Int × Nat)} {id to : Nat}
    (h : ((id : Int), to) ∈ es) (hne : id ≠ i ∨ to ≠ t) : ((id : Int), to) ∈ dropLoop i t es := by
  induction es with
  | nil => simp at h
  | cons e es ih =>
    unfold dropLoop
    split
    · rename_i h'
      simp only [Bool.and_eq_true, beq_iff_eq] at h'
      simp only [List.mem_cons] at h ⊢
      rcases h with h | h
      · rw [← h] at h'
        simp only at h'
        omega
      · exact Or.inr h
    · simp only [List.mem_cons] at h ⊢
      rcases h with h | h
      · exact Or.inl h
      · exact Or.inr (ih h)

theorem dropMatchTo_ok {r r' : Results} {o i t : Nat} (h : r.dropMatchTo o i t = .ok r') :
    r'.noMatch = r.noMatch ∧ r'.isPending = r.isPending ∧ r'.matches_.length = r.matches_.length ∧
    (∀ off, r'.at_ off = if off = o then dropLoop i t (r.at_ o) else r.at_ off) := by
  unfold dropMatchTo at h
  split at h
  · rename_i hlt
    cases h
    refine ⟨rfl, rfl, by simp, ?_⟩
    intro off
    unfold at_
    simp only [getD_modify, hlt, and_true]
    split
    · subst_vars; rfl
    · rfl
  · cases h

theorem has_lt {r : Results} {o i t : Nat} (h : r.Has o i t) : o < r.matches_.length := by
  unfold Has at_ at h
  by_cases h2 : o < r.matches_.length
  · exact h2
  · rw [List.getD_eq_getElem?_getD, List.getElem?_eq_none (by omega)] at h
    simp at h

theorem dropMatchTo_spec (r : Results) (o i t : Nat) (h : o < r.matches_.length) :
    ∃ r', r.dropMatchTo o i t = .ok r' := by
  unfold dropMatchTo; rw [if_pos h]; exact ⟨_, rfl⟩

theorem dropMatchTo_ne_oof (r : Results) (o i t : Nat) : r.dropMatchTo o i t ≠ .oof := by
  unfold dropMatchTo; split <;> simp

theorem has_of_drop {r r' : Results} {o i t : Nat} (h : r.dropMatchTo o i t = .ok r')
    {off id to : Nat} (h2 : r'.Has off id to) : r.Has off id to := by
  unfold Has at *
  rw [(dropMatchTo_ok h).2.2.2] at h2
  split at h2
  · subst_vars; exact mem_dropLoop_of_mem h2
  · exact h2

theorem has_drop_of_ne {r r' : Results} {o i t : Nat} (h : r.dropMatchTo o i t = .ok r')
    {off id to : Nat} (h2 : r.Has off id to) (hne : off ≠ o ∨ id ≠ i ∨ to ≠ t) : r'.Has off id to := by
  unfold Has at *
  rw [(dropMatchTo_ok h).2.2.2]
  split
  · rename_i h3
    subst h3
    exact mem_dropLoop_of_ne h2 (by simpa using hne)
  · exact h2

/-- No record is stored twice. -/
def Once (r : Results) : Prop := ∀ off id to, (r.at_ off).count (((id : Nat) : Int), to) ≤ 1

theorem Once.congr {r r' : Results} (h : r.Once) (hm : r'.matches_ = r.matches_) : r'.Once := by
  intro off id to
  have := h off id to
  unfold at_ at *
  rw [hm]; exact this

theorem Once.setMatch {r : Results} (h : r.Once) (off id to : Nat) : (r.setMatch off id to).Once := by
  intro o i t
  have h1 := h o i t
  rw [at_setMatch]
  split
  · rename_i hc
    subst hc
    split
    · exact h1
    · rename_i hc
      rw [List.count_append]
      by_cases he : i = id ∧ t = to
      · obtain ⟨rfl, rfl⟩ := he
        have : (r.at_ o).count ((i : Int), t) = 0 := List.count_eq_zero.2 fun hm => hc (by
          simp only [List.any_eq_true, Bool.and_eq_true, beq_iff_eq]
          exact ⟨_, hm, rfl, rfl⟩)
        simp [this]
      · have : [((id : Int), to)].count ((i : Int), t) = 0 := by
          rw [List.count_eq_zero]; simp; omega
        omega
  · exact h1

theorem Once.setNoMatch {r : Results} (h : r.Once) (off id : Nat) : (r.setNoMatch off id).Once :=
  h.congr (by unfold Results.setNoMatch; split <;> rfl)

theorem Once.markPending {r : Results} (h : r.Once) (off id : Nat) : (r.markPending off id).Once :=
  h.congr rfl

theorem count_dropLoop (i t : Nat) : ∀ (es : List (Int × Nat)) (id to : Nat),
    (dropLoop i t es).count (((id : Nat) : Int), to) =
      es.count ((id : Int), to) - if id = i ∧ to = t then 1 else 0
  | [], _, _ => by simp [dropLoop]
  | e :: es, id, to => by
    unfold dropLoop
    split
    · rename_i h
      simp only [Bool.and_eq_true, beq_iff_eq] at h
      obtain ⟨e1, e2⟩ := e
      simp only at h
      obtain ⟨rfl, rfl⟩ := h
      by_cases he : id = i ∧ to = e2
      · obtain ⟨rfl, rfl⟩ := he
        simp
      · rw [if_neg he, List.count_cons, List.count_cons, if_neg (by simp), if_neg (by simp; omega)]
        rfl
    · rename_i h
      rw [List.count_cons, List.count_cons, count_dropLoop i t es]
      simp only [Bool.and_eq_true, beq_iff_eq] at h
      obtain ⟨e1, e2⟩ := e
      simp only at h
      by_cases he : id = i ∧ to = t
      · obtain ⟨rfl, rfl⟩ := he
        have hne : ((e1, e2) == ((id : Int), to)) = false := by
          simp only [beq_eq_false_iff_ne, ne_eq, Prod.mk.injEq]; exact h
        simp [hne]
      · rw [if_neg he]; omega

theorem Once.drop {r r' : Results} {o i t : Nat} (h : r.Once) (hd : r.dropMatchTo o i t = .ok r') : r'.Once := by
  intro off id to
  rw [(dropMatchTo_ok hd).2.2.2]
  split
  · rw [count_dropLoop]
    have := h o id to
    omega
  · exact h off id to

/-- A dropped record is gone. -/
theorem Once.gone {r r' : Results} {o i t : Nat} (h : r.Once) (hd : r.dropMatchTo o i t = .ok r') : ¬ r'.Has o i t := by
  intro hh
  unfold Has at hh
  rw [(dropMatchTo_ok hd).2.2.2, if_pos rfl] at hh
  have h1 := List.count_pos_iff.2 hh
  rw [count_dropLoop, if_pos ⟨rfl, rfl⟩] at h1
  have := h o i t
  omega

end Results
end Treerack
