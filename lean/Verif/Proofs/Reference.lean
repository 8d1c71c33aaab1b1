import Verif.Spec.Reference
import Verif.Proofs.Parse

/-
Properties of the reference semantics: it is deterministic, and total without left recursion.
-/

namespace Treerack.Spec

variable {N : Type} {G : Grammar N} {B : N → Nat → Nat → Prop} {input : List Rune}

theorem LeftCalls.trans {a b c : N} (h : LeftCalls G a b) (h' : LeftCalls G b c) : LeftCalls G a c := by
  induction h with
  | one h => exact .step h h'
  | step h _ ih => exact .step h (ih h')

theorem Growth.unique {n : N} {os fs bs ls fs' bs' ls' : List N} (h : Growth G n os fs bs ls) (h' : Growth G n os fs' bs' ls') :
    fs = fs' ∧ bs = bs' ∧ ls = ls' := by
  have second : ∀ {bs bs' : List N}, bs ++ ls = bs' ++ ls' → (∀ o ∈ bs, ¬ Recurs G n o) → (∀ o ∈ bs', ¬ Recurs G n o) →
      bs = bs' ∧ ls = ls' := by
    intro bs
    induction bs with
    | nil =>
      intro bs' e h1 h2
      cases bs' with
      | nil => exact ⟨rfl, e⟩
      | cons b bs' => exact absurd (h.lasts b (by simp only [List.nil_append] at e; simp [e])) (h2 b (by simp))
    | cons b bs ih =>
      intro bs' e h1 h2
      cases bs' with
      | nil => exact absurd (h'.lasts b (by simp only [List.nil_append] at e; simp [← e])) (h1 b (by simp))
      | cons b' bs' =>
        simp only [List.cons_append, List.cons.injEq] at e
        obtain ⟨g1, g2⟩ := ih e.2 (fun o ho => h1 o (by simp [ho])) (fun o ho => h2 o (by simp [ho]))
        exact ⟨by rw [e.1, g1], g2⟩
  have first : ∀ {fs fs' : List N}, fs ++ (bs ++ ls) = fs' ++ (bs' ++ ls') → (∀ o ∈ fs, Recurs G n o) → (∀ o ∈ fs', Recurs G n o) →
      fs = fs' ∧ bs ++ ls = bs' ++ ls' := by
    intro fs
    induction fs with
    | nil =>
      intro fs' e h1 h2
      cases fs' with
      | nil => exact ⟨rfl, e⟩
      | cons f fs' =>
        cases hb : bs with
        | nil => rw [hb, h.canonical hb] at e; cases e
        | cons b bs1 =>
          rw [hb] at e
          simp only [List.nil_append, List.cons_append, List.cons.injEq] at e
          exact absurd (h2 f (by simp)) (h.bases f (by rw [hb, e.1]; simp))
    | cons f fs ih =>
      intro fs' e h1 h2
      cases fs' with
      | nil =>
        cases hb : bs' with
        | nil => rw [hb, h'.canonical hb] at e; cases e
        | cons b bs1 =>
          rw [hb] at e
          simp only [List.nil_append, List.cons_append, List.cons.injEq] at e
          exact absurd (h1 f (by simp)) (h'.bases f (by rw [hb, e.1]; simp))
      | cons f' fs' =>
        simp only [List.cons_append, List.cons.injEq] at e
        obtain ⟨g1, g2⟩ := ih e.2 (fun o ho => h1 o (by simp [ho])) (fun o ho => h2 o (by simp [ho]))
        exact ⟨by rw [e.1, g1], g2⟩
  have e := h.options.symm.trans h'.options
  obtain ⟨g1, g2⟩ := first e h.firsts h'.firsts
  obtain ⟨g3, g4⟩ := second g2 h.bases h'.bases
  exact ⟨g1, g3, g4⟩

/-- The left recursive options are those attempted behind the others. -/
theorem Growth.mem {n : N} {os fs bs ls : List N} (h : Growth G n os fs bs ls) {o : N} : o ∈ os ↔ o ∈ ls ++ fs ∨ o ∈ bs := by
  rw [h.options]
  simp only [List.mem_append]
  constructor
  · rintro (h | h | h) <;> simp [h]
  · rintro ((h | h) | h) <;> simp [h]

theorem Growth.trials {n : N} {os fs bs ls : List N} (h : Growth G n os fs bs ls) {o : N} (ho : o ∈ ls ++ fs) : Recurs G n o := by
  rcases List.mem_append.1 ho with ho | ho
  · exact h.lasts o ho
  · exact h.firsts o ho

theorem RefFails.mem {ss : List N} {j : Nat} : RefFails G B input ss j → ∀ {s : N} {e : GDef N} {x : N × Int × Int}
    {tail : List (N × Int × Int)}, s ∈ ss → G s = some e → e.expr = .seq (x :: tail) → RefItems G B input tail 0 j none
  | .nil, _, _, _, _, h, _, _ => by cases h
  | .cons h1 h2 h3 h4, s, e, x, tail, h, g1, g2 => by
    rcases List.mem_cons.1 h with rfl | h
    · rw [h1] at g1; cases g1; rw [h2] at g2; cases g2; exact h3
    · exact RefFails.mem h4 h g1 g2

theorem RefFails.of_mem {j : Nat} : ∀ {ss : List N}, (∀ s ∈ ss, ∃ e x tail, G s = some e ∧ e.expr = .seq (x :: tail) ∧
    RefItems G B input tail 0 j none) → RefFails G B input ss j
  | [], _ => .nil
  | s :: ss, h => by
    obtain ⟨e, x, tail, h1, h2, h3⟩ := h s (by simp)
    exact .cons h1 h2 h3 (RefFails.of_mem fun s hs => h s (by simp [hs]))

/-- An earlier state of the attempts. -/
theorem RefChain.front {d : GDef N} {ss bs : List N} {i k j : Nat} {ns : List Node} : RefChain G B input d ss bs i k j ns → ∀ l, l ≤ k →
    ∃ j' ns', RefChain G B input d ss bs i l j' ns' ∧ j' ≤ j ∧
      ((∀ s ∈ ss, ∀ e x tail m, G s = some e → e.expr = .seq (x :: tail) → RefItems G B input tail 0 j' m → m = none) →
        j' = j ∧ ns' = ns)
  | .base h, l, hl => by
    obtain rfl : l = 0 := by omega
    exact ⟨_, _, .base h, Nat.le_refl _, fun _ => ⟨rfl, rfl⟩⟩
  | .skip (k := k) h1 h2 h3 h4 h5, l, hl => by
    by_cases hk : l = k + 1
    · subst hk
      exact ⟨_, _, .skip h1 h2 h3 h4 h5, Nat.le_refl _, fun _ => ⟨rfl, rfl⟩⟩
    · exact RefChain.front h1 l (by omega)
  | .step (k := k) h1 h2 h3 h4 h5 h6, l, hl => by
    by_cases hk : l = k + 1
    · subst hk
      exact ⟨_, _, .step h1 h2 h3 h4 h5 h6, Nat.le_refl _, fun _ => ⟨rfl, rfl⟩⟩
    · obtain ⟨j', ns', g1, g2, g3⟩ := RefChain.front h1 l (by omega)
      refine ⟨j', ns', g1, by omega, fun hf => ?_⟩
      obtain ⟨rfl, rfl⟩ := g3 hf
      cases hf _ (List.mem_of_getElem? h2) _ _ _ _ h3 h4 h5

theorem RefChain.hasBase {d : GDef N} {ss bs : List N} {i k j : Nat} {ns : List Node} : RefChain G B input d ss bs i k j ns →
    ∃ j' ns', RefOptions G B input bs i (some (j', ns'))
  | .base h => ⟨_, _, h⟩
  | .skip h _ _ _ _ => h.hasBase
  | .step h _ _ _ _ _ => h.hasBase

theorem eq_or_le {l k : Nat} {P F : Prop} (h1 : l = k → P) (h2 : l < k → F → P) : (l = k → P) ∧ (l ≤ k → F → P) :=
  ⟨h1, fun h f => (Nat.eq_or_lt_of_le h).elim h1 fun h => h2 h f⟩

mutual

theorem Ref.unique : ∀ {n : N} {i : Nat} {m m' : Match}, Ref G B input n i m → Ref G B input n i m' → m = m'
  | _, _, _, _, .char h1 h2 h3 h4, h => by
    cases h with
    | char g1 g2 g3 g4 => rfl
    | noChar g1 g2 g3 => rw [h1] at g1; cases g1; rw [h2] at g2; cases g2; exact absurd h4 (g3 _ h3)
    | choice g1 g2 g3 g4 => rw [h1] at g1; cases g1; rw [h2] at g2; cases g2
    | noBase g1 g2 g3 g4 g5 => rw [h1] at g1; cases g1; rw [h2] at g2; cases g2
    | grow g1 g2 g3 g4 g5 g6 => rw [h1] at g1; cases g1; rw [h2] at g2; cases g2
    | seq g1 g2 g3 g4 => rw [h1] at g1; cases g1; rw [h2] at g2; cases g2
    | blocked g1 g2 g3 g4 => rw [h1] at g1; cases g1; rw [h2] at g2; cases g2
  | _, _, _, _, .noChar h1 h2 h3, h => by
    cases h with
    | char g1 g2 g3 g4 => rw [h1] at g1; cases g1; rw [h2] at g2; cases g2; exact absurd g4 (h3 _ g3)
    | noChar g1 g2 g3 => rfl
    | choice g1 g2 g3 g4 => rw [h1] at g1; cases g1; rw [h2] at g2; cases g2
    | noBase g1 g2 g3 g4 g5 => rfl
    | grow g1 g2 g3 g4 g5 g6 => rw [h1] at g1; cases g1; rw [h2] at g2; cases g2
    | seq g1 g2 g3 g4 => rw [h1] at g1; cases g1; rw [h2] at g2; cases g2
    | blocked g1 g2 g3 g4 => rfl
  | _, _, _, _, .choice h1 h2 h3 h4, h => by
    have ih := fun m' => RefOptions.unique (m' := m') h4
    cases h with
    | char g1 g2 g3 g4 => rw [h1] at g1; cases g1; rw [h2] at g2; cases g2
    | noChar g1 g2 g3 => rw [h1] at g1; cases g1; rw [h2] at g2; cases g2
    | choice g1 g2 g3 g4 => rw [h1] at g1; cases g1; rw [h2] at g2; cases g2; rw [ih _ g4]
    | noBase g1 g2 g3 g4 g5 => rw [h1] at g1; cases g1; rw [h2] at g2; cases g2; exact absurd g3 (not_exists.2 h3)
    | grow g1 g2 g3 g4 g5 g6 => rw [h1] at g1; cases g1; rw [h2] at g2; cases g2; exact absurd g3 (not_exists.2 h3)
    | seq g1 g2 g3 g4 => rw [h1] at g1; cases g1; rw [h2] at g2; cases g2
    | blocked g1 g2 g3 g4 => rw [h1] at g1; cases g1; rw [h2] at g2; cases g2
  | _, _, _, _, .noBase h1 h2 h3 h4 h5, h => by
    have ih := fun m' => RefOptions.unique (m' := m') h5
    cases h with
    | char g1 g2 g3 g4 => rw [h1] at g1; cases g1; rw [h2] at g2; cases g2
    | noChar g1 g2 g3 => rfl
    | choice g1 g2 g3 g4 => exact absurd h3 (not_exists.2 g3)
    | noBase g1 g2 g3 g4 g5 => rfl
    | grow g1 g2 g3 g4 g5 g6 =>
      rw [h1] at g1; cases g1; rw [h2] at g2; cases g2
      obtain ⟨rfl, rfl, rfl⟩ := h4.unique g4
      obtain ⟨_, _, g7⟩ := g5.hasBase
      cases ih _ g7
    | seq g1 g2 g3 g4 => rw [h1] at g1; cases g1; rw [h2] at g2; cases g2
    | blocked g1 g2 g3 g4 => rfl
  | _, _, _, _, .grow (k := k) h1 h2 h3 h4 h5 h6, h => by
    have ih := fun l j' ns' => RefChain.unique h5 l j' ns'
    have ih2 := RefFails.unique h6
    have ih3 := RefChain.unique_base h5
    cases h with
    | char g1 g2 g3 g4 => rw [h1] at g1; cases g1; rw [h2] at g2; cases g2
    | noChar g1 g2 g3 => rw [h1] at g1; cases g1; rw [h2] at g2; cases g2
    | choice g1 g2 g3 g4 => exact absurd h3 (not_exists.2 g3)
    | noBase g1 g2 g3 g4 g5 =>
      rw [h1] at g1; cases g1; rw [h2] at g2; cases g2
      obtain ⟨rfl, rfl, rfl⟩ := h4.unique g4
      exact absurd rfl (ih3 _ g5)
    | grow g1 g2 g3 g4 g5 g6 =>
      rw [h1] at g1; cases g1; rw [h2] at g2; cases g2
      obtain ⟨rfl, rfl, rfl⟩ := h4.unique g4
      rename_i k' _ _
      rcases Nat.le_total k' k with hk | hk
      · obtain ⟨rfl, rfl⟩ := (ih _ _ _ g5).2 hk g6
        rfl
      · obtain ⟨j2, ns2, g7, -, g8⟩ := g5.front k hk
        obtain ⟨rfl, rfl⟩ := (ih _ _ _ g7).1 rfl
        obtain ⟨rfl, rfl⟩ := g8 ih2
        rfl
    | seq g1 g2 g3 g4 => rw [h1] at g1; cases g1; rw [h2] at g2; cases g2
    | blocked g1 g2 g3 g4 => rw [h1] at g1; cases g1; rw [h2] at g2; cases g2
  | _, _, _, _, .seq h1 h2 h3 h4, h => by
    have ih := fun m' => RefItems.unique (m' := m') h3
    cases h with
    | char g1 g2 g3 g4 => rw [h1] at g1; cases g1; rw [h2] at g2; cases g2
    | noChar g1 g2 g3 => rw [h1] at g1; cases g1; rw [h2] at g2; cases g2
    | choice g1 g2 g3 g4 => rw [h1] at g1; cases g1; rw [h2] at g2; cases g2
    | noBase g1 g2 g3 g4 g5 => rw [h1] at g1; cases g1; rw [h2] at g2; cases g2
    | grow g1 g2 g3 g4 g5 g6 => rw [h1] at g1; cases g1; rw [h2] at g2; cases g2
    | seq g1 g2 g3 g4 => rw [h1] at g1; cases g1; rw [h2] at g2; cases g2; rw [ih _ g3]
    | blocked g1 g2 g3 g4 => rw [h1] at g1; cases g1; rw [h2] at g2; cases g2; exact absurd g4 (h4 _ (ih _ g3))
  | _, _, _, _, .blocked h1 h2 h3 h4, h => by
    have ih := fun m' => RefItems.unique (m' := m') h3
    cases h with
    | char g1 g2 g3 g4 => rw [h1] at g1; cases g1; rw [h2] at g2; cases g2
    | noChar g1 g2 g3 => rfl
    | choice g1 g2 g3 g4 => rw [h1] at g1; cases g1; rw [h2] at g2; cases g2
    | noBase g1 g2 g3 g4 g5 => rfl
    | grow g1 g2 g3 g4 g5 g6 => rw [h1] at g1; cases g1; rw [h2] at g2; cases g2
    | seq g1 g2 g3 g4 => rw [h1] at g1; cases g1; rw [h2] at g2; cases g2; exact absurd h4 (g4 _ (ih _ g3).symm)
    | blocked g1 g2 g3 g4 => rfl
termination_by structural _ _ _ _ h _ => h

theorem RefOptions.unique : ∀ {os : List N} {i : Nat} {m m' : Match}, RefOptions G B input os i m →
    RefOptions G B input os i m' → m = m'
  | _, _, _, _, .nil, h => by cases h; rfl
  | _, _, _, _, .cons h1 h2, h => by
    have ih1 := fun m' => Ref.unique (m' := m') h1
    have ih2 := fun m' => RefOptions.unique (m' := m') h2
    cases h with
    | cons g1 g2 => rw [ih1 _ g1, ih2 _ g2]
termination_by structural _ _ _ _ h _ => h

theorem RefChain.unique : ∀ {d : GDef N} {ss bs : List N} {i k j : Nat} {ns : List Node}, RefChain G B input d ss bs i k j ns →
    ∀ l j' ns', RefChain G B input d ss bs i l j' ns' →
      (l = k → j = j' ∧ ns = ns') ∧ (l ≤ k → RefFails G B input ss j' → j = j' ∧ ns = ns')
  | _, _, _, _, _, _, _, .base h1, l, j', ns', h => by
    have ih := fun m' => RefOptions.unique (m' := m') h1
    refine eq_or_le ?_ fun h _ => absurd h (Nat.not_lt_zero _)
    · intro hl
      cases h with
      | base g1 => cases ih _ g1; exact ⟨rfl, rfl⟩
      | skip => cases hl
      | step => cases hl
  | _, _, _, _, _, _, _, .skip (k := k) h1 h2 h3 h4 h5, l, j', ns', h => by
    have ih1 := fun l j' ns' => RefChain.unique h1 l j' ns'
    have ih2 := fun m' => RefItems.unique (m' := m') h5
    refine eq_or_le ?_ fun hl hf => ?_
    · intro hl
      cases h with
      | base g1 => cases hl
      | skip g1 g2 g3 g4 g5 => exact (ih1 _ _ _ g1).1 (by omega)
      | step g1 g2 g3 g4 g5 g6 =>
        cases hl
        obtain ⟨rfl, rfl⟩ := (ih1 _ _ _ g1).1 rfl
        rw [h2] at g2; cases g2
        rw [h3] at g3; cases g3
        rw [h4] at g4; cases g4
        cases ih2 _ g5
    · exact (ih1 _ _ _ h).2 (by omega) hf
  | _, _, _, _, _, _, _, .step (k := k) h1 h2 h3 h4 h5 h6, l, j', ns', h => by
    have ih1 := fun l j' ns' => RefChain.unique h1 l j' ns'
    have ih2 := fun m' => RefItems.unique (m' := m') h5
    refine eq_or_le ?_ fun hl hf => ?_
    · intro hl
      cases h with
      | base g1 => cases hl
      | skip g1 g2 g3 g4 g5 =>
        cases hl
        obtain ⟨rfl, rfl⟩ := (ih1 _ _ _ g1).1 rfl
        rw [h2] at g2; cases g2
        rw [h3] at g3; cases g3
        rw [h4] at g4; cases g4
        cases ih2 _ g5
      | step g1 g2 g3 g4 g5 g6 =>
        cases hl
        obtain ⟨rfl, rfl⟩ := (ih1 _ _ _ g1).1 rfl
        rw [h2] at g2; cases g2
        rw [h3] at g3; cases g3
        rw [h4] at g4; cases g4
        cases ih2 _ g5
        exact ⟨rfl, rfl⟩
    · obtain ⟨rfl, rfl⟩ := (ih1 _ _ _ h).2 (by omega) hf
      cases ih2 _ (hf.mem (List.mem_of_getElem? h2) h3 h4)
termination_by structural _ _ _ _ _ _ _ h _ _ _ _ => h

theorem RefChain.unique_base : ∀ {d : GDef N} {ss bs : List N} {i k j : Nat} {ns : List Node}, RefChain G B input d ss bs i k j ns →
    ∀ m, RefOptions G B input bs i m → m ≠ none
  | _, _, _, _, _, _, _, .base h1, m, h => by
    have ih := fun m' => RefOptions.unique (m' := m') h1
    rw [← ih _ h]; exact fun h => by cases h
  | _, _, _, _, _, _, _, .skip h1 _ _ _ _, m, h => RefChain.unique_base h1 m h
  | _, _, _, _, _, _, _, .step h1 _ _ _ _ _, m, h => RefChain.unique_base h1 m h
termination_by structural _ _ _ _ _ _ _ h _ _ => h

theorem RefFails.unique : ∀ {ss : List N} {j : Nat}, RefFails G B input ss j →
    ∀ s ∈ ss, ∀ e x tail m, G s = some e → e.expr = .seq (x :: tail) → RefItems G B input tail 0 j m → m = none
  | _, _, .nil => fun s hs => by cases hs
  | _, _, .cons h1 h2 h3 h4 => by
    have ih1 := fun m' => RefItems.unique (m' := m') h3
    have ih2 := RefFails.unique h4
    intro s hs e x tail m g1 g2 g3
    rcases List.mem_cons.1 hs with rfl | hs
    · rw [h1] at g1; cases g1; rw [h2] at g2; cases g2; exact (ih1 _ g3).symm
    · exact ih2 s hs e x tail m g1 g2 g3
termination_by structural _ _ h => h

theorem RefItems.unique : ∀ {items : List (N × Int × Int)} {k i : Nat} {m m' : Match},
    RefItems G B input items k i m → RefItems G B input items k i m' → m = m'
  | _, _, _, _, _, .nil, h => by cases h; rfl
  | _, _, _, _, _, .fail h1 h2, h => by
    have ih := fun m' => Ref.unique (m' := m') h1
    cases h with
    | fail g1 g2 => rfl
    | done g1 g2 g3 => omega
    | empty g1 g2 => cases ih _ g1
    | last g1 g2 g3 g4 g5 => cases ih _ g1
    | more g1 g2 g3 g4 => cases ih _ g1
  | _, _, _, _, _, .done h1 h2 h3, h => by
    have ih := fun m' => Ref.unique (m' := m') h1
    have ih2 := fun m' => RefItems.unique (m' := m') h3
    cases h with
    | fail g1 g2 => omega
    | done g1 g2 g3 => exact ih2 _ g3
    | empty g1 g2 => cases ih _ g1
    | last g1 g2 g3 g4 g5 => cases ih _ g1
    | more g1 g2 g3 g4 => cases ih _ g1
  | _, _, _, _, _, .empty h1 h2, h => by
    have ih := fun m' => Ref.unique (m' := m') h1
    have ih2 := fun m' => RefItems.unique (m' := m') h2
    cases h with
    | fail g1 g2 => cases ih _ g1
    | done g1 g2 g3 => cases ih _ g1
    | empty g1 g2 => cases ih _ g1; rw [ih2 _ g2]
    | last g1 g2 g3 g4 g5 => cases ih _ g1; exact absurd g2 (Nat.lt_irrefl _)
    | more g1 g2 g3 g4 => cases ih _ g1; exact absurd g2 (Nat.lt_irrefl _)
  | _, _, _, _, _, .last h1 h2 h3 h4 h5, h => by
    have ih := fun m' => Ref.unique (m' := m') h1
    have ih2 := fun m' => RefItems.unique (m' := m') h5
    cases h with
    | fail g1 g2 => cases ih _ g1
    | done g1 g2 g3 => cases ih _ g1
    | empty g1 g2 => cases ih _ g1; exact absurd h2 (Nat.lt_irrefl _)
    | last g1 g2 g3 g4 g5 => cases ih _ g1; rw [ih2 _ g5]
    | more g1 g2 g3 g4 => exact absurd ⟨h3, h4⟩ g3
  | _, _, _, _, _, .more h1 h2 h3 h4, h => by
    have ih := fun m' => Ref.unique (m' := m') h1
    have ih2 := fun m' => RefItems.unique (m' := m') h4
    cases h with
    | fail g1 g2 => cases ih _ g1
    | done g1 g2 g3 => cases ih _ g1
    | empty g1 g2 => cases ih _ g1; exact absurd h2 (Nat.lt_irrefl _)
    | last g1 g2 g3 g4 g5 => exact absurd ⟨g3, g4⟩ h3
    | more g1 g2 g3 g4 => cases ih _ g1; rw [ih2 _ g4]
termination_by structural _ _ _ _ _ h _ => h

end

theorem better_some {m ms : Match} {x : Nat × List Node} (h : better m ms = some x) : m = some x ∨ ms = some x := by
  cases m with
  | none => exact Or.inr h
  | some a =>
    cases ms with
    | none => exact Or.inl h
    | some b =>
      simp only [better] at h
      split at h
      · exact Or.inr h
      · exact Or.inl h

theorem prepend_some {ns : List Node} {m : Match} {x : Nat × List Node} (h : prepend ns m = some x) :
    ∃ ns', m = some (x.1, ns') := by
  cases m with
  | none => cases h
  | some a => cases h; exact ⟨a.2, rfl⟩

/-- Where a match ends: not in front of its start, and inside of the input unless it is empty. -/
def Bounded (input : List Rune) (i : Nat) (m : Match) : Prop :=
  ∀ x, m = some x → i ≤ x.1 ∧ (i < x.1 → x.1 ≤ input.length)

theorem Bounded.map {i : Nat} {m : Match} (h : Bounded input i m) (f : Nat × List Node → List Node) :
    Bounded input i (m.map fun x => (x.1, f x)) := by
  intro x hx
  cases m with
  | none => cases hx
  | some a => cases hx; exact h a rfl

mutual

theorem Ref.bounded : ∀ {n : N} {i : Nat} {m : Match}, Ref G B input n i m → Bounded input i m
  | _, i, _, .char h1 h2 h3 h4 => by
    intro x hx
    cases hx
    refine ⟨Nat.le_succ _, fun _ => ?_⟩
    exact (List.getElem?_eq_some_iff.1 h3).1
  | _, _, _, .noChar h1 h2 h3 => fun x hx => by cases hx
  | _, _, _, .choice _ _ _ h => (RefOptions.bounded h).map _
  | _, _, _, .noBase _ _ _ _ _ => fun x hx => by cases hx
  | _, _, _, .grow _ _ _ _ h5 _ => by
    have ih := RefChain.bounded h5
    intro x hx
    cases hx
    exact ih
  | _, _, _, .seq h1 h2 h3 _ => (RefItems.bounded h3).map _
  | _, _, _, .blocked _ _ _ _ => fun x hx => by cases hx

theorem RefOptions.bounded : ∀ {os : List N} {i : Nat} {m : Match}, RefOptions G B input os i m → Bounded input i m
  | _, _, _, .nil => fun x hx => by cases hx
  | _, _, _, .cons h1 h2 => by
    have ih1 := Ref.bounded h1
    have ih2 := RefOptions.bounded h2
    intro x hx
    rcases better_some hx with h | h
    · exact ih1 x h
    · exact ih2 x h

theorem RefChain.bounded : ∀ {d : GDef N} {ss bs : List N} {i k j : Nat} {ns : List Node}, RefChain G B input d ss bs i k j ns →
    i ≤ j ∧ (i < j → j ≤ input.length)
  | _, _, _, _, _, _, _, .base h => RefOptions.bounded h _ rfl
  | _, _, _, _, _, _, _, .skip h _ _ _ _ => RefChain.bounded h
  | _, _, _, _, _, _, _, .step h1 _ _ _ h5 h6 => by
    have ih1 := RefChain.bounded h1
    have ih2 := (RefItems.bounded h5 _ rfl).2 h6
    exact ⟨by omega, fun _ => ih2⟩

theorem RefItems.bounded : ∀ {items : List (N × Int × Int)} {k i : Nat} {m : Match},
    RefItems G B input items k i m → Bounded input i m
  | _, _, _, _, .nil => fun x hx => by cases hx; exact ⟨Nat.le_refl _, fun h => absurd h (Nat.lt_irrefl _)⟩
  | _, _, _, _, .fail h1 h2 => fun x hx => by cases hx
  | _, _, _, _, .done h1 h2 h3 => RefItems.bounded h3
  | _, _, _, _, .empty h1 h2 => by
    have ih := RefItems.bounded h2
    intro x hx
    obtain ⟨ns', h⟩ := prepend_some hx
    have b := ih _ h
    exact b
  | _, _, _, _, .last h1 h2 h3 h4 h5 => by
    have ih1 := Ref.bounded h1
    have ih := RefItems.bounded h5
    intro x hx
    obtain ⟨ns', h⟩ := prepend_some hx
    have a := ih1 _ rfl
    have b := ih _ h
    simp only at a b
    refine ⟨by omega, fun _ => ?_⟩
    have a2 := a.2 h2
    rcases Nat.lt_or_eq_of_le b.1 with c | c
    · exact b.2 c
    · omega
  | _, _, _, _, .more h1 h2 h3 h4 => by
    have ih1 := Ref.bounded h1
    have ih := RefItems.bounded h4
    intro x hx
    obtain ⟨ns', h⟩ := prepend_some hx
    have a := ih1 _ rfl
    have b := ih _ h
    simp only at a b
    refine ⟨by omega, fun _ => ?_⟩
    have a2 := a.2 h2
    rcases Nat.lt_or_eq_of_le b.1 with c | c
    · exact b.2 c
    · omega

end

mutual

theorem Ref.nullable : ∀ {n : N} {i : Nat} {m : Match}, Ref G B input n i m → ∀ ns, m = some (i, ns) → Nullable G n
  | _, i, _, .char h1 h2 h3 h4, ns, e => by
    simp at e
  | _, _, _, .noChar h1 h2 h3, ns, e => by cases e
  | _, _, _, .noBase _ _ _ _ _, ns, e => by cases e
  | _, _, _, .grow h1 h2 h3 h4 h5 h6, ns, e => by
    have ih := RefChain.nullable h5
    cases e
    obtain ⟨o, ho, hn⟩ := ih rfl
    exact .choice h1 h2 (h4.mem.2 (Or.inr ho)) hn
  | _, _, _, .choice (m := m) h1 h2 _ h3, ns, e => by
    have ih := RefOptions.nullable h3
    cases m with
    | none => cases e
    | some x =>
      simp only [Option.map_some, Option.some.injEq, Prod.mk.injEq] at e
      obtain ⟨o, ho, hn⟩ := ih x.2 (by rw [← e.1])
      exact .choice h1 h2 ho hn
  | _, _, _, .blocked _ _ _ _, ns, e => by cases e
  | _, _, _, .seq (m := m) h1 h2 h3 _, ns, e => by
    have ih := RefItems.nullable h3
    cases m with
    | none => cases e
    | some x =>
      simp only [Option.map_some, Option.some.injEq, Prod.mk.injEq] at e
      exact .seq h1 h2 (ih rfl x.2 (by rw [← e.1]))

theorem RefOptions.nullable : ∀ {os : List N} {i : Nat} {m : Match}, RefOptions G B input os i m →
    ∀ ns, m = some (i, ns) → ∃ o ∈ os, Nullable G o
  | _, _, _, .nil, ns, e => by cases e
  | _, _, _, .cons h1 h2, ns, e => by
    have ih1 := Ref.nullable h1
    have ih2 := RefOptions.nullable h2
    rcases better_some e with h | h
    · exact ⟨_, by simp, ih1 _ h⟩
    · obtain ⟨o, ho, hn⟩ := ih2 _ h
      exact ⟨o, by simp [ho], hn⟩

theorem RefChain.nullable : ∀ {d : GDef N} {ss bs : List N} {i k j : Nat} {ns : List Node}, RefChain G B input d ss bs i k j ns →
    j = i → ∃ o ∈ bs, Nullable G o
  | _, _, _, _, _, _, _, .base h, e => by
    have ih := RefOptions.nullable h
    exact ih _ (by rw [e])
  | _, _, _, _, _, _, _, .skip h _ _ _ _, e => RefChain.nullable h e
  | _, _, _, _, _, _, _, .step h1 _ _ _ h5 h6, e => by
    have := RefChain.bounded h1
    omega

theorem RefItems.nullable : ∀ {items : List (N × Int × Int)} {k i : Nat} {m : Match},
    RefItems G B input items k i m → k = 0 → ∀ ns, m = some (i, ns) → ∀ x ∈ items, 0 < x.2.1 → Nullable G x.1
  | _, _, _, _, .nil, _, _, _ => by simp
  | _, _, _, _, .fail h1 h2, hk, ns, e => by cases e
  | _, _, _, _, .done h1 h2 h3, hk, ns, e => by
    have ih := RefItems.nullable h3 rfl ns e
    intro x hx hp
    rcases List.mem_cons.1 hx with rfl | hx
    · simp only at hp; omega
    · exact ih x hx hp
  | _, _, _, _, .empty h1 h2, hk, ns, e => by
    obtain ⟨ns', h⟩ := prepend_some e
    have ih := RefItems.nullable h2 rfl _ h
    have ih1 := Ref.nullable h1 _ rfl
    intro x hx hp
    rcases List.mem_cons.1 hx with rfl | hx
    · exact ih1
    · exact ih x hx hp
  | _, _, _, _, .last h1 h2 h3 h4 h5, hk, ns, e => by
    obtain ⟨ns', h⟩ := prepend_some e
    have := (RefItems.bounded h5) _ h
    simp only at this
    omega
  | _, _, _, _, .more h1 h2 h3 h4, hk, ns, e => by
    obtain ⟨ns', h⟩ := prepend_some e
    have := (RefItems.bounded h4) _ h
    simp only at this
    omega

end

/-! ### Totality -/

/-- A sequence, when its items have a result. -/
theorem Ref.total_seq {n : N} {d : GDef N} {items : List (N × Int × Int)} {i : Nat} (hd : G n = some d) (he : d.expr = .seq items)
    (h : ∃ m, RefItems G B input items 0 i m) : ∃ m, Ref G B input n i m := by
  obtain ⟨m, hm⟩ := h
  by_cases hb : ∃ x, m = some x ∧ B n i x.1
  · obtain ⟨x, rfl, hb⟩ := hb
    exact ⟨_, .blocked hd he hm hb⟩
  · exact ⟨_, .seq hd he hm fun x hx h => hb ⟨x, hx, h⟩⟩

theorem RefOptions.total {i : Nat} : ∀ {os : List N}, (∀ o ∈ os, ∃ m, Ref G B input o i m) → ∃ m, RefOptions G B input os i m
  | [], _ => ⟨_, .nil⟩
  | o :: os, h => by
    obtain ⟨m, h1⟩ := h o (by simp)
    obtain ⟨ms, h2⟩ := RefOptions.total (os := os) fun x hx => h x (by simp [hx])
    exact ⟨_, .cons h1 h2⟩

/-- The next item, given its result. -/
theorem RefItems.step {items : List (N × Int × Int)} {n : N} {mn mx : Int} {k i : Nat} {m : Match} (h : Ref G B input n i m)
    (h0 : (∃ m, RefItems G B input items 0 i m))
    (h1 : ∀ j, i < j → j ≤ input.length → ∃ m, RefItems G B input items 0 j m)
    (h2 : ∀ j, i < j → j ≤ input.length → ∃ m, RefItems G B input ((n, mn, mx) :: items) (k + 1) j m) :
    ∃ m, RefItems G B input ((n, mn, mx) :: items) k i m := by
  cases m with
  | none =>
    by_cases hk : (k : Int) < mn
    · exact ⟨_, .fail h hk⟩
    · obtain ⟨m, hm⟩ := h0
      exact ⟨_, .done h (by omega) hm⟩
  | some x =>
    obtain ⟨j, ns⟩ := x
    obtain ⟨a, b⟩ := h.bounded _ rfl
    simp only at a b
    rcases Nat.lt_or_eq_of_le a with c | rfl
    · by_cases hl : 0 < mx ∧ ((k + 1 : Nat) : Int) = mx
      · obtain ⟨m, hm⟩ := h1 j c (b c)
        exact ⟨_, .last h c hl.1 hl.2 hm⟩
      · obtain ⟨m, hm⟩ := h2 j c (b c)
        exact ⟨_, .more h c hl hm⟩
    · obtain ⟨m, hm⟩ := h0
      exact ⟨_, .empty h hm⟩

/-- When every definition has a result from a position on, every list of items has. -/
theorem RefItems.total {R : N → Prop} : ∀ (l : Nat) {items : List (N × Int × Int)} {k i : Nat}, input.length - i ≤ l →
    (∀ x ∈ items, R x.1) → (∀ j, i ≤ j → ∀ n, R n → ∃ m, Ref G B input n j m) → ∃ m, RefItems G B input items k i m := by
  intro l
  induction l with
  | zero =>
    intro items
    induction items with
    | nil => intros; exact ⟨_, .nil⟩
    | cons x items ih =>
      intro k i hl hR h
      obtain ⟨n, mn, mx⟩ := x
      obtain ⟨m, hm⟩ := h i (Nat.le_refl _) n (hR _ (List.mem_cons_self ..))
      refine RefItems.step hm (ih hl (fun x hx => hR x (by simp [hx])) h) ?_ ?_
      · intro j a b; omega
      · intro j a b; omega
  | succ l ihl =>
    intro items
    induction items with
    | nil => intros; exact ⟨_, .nil⟩
    | cons x items ih =>
      intro k i hl hR h
      obtain ⟨n, mn, mx⟩ := x
      obtain ⟨m, hm⟩ := h i (Nat.le_refl _) n (hR _ (List.mem_cons_self ..))
      refine RefItems.step hm (ih hl (fun x hx => hR x (by simp [hx])) h) ?_ ?_
      · intro j a b
        exact ihl (by omega) (fun x hx => hR x (by simp [hx])) fun j' hj => h j' (by omega)
      · intro j a b
        exact ihl (by omega) hR fun j' hj => h j' (by omega)

/-- A sequence at a position where the items that are left called have a result. -/
theorem RefItems.total_left {R : N → Prop} {p : N} {d : GDef N} (hp : G p = some d) {i : Nat}
    (hleft : ∀ n, R n → LeftCall G p n → ∃ m, Ref G B input n i m)
    (hlater : ∀ j, i < j → j ≤ input.length → ∀ n, R n → ∃ m, Ref G B input n j m)
    (hafter : ∀ j, input.length < j → ∀ n, R n → ∃ m, Ref G B input n j m) :
    ∀ {items front : List (N × Int × Int)}, d.expr = .seq (front ++ items) → (∀ x ∈ items, R x.1) →
      (∀ y ∈ front, 0 < y.2.1 → Nullable G y.1) → ∃ m, RefItems G B input items 0 i m := by
  intro items
  induction items with
  | nil => intros; exact ⟨_, .nil⟩
  | cons x items ih =>
    intro front he hR hf
    have hx := hleft x.1 (hR _ (by simp)) (.item hp he hf)
    obtain ⟨n, mn, mx⟩ := x
    obtain ⟨m, hm⟩ := hx
    have hj : ∀ j, i < j → ∀ j', j ≤ j' → ∀ n, R n → ∃ m, Ref G B input n j' m := by
      intro j a j' b
      by_cases c : j' ≤ input.length
      · exact hlater j' (by omega) c
      · exact hafter j' (by omega)
    cases m with
    | none =>
      by_cases hk : ((0 : Nat) : Int) < mn
      · exact ⟨_, .fail hm hk⟩
      · obtain ⟨m, h2⟩ := ih (front := front ++ [(n, mn, mx)]) (by simpa using he) (fun x hx => hR x (by simp [hx])) (by
          intro y hy hp
          rcases List.mem_append.1 hy with hy | hy
          · exact hf y hy hp
          · simp at hy; subst hy; simp only at hp; omega)
        exact ⟨_, .done hm (by omega) h2⟩
    | some y =>
      obtain ⟨j, ns⟩ := y
      obtain ⟨a, b⟩ := hm.bounded _ rfl
      simp only at a b
      rcases Nat.lt_or_eq_of_le a with c | rfl
      · by_cases hl : 0 < mx ∧ ((0 + 1 : Nat) : Int) = mx
        · obtain ⟨m, h2⟩ := RefItems.total (items := items) (k := 0) (input.length - j) (Nat.le_refl _) (fun x hx => hR x (by simp [hx])) (hj j c)
          exact ⟨_, .last hm c hl.1 hl.2 h2⟩
        · obtain ⟨m, h2⟩ := RefItems.total (items := (n, mn, mx) :: items) (k := 0 + 1) (input.length - j) (Nat.le_refl _) hR (hj j c)
          exact ⟨_, .more hm c hl h2⟩
      · obtain ⟨m, h2⟩ := ih (front := front ++ [(n, mn, mx)]) (by simpa using he) (fun x hx => hR x (by simp [hx])) (by
          intro y hy hp
          rcases List.mem_append.1 hy with hy | hy
          · exact hf y hy hp
          · simp at hy; subst hy; exact hm.nullable _ rfl)
        exact ⟨_, .empty hm h2⟩

theorem mod_cover {k q n : Nat} (h : q < n) : ∃ m, m < n ∧ (k + m) % n = q := by
  have h1 := Nat.div_add_mod k n
  have h2 := Nat.mod_lt k (Nat.lt_of_le_of_lt (Nat.zero_le _) h)
  rcases Nat.lt_or_ge q (k % n) with hq | hq
  · refine ⟨q + n - k % n, by omega, ?_⟩
    rw [show k + (q + n - k % n) = n * (k / n + 1) + q by rw [Nat.mul_add]; omega, Nat.mul_add_mod, Nat.mod_eq_of_lt h]
  · refine ⟨q - k % n, by omega, ?_⟩
    rw [show k + (q - k % n) = n * (k / n) + q by omega, Nat.mul_add_mod, Nat.mod_eq_of_lt h]

/-- As many tails as possible. -/
theorem RefChain.total {d : GDef N} {ss bs : List N} {i : Nat} : ∀ (l : Nat) {k j : Nat} {ns : List Node}, input.length - j ≤ l →
    RefChain G B input d ss bs i k j ns →
    (∀ s ∈ ss, ∀ j', j ≤ j' → ∃ e x tail, G s = some e ∧ e.expr = .seq (x :: tail) ∧
      (RefItems G B input tail 0 j' none ∨ ∃ t ms, RefItems G B input tail 0 j' (some (t, ms)) ∧ j' < t ∧ t ≤ input.length)) →
    ∃ k' j' ns', RefChain G B input d ss bs i k' j' ns' ∧ RefFails G B input ss j' := by
  intro l
  induction l using Nat.strongRecOn with
  | ind l ih =>
    intro k j ns hl hc hn
    have walk : ∀ c, c ≤ ss.length → (∃ k' j' ns', RefChain G B input d ss bs i k' j' ns' ∧ j < j' ∧ j' ≤ input.length) ∨
        (RefChain G B input d ss bs i (k + c) j ns ∧ ∀ m, m < c → ∀ s, ss[(k + m) % ss.length]? = some s →
          ∃ e x tail, G s = some e ∧ e.expr = .seq (x :: tail) ∧ RefItems G B input tail 0 j none) := by
      intro c
      induction c with
      | zero => exact fun _ => Or.inr ⟨hc, fun m hm => absurd hm (Nat.not_lt_zero _)⟩
      | succ c ihc =>
        intro hle
        rcases ihc (by omega) with h | ⟨h1, h2⟩
        · exact Or.inl h
        · have hlt : (k + c) % ss.length < ss.length := Nat.mod_lt _ (by omega)
          obtain ⟨e, x, tail, g1, g2, g3⟩ := hn ss[(k + c) % ss.length] (List.getElem_mem hlt) j (Nat.le_refl _)
          rcases g3 with g3 | ⟨t, ms, g3, g4, g5⟩
          · refine Or.inr ⟨.skip h1 (List.getElem?_eq_getElem hlt) g1 g2 g3, fun m hm s hs => ?_⟩
            by_cases hmc : m = c
            · subst hmc
              rw [List.getElem?_eq_getElem hlt] at hs
              cases hs
              exact ⟨e, x, tail, g1, g2, g3⟩
            · exact h2 m (by omega) s hs
          · exact Or.inl ⟨_, _, _, .step h1 (List.getElem?_eq_getElem hlt) g1 g2 g3 g4, g4, g5⟩
    rcases walk ss.length (Nat.le_refl _) with ⟨k', j', ns', h1, h2, h3⟩ | ⟨h1, h2⟩
    · exact ih (input.length - j') (by omega) (Nat.le_refl _) h1 fun s hs j'' hj => hn s hs j'' (by omega)
    · refine ⟨_, _, _, h1, .of_mem fun s hs => ?_⟩
      obtain ⟨q, hq, rfl⟩ := List.mem_iff_getElem.1 hs
      obtain ⟨m, hm, hmq⟩ := mod_cover (k := k) hq
      exact h2 m hm _ (by rw [hmq]; exact List.getElem?_eq_getElem hq)

/-- A ranking of the definitions in `R` along left calls. -/
structure Ranked (G : Grammar N) (R : N → Prop) (rank : N → Nat) : Prop where
  grows : ∀ {n d os}, R n → G n = some d → d.expr = .choice os → (∃ s, Recurs G n s) → Grows G n os
  def_ : ∀ {n}, R n → ∃ d, G n = some d
  option : ∀ {n d os o}, R n → G n = some d → d.expr = .choice os → o ∈ os → R o
  item : ∀ {n d items x}, R n → G n = some d → d.expr = .seq items → x ∈ items → R x.1
  left : ∀ {n m}, R n → LeftCall G n m → rank m < rank n

theorem Ranked.choice {R : N → Prop} {rank : N → Nat} (K : Ranked G R rank) {n : N} {d : GDef N} {os : List N} {i : Nat} (hR : R n)
    (hd : G n = some d) (he : d.expr = .choice os) (hleft : ∀ m, R m → LeftCall G n m → ∃ r, Ref G B input m i r)
    (hlater : ∀ j, i < j → i < input.length + 1 → ∀ n, R n → ∃ m, Ref G B input n j m) : ∃ m, Ref G B input n i m := by
  by_cases hr : ∃ s, Recurs G n s
  · have hG := K.grows hR hd he hr
    obtain ⟨fs, bs, ls, hg⟩ := hG.growth
    have hsub : ∀ o ∈ bs, o ∈ os := fun o ho => hg.mem.2 (Or.inr ho)
    obtain ⟨m, hm⟩ := RefOptions.total (G := G) (B := B) (input := input) (i := i) (os := bs) fun o ho =>
      hleft o (K.option hR hd he (hsub o ho)) (.option hd he (hsub o ho) (hg.bases o ho))
    cases m with
    | none => exact ⟨_, .noBase hd he hr hg hm⟩
    | some y =>
      obtain ⟨j, ns⟩ := y
      obtain ⟨a, b⟩ := hm.bounded _ rfl
      simp only at a b
      rcases Nat.lt_or_eq_of_le a with c | rfl
      · obtain ⟨k', j', ns', h1, h2⟩ := RefChain.total (input.length - j) (Nat.le_refl _) (.base (d := d) (ss := ls ++ fs) hm) (by
          intro s hs j' hj
          have hrs := hg.trials hs
          obtain ⟨d', os', e, tail, g1, g2, g3, g4, g5⟩ := id hrs
          rw [hd] at g1; cases g1; rw [he] at g2; cases g2
          refine ⟨e, _, tail, g4, g5, ?_⟩
          obtain ⟨m, hm'⟩ := RefItems.total (R := R) (items := tail) (k := 0) (input.length - j') (Nat.le_refl _)
            (fun x hx => K.item (K.option hR hd he g3) g4 g5 (List.mem_cons_of_mem _ hx))
            (fun j'' hj' => hlater j'' (by omega) (by have := b c; omega))
          cases m with
          | none => exact Or.inl hm'
          | some y =>
            obtain ⟨t, ms⟩ := y
            obtain ⟨a', b'⟩ := hm'.bounded _ rfl
            simp only at a' b'
            rcases Nat.lt_or_eq_of_le a' with c' | rfl
            · exact Or.inr ⟨t, ms, hm', c', b' c'⟩
            · obtain ⟨x, hx, k1, k2⟩ := hG.tails s e tail hrs g4 g5
              exact absurd (hm'.nullable rfl _ rfl x hx k1) k2)
        exact ⟨_, .grow hd he hr hg h1 h2⟩
      · obtain ⟨o, ho, hno⟩ := hm.nullable _ rfl
        exact absurd (.choice hd he (hsub o ho) hno) hG.nonEmpty
  · have hr : ∀ o, ¬ Recurs G n o := fun o ho => hr ⟨o, ho⟩
    obtain ⟨m, hm⟩ := RefOptions.total (os := os) (fun o ho => hleft o (K.option hR hd he ho) (.option hd he ho (hr o)))
    exact ⟨_, .choice hd he hr hm⟩

theorem Ref.total {R : N → Prop} {rank : N → Nat} (K : Ranked G R rank) : ∀ (l r : Nat) {n : N} {i : Nat},
    input.length + 1 - i ≤ l → rank n ≤ r → R n → ∃ m, Ref G B input n i m := by
  intro l
  induction l with
  | zero =>
    -- behind the end of the input
    intro r
    induction r with
    | zero =>
      intro n i hl hr hR
      obtain ⟨d, hd⟩ := K.def_ hR
      have hleft : ∀ m, LeftCall G n m → False := fun m hm => by have := K.left hR hm; omega
      cases he : d.expr with
      | char neg cs rs =>
        refine ⟨_, .noChar hd he fun t ht => ?_⟩
        have := (List.getElem?_eq_some_iff.1 ht).1; omega
      | choice os =>
        exact K.choice hR hd he (fun m _ h => (hleft m h).elim) (fun j _ h => by omega)
      | seq items =>
        cases items with
        | nil => exact Ref.total_seq hd he ⟨_, .nil⟩
        | cons x items => exact (hleft x.1 (.item (front := []) (rest := items) hd (by simpa using he) (by simp))).elim
    | succ r ih =>
      intro n i hl hr hR
      obtain ⟨d, hd⟩ := K.def_ hR
      have hleft : ∀ m, R m → LeftCall G n m → ∃ r, Ref G B input m i r := fun m hRm hm => by
        have := K.left hR hm; exact ih hl (by omega) hRm
      cases he : d.expr with
      | char neg cs rs =>
        refine ⟨_, .noChar hd he fun t ht => ?_⟩
        have := (List.getElem?_eq_some_iff.1 ht).1; omega
      | choice os =>
        exact K.choice hR hd he hleft (fun j _ h => by omega)
      | seq items =>
        -- nothing is matched behind the end of the input, other than the empty text
        have key : ∀ (its front : List (N × Int × Int)), d.expr = .seq (front ++ its) → (∀ x ∈ its, R x.1) →
            (∀ y ∈ front, 0 < y.2.1 → Nullable G y.1) → ∃ m, RefItems G B input its 0 i m := by
          intro its
          induction its with
          | nil => intros; exact ⟨_, .nil⟩
          | cons x its ih2 =>
            intro front he' hRi hf
            obtain ⟨m, hm⟩ := hleft x.1 (hRi _ (by simp)) (.item hd he' hf)
            obtain ⟨n, mn, mx⟩ := x
            cases m with
            | none =>
              by_cases hk : ((0 : Nat) : Int) < mn
              · exact ⟨_, .fail hm hk⟩
              · obtain ⟨m, h2⟩ := ih2 (front ++ [(n, mn, mx)]) (by simpa using he') (fun x hx => hRi x (by simp [hx])) (by
                  intro y hy hp
                  rcases List.mem_append.1 hy with hy | hy
                  · exact hf y hy hp
                  · simp at hy; subst hy; simp only at hp; omega)
                exact ⟨_, .done hm (by omega) h2⟩
            | some y =>
              obtain ⟨j, ns⟩ := y
              obtain ⟨a, b⟩ := hm.bounded _ rfl
              simp only at a b
              rcases Nat.lt_or_eq_of_le a with c | rfl
              · have := b c; omega
              · obtain ⟨m, h2⟩ := ih2 (front ++ [(n, mn, mx)]) (by simpa using he') (fun x hx => hRi x (by simp [hx])) (by
                  intro y hy hp
                  rcases List.mem_append.1 hy with hy | hy
                  · exact hf y hy hp
                  · simp at hy; subst hy; exact hm.nullable _ rfl)
                exact ⟨_, .empty hm h2⟩
        obtain ⟨m, hm⟩ := key items [] (by simpa using he) (fun x hx => K.item hR hd he hx) (by simp)
        exact Ref.total_seq hd he ⟨m, hm⟩
  | succ l ihl =>
    intro r
    induction r with
    | zero =>
      intro n i hl hr hR
      obtain ⟨d, hd⟩ := K.def_ hR
      have hleft : ∀ m, LeftCall G n m → False := fun m hm => by have := K.left hR hm; omega
      cases he : d.expr with
      | char neg cs rs =>
        by_cases hm : ∃ t, input[i]? = some t ∧ InClass neg cs rs t
        · obtain ⟨t, h1, h2⟩ := hm
          exact ⟨_, .char hd he h1 h2⟩
        · exact ⟨_, .noChar hd he fun t h1 h2 => hm ⟨t, h1, h2⟩⟩
      | choice os =>
        exact K.choice hR hd he (fun m _ h => (hleft m h).elim) (fun j h1 h2 n hn => ihl (rank n) (by omega) (Nat.le_refl _) hn)
      | seq items =>
        cases items with
        | nil => exact Ref.total_seq hd he ⟨_, .nil⟩
        | cons x items => exact (hleft x.1 (.item (front := []) (rest := items) hd (by simpa using he) (by simp))).elim
    | succ r ih =>
      intro n i hl hr hR
      obtain ⟨d, hd⟩ := K.def_ hR
      have hleft : ∀ m, R m → LeftCall G n m → ∃ r, Ref G B input m i r := fun m hRm hm => by
        have := K.left hR hm; exact ih hl (by omega) hRm
      cases he : d.expr with
      | char neg cs rs =>
        by_cases hm : ∃ t, input[i]? = some t ∧ InClass neg cs rs t
        · obtain ⟨t, h1, h2⟩ := hm
          exact ⟨_, .char hd he h1 h2⟩
        · exact ⟨_, .noChar hd he fun t h1 h2 => hm ⟨t, h1, h2⟩⟩
      | choice os =>
        exact K.choice hR hd he hleft (fun j h1 h2 n hn => ihl (rank n) (by omega) (Nat.le_refl _) hn)
      | seq items =>
        by_cases hi : i ≤ input.length
        · obtain ⟨m, hm⟩ := RefItems.total_left (R := R) hd hleft
            (fun j a b n hn => ihl (rank n) (by omega) (Nat.le_refl _) hn)
            (fun j a n hn => ihl (rank n) (by omega) (Nat.le_refl _) hn) (front := []) (items := items) (by simpa using he)
            (fun x hx => K.item hR hd he hx) (by simp)
          exact Ref.total_seq hd he ⟨m, hm⟩
        · exact ihl (rank n) (by omega) (Nat.le_refl _) hR

end Treerack.Spec
