import Verif.Proofs.Reference

/-
Left recursive choices in the reference semantics: the matches with the number of the attempts to find a tail.
-/

namespace Treerack.Spec

variable {N : Type} {G : Grammar N} {B : N → Nat → Nat → Prop} {input : List Rune}

section
variable {d : GDef N} {ss bs : List N} {i : Nat}

theorem RefChain.eq {k j j' : Nat} {ns ns' : List Node} (h : RefChain G B input d ss bs i k j ns)
    (h' : RefChain G B input d ss bs i k j' ns') : j = j' ∧ ns = ns' := (h.unique _ _ _ h').1 rfl

theorem RefChain.le {k j l j' : Nat} {ns ns' : List Node} (h : RefChain G B input d ss bs i k j ns)
    (h' : RefChain G B input d ss bs i l j' ns') (hl : k ≤ l) : j ≤ j' := by
  obtain ⟨j2, ns2, h1, h2, -⟩ := h'.front k hl
  obtain ⟨rfl, rfl⟩ := h.eq h1
  exact h2

theorem RefChain.base_le {k j j' : Nat} {ns ns' : List Node} (h : RefChain G B input d ss bs i k j ns)
    (hb : RefOptions G B input bs i (some (j', ns'))) : j' ≤ j := (RefChain.base hb).le h (Nat.zero_le _)

/-- The nodes are those of the choice. -/
theorem RefChain.wrap {k j : Nat} {ns : List Node} (h : RefChain G B input d ss bs i k j ns) : ∃ ms, ns = d.wrap input i j ms := by
  induction k generalizing j ns with
  | zero => cases h; exact ⟨_, rfl⟩
  | succ k ih =>
    cases h with
    | skip h => exact ih h
    | step => exact ⟨_, rfl⟩

/-- When there is no further tail, nothing changes any more. -/
theorem RefChain.stuck {k j l j' : Nat} {ns ns' : List Node} (h : RefChain G B input d ss bs i k j ns)
    (hf : RefFails G B input ss j) (h' : RefChain G B input d ss bs i l j' ns') (hl : k ≤ l) : j = j' ∧ ns = ns' := by
  obtain ⟨j2, ns2, h1, -, h2⟩ := h'.front k hl
  obtain ⟨rfl, rfl⟩ := h.eq h1
  exact h2 hf.unique

/-- `StepTo … s e tail k j ns t ms`: the attempt with the number `k` finds a tail of the option `s`. -/
structure StepTo (G : Grammar N) (B : N → Nat → Nat → Prop) (input : List Rune) (d : GDef N) (ss bs : List N) (i : Nat) (s : N)
    (tail : List (N × Int × Int)) (k j : Nat) (ns : List Node) (t : Nat) (ms : List Node) : Prop where
  front : RefChain G B input d ss bs i k j ns
  at_ : ss[k % ss.length]? = some s
  items : RefItems G B input tail 0 j (some (t, ms))
  lt : j < t

theorem StepTo.chain {s : N} {e : GDef N} {x : N × Int × Int} {tail : List (N × Int × Int)} {k j t : Nat} {ns ms : List Node}
    (h : StepTo G B input d ss bs i s tail k j ns t ms) (hs : G s = some e) (he : e.expr = .seq (x :: tail)) :
    RefChain G B input d ss bs i (k + 1) t (d.wrap input i t (e.wrap input i t (ns ++ ms))) :=
  .step h.front h.at_ hs he h.items h.lt

/-- There is at most one way to get to a position. -/
theorem StepTo.same {s s' : N} {e e' : GDef N} {x x' : N × Int × Int} {tail tail' : List (N × Int × Int)} {k j k' j' t : Nat}
    {ns ms ns' ms' : List Node} (h : StepTo G B input d ss bs i s tail k j ns t ms) (hs : G s = some e) (he : e.expr = .seq (x :: tail))
    (h' : StepTo G B input d ss bs i s' tail' k' j' ns' t ms') (hs' : G s' = some e') (he' : e'.expr = .seq (x' :: tail')) :
    k = k' ∧ s = s' ∧ j = j' ∧ ns = ns' := by
  have key : k = k' := by
    rcases Nat.lt_trichotomy k k' with hk | hk | hk
    · have := (h.chain hs he).le h'.front hk
      have := h'.lt
      omega
    · exact hk
    · have := (h'.chain hs' he').le h.front hk
      have := h.lt
      omega
  subst key
  have h1 := h.at_
  rw [h'.at_] at h1
  cases h1
  obtain ⟨rfl, rfl⟩ := h.front.eq h'.front
  exact ⟨rfl, rfl, rfl, rfl⟩

/-- There is nothing between the ends of a step. -/
theorem StepTo.between {s : N} {e : GDef N} {x : N × Int × Int} {tail : List (N × Int × Int)} {k j t l t' : Nat}
    {ns ms ns' : List Node} (h : StepTo G B input d ss bs i s tail k j ns t ms) (hs : G s = some e) (he : e.expr = .seq (x :: tail))
    (h' : RefChain G B input d ss bs i l t' ns') (hlt : t' < t) : t' ≤ j := by
  rcases Nat.lt_or_ge k l with hk | hk
  · have := (h.chain hs he).le h' hk
    omega
  · exact h'.le h.front hk

variable {n : N} {os fs ls : List N}

/-- What a left recursive choice matches. -/
theorem Growth.ref_some (hd : G n = some d) (he : d.expr = .choice os) (hr : ∃ s, Recurs G n s) (hg : Growth G n os fs bs ls)
    {x : Nat × List Node} (h : Ref G B input n i (some x)) :
    ∃ k, RefChain G B input d (ls ++ fs) bs i k x.1 x.2 ∧ RefFails G B input (ls ++ fs) x.1 := by
  generalize hm : some x = m at h
  cases h with
  | char g1 g2 => rw [hd] at g1; cases g1; rw [he] at g2; cases g2
  | noChar => cases hm
  | choice g1 g2 g3 => exact absurd hr (not_exists.2 g3)
  | noBase => cases hm
  | grow g1 g2 g3 g4 g5 g6 =>
    rw [hd] at g1; cases g1; rw [he] at g2; cases g2
    obtain ⟨rfl, rfl, rfl⟩ := hg.unique g4
    cases hm
    exact ⟨_, g5, g6⟩
  | seq g1 g2 => rw [hd] at g1; cases g1; rw [he] at g2; cases g2
  | blocked => cases hm

theorem Growth.ref_none (hd : G n = some d) (he : d.expr = .choice os) (hr : ∃ s, Recurs G n s) (hg : Growth G n os fs bs ls)
    (h : Ref G B input n i none) : RefOptions G B input bs i none := by
  generalize hm : none = m at h
  cases h with
  | char g1 g2 => cases hm
  | noChar g1 g2 => rw [hd] at g1; cases g1; rw [he] at g2; cases g2
  | choice g1 g2 g3 => exact absurd hr (not_exists.2 g3)
  | noBase g1 g2 g3 g4 g5 =>
    rw [hd] at g1; cases g1; rw [he] at g2; cases g2
    obtain ⟨rfl, rfl, rfl⟩ := hg.unique g4
    exact g5
  | grow => cases hm
  | seq g1 g2 => rw [hd] at g1; cases g1; rw [he] at g2; cases g2
  | blocked g1 g2 => rw [hd] at g1; cases g1; rw [he] at g2; cases g2

theorem RefChain.ref (hd : G n = some d) (he : d.expr = .choice os) (hr : ∃ s, Recurs G n s) (hg : Growth G n os fs bs ls)
    {k j : Nat} {ns : List Node} (h : RefChain G B input d (ls ++ fs) bs i k j ns) {m : Match} (hm : Ref G B input n i m) :
    ∃ x, m = some x ∧ j ≤ x.1 := by
  cases m with
  | none => exact absurd rfl (h.unique_base _ (hg.ref_none hd he hr hm))
  | some x =>
    refine ⟨x, rfl, ?_⟩
    obtain ⟨k', h1, h2⟩ := hg.ref_some hd he hr hm
    rcases Nat.le_total k k' with hk | hk
    · exact h.le h1 hk
    · exact Nat.le_of_eq (h1.stuck h2 h hk).1.symm

/-- Without a further tail, it is the match of the choice. -/
theorem RefChain.top (hd : G n = some d) (he : d.expr = .choice os) (hr : ∃ s, Recurs G n s) (hg : Growth G n os fs bs ls)
    {k j : Nat} {ns : List Node} (h : RefChain G B input d (ls ++ fs) bs i k j ns) (hs : RefFails G B input (ls ++ fs) j) {m : Match}
    (hm : Ref G B input n i m) : m = some (j, ns) := hm.unique (.grow hd he hr hg h hs)

/-- In the reference semantics, the left recursive options themselves do not match anything. -/
theorem Growth.option_none (hd : G n = some d) (he : d.expr = .choice os) (hg : Growth G n os fs bs ls)
    (hn : ¬ Nullable G n) {s : N} (hs : s ∈ ls ++ fs) {m : Match} (hm : Ref G B input s i m) : m = none := by
  have hrs := hg.trials hs
  obtain ⟨_, _, e, tail, -, -, -, hs1, hi⟩ := id hrs
  have items : ∀ {m : Match}, RefItems G B input ((n, 1, 1) :: tail) 0 i m → m = none := by
    intro m h
    cases h with
    | fail => rfl
    | done _ h => exact absurd h (by decide)
    | empty h => exact absurd (h.nullable _ rfl) hn
    | last h1 _ _ _ h2 =>
      obtain ⟨_, -, h3⟩ := hg.ref_some hd he ⟨_, hrs⟩ h1
      cases (h3.mem hs hs1 hi).unique h2
      rfl
    | more _ _ h => exact absurd ⟨by decide, by decide⟩ h
  cases hm with
  | char g1 g2 => rw [hs1] at g1; cases g1; rw [hi] at g2; cases g2
  | noChar => rfl
  | choice g1 g2 => rw [hs1] at g1; cases g1; rw [hi] at g2; cases g2
  | noBase => rfl
  | grow g1 g2 => rw [hs1] at g1; cases g1; rw [hi] at g2; cases g2
  | seq g1 g2 g3 =>
    rw [hs1] at g1; cases g1; rw [hi] at g2; cases g2
    rw [items g3]; rfl
  | blocked => rfl

end
end Treerack.Spec
