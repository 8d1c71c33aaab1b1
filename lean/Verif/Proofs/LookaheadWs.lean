import Verif.Spec.LookaheadWs
import Verif.Spec.Spaced
import Verif.Proofs.Lookahead

/-
From derivations with whitespace to the reference semantics.
-/

set_option linter.unusedSectionVars false

namespace Treerack
open Spec

/-! ### The grammar with explicit whitespace -/

section
variable {N : Type} [DecidableEq N] {W : WGrammar N} {input : List Rune}

theorem spaced_given {n : N} (hn : n ≠ W.root) {gd : GDef (Part N)} (h : spaced W (.given n) = some gd) :
    ∃ d, W.G n = some d ∧ gd.expr = W.inner n d.expr := by
  simp only [spaced, Option.map_eq_some_iff, if_neg hn] at h
  obtain ⟨d, hd, rfl⟩ := h
  exact ⟨d, hd, rfl⟩

theorem given_spaced {n : N} {d : GDef N} (hn : n ≠ W.root) (h : W.G n = some d) :
    ∃ gd, spaced W (.given n) = some gd ∧ gd.expr = W.inner n d.expr := by
  exact ⟨_, by simp only [spaced, h, Option.map_some, if_neg hn]; rfl, rfl⟩

theorem inRange_zero {mn mx : Int} : InRange mn mx 0 ↔ mn ≤ 0 := by
  constructor
  · rintro (h | h)
    · simpa using h.1
    · omega
  · exact fun h => .inl ⟨by simpa using h, fun h => by simpa using Int.le_of_lt h⟩

theorem inRange_pos {mn mx : Int} {k : Nat} (h : InRange mn mx k) (hmn : 0 < mn) : 0 < k := by
  rcases h with h | h <;> omega

def givens (items : List (N × Int × Int)) : List (Part N × Int × Int) := items.map fun x => (.given x.1, x.2.1, x.2.2)

theorem inner_tight {n : N} {items : List (N × Int × Int)} (h : W.tight n = true) :
    W.inner n (.seq items) = .seq (givens items) := by
  simp only [WGrammar.inner, h, if_true]
  rfl

theorem inner_loose {n : N} {items : List (N × Int × Int)} (h : W.tight n = false) :
    W.inner n (.seq items) = .seq (spacedItems n 0 items) := by
  simp only [WGrammar.inner, h, Bool.false_eq_true, if_false]

theorem spacedItems_head {n x : N} {mn mx : Int} {items : List (N × Int × Int)} (hmn : 0 < mn) :
    ∃ mn' mx' tail, 0 < mn' ∧ spacedItems n 0 ((x, mn, mx) :: items) = (.given x, mn', mx') :: tail := by
  simp only [spacedItems, spacedItem, lead, occurrences, hmn, if_true, Nat.lt_irrefl, if_false, List.nil_append]
  split
  · exact ⟨mn, mx, _, hmn, rfl⟩
  · exact ⟨1, 1, _, by decide, rfl⟩

section
variable (L : WLL1 W)

include L

theorem Spec.WLL1.item_ne {n : N} {d : GDef N} {items : List (N × Int × Int)} {x : N × Int × Int} (h : W.G n = some d)
    (he : d.expr = .seq items) (hx : x ∈ items) : x.1 ≠ W.root := by
  rintro e
  refine L.top h ?_
  rw [he, ← e]
  exact List.mem_map.2 ⟨x, hx, rfl⟩

theorem Spec.WLL1.option_ne {n : N} {d : GDef N} {os : List N} {o : N} (h : W.G n = some d) (he : d.expr = .choice os) (hx : o ∈ os) :
    o ≠ W.root := by
  rintro rfl
  refine L.top h ?_
  rw [he]
  exact hx

mutual
theorem first_given : ∀ {q : Part N} {i j : Nat}, Derives (spaced W) input q i j → ∀ x, q = .given x → x ≠ W.root →
    i < j ∧ ∃ t, input[i]? = some t ∧ WFirst W x t
  | _, _, _, .char h1 h2 h3 h4, x, e, hx => by
    subst e
    obtain ⟨d, hd, he⟩ := spaced_given hx h1
    rw [he] at h2
    cases hc : d.expr with
    | char =>
      rw [hc] at h2
      cases h2
      exact ⟨Nat.lt_succ_self _, _, h3, .char hd hc h4⟩
    | choice => rw [hc] at h2; cases h2
    | seq items =>
      rw [hc] at h2
      simp only [WGrammar.inner] at h2
      split at h2 <;> cases h2
  | _, _, _, .choice (o := o) h1 h2 h3 h4, x, e, hx => by
    subst e
    obtain ⟨d, hd, he⟩ := spaced_given hx h1
    have ih := first_given h4
    rw [he] at h2
    cases hc : d.expr with
    | char => rw [hc] at h2; cases h2
    | choice os =>
      rw [hc] at h2
      cases h2
      obtain ⟨o', ho', rfl⟩ := List.mem_map.1 h3
      obtain ⟨g1, t, g2, g3⟩ := ih o' rfl (L.option_ne hd hc ho')
      exact ⟨g1, t, g2, .choice hd hc ho' g3⟩
    | seq items =>
      rw [hc] at h2
      simp only [WGrammar.inner] at h2
      split at h2 <;> cases h2
  | _, _, _, .seq (items := its) h1 h2 h3, x, e, hx => by
    subst e
    obtain ⟨d, hd, he⟩ := spaced_given hx h1
    have ih := first_items h3
    rw [he] at h2
    cases hc : d.expr with
    | char => rw [hc] at h2; cases h2
    | choice os => rw [hc] at h2; cases h2
    | seq items =>
      rw [hc] at h2
      by_cases ht : W.tight x = true
      · rw [inner_tight ht] at h2
        cases h2
        obtain ⟨g1, g2⟩ := ih.2 items rfl fun y hy => L.item_ne hd hc hy
        have hlt := g2 (L.solid hd hc)
        obtain ⟨t, g3, g4⟩ := g1 hlt
        exact ⟨hlt, t, g3, .seq hd hc g4⟩
      · simp only [Bool.not_eq_true] at ht
        rw [inner_loose ht] at h2
        cases h2
        cases items with
        | nil =>
          obtain ⟨y, hy, -⟩ := L.solid hd hc
          cases hy
        | cons y items =>
          obtain ⟨y, mn, mx⟩ := y
          obtain ⟨mn', mx', tail, hmn', hs⟩ := spacedItems_head (n := x) (x := y) (mx := mx) (items := items) (L.leads hd hc ht)
          obtain ⟨g1, t, g2, g3⟩ := ih.1 y mn' mx' tail hs hmn' (L.item_ne hd hc (x := (y, mn, mx)) (List.mem_cons_self ..))
          exact ⟨g1, t, g2, .seq hd hc (.here g3)⟩

theorem first_items : ∀ {its : List (Part N × Int × Int)} {i j : Nat}, DerivesItems (spaced W) input its i j →
    (∀ x mn mx tail, its = (.given x, mn, mx) :: tail → 0 < mn → x ≠ W.root → i < j ∧ ∃ t, input[i]? = some t ∧ WFirst W x t) ∧
    ∀ items, its = givens items → (∀ y ∈ items, y.1 ≠ W.root) →
      (i < j → ∃ t, input[i]? = some t ∧ WFirstItems W items t) ∧ ((∃ y ∈ items, 0 < y.2.1) → i < j)
  | _, _, _, .nil => by
    refine ⟨?_, ?_⟩
    · intro x mn mx tail h
      cases h
    intro items h hr
    cases items with
    | nil => exact ⟨fun h => absurd h (Nat.lt_irrefl _), fun ⟨y, hy, _⟩ => by cases hy⟩
    | cons => cases h
  | _, i, j, .cons (k := k) (m := m) h1 h2 h3 => by
    have ih1 := first_times h1
    have ih2 := first_items h3
    have b1 := h1.bounds.1
    have b2 := h3.bounds.1
    constructor
    · rintro x mn mx tail h hmn hx
      cases h
      obtain ⟨g1, g2⟩ := ih1 x rfl hx (inRange_pos h2 hmn)
      exact ⟨by omega, g2⟩
    · intro items h hr
      cases items with
      | nil => cases h
      | cons y items =>
        obtain ⟨y, mn, mx⟩ := y
        cases h
        obtain ⟨r1, r2⟩ := ih2.2 items rfl fun y hy => hr y (List.mem_cons_of_mem _ hy)
        have hy := hr _ (List.mem_cons_self ..)
        rcases Nat.eq_zero_or_pos k with rfl | hk
        · cases h1
          constructor
          · intro hlt
            obtain ⟨t, ht, hf⟩ := r1 hlt
            exact ⟨t, ht, .next (inRange_zero.1 h2) hf⟩
          · rintro ⟨z, hz, hpos⟩
            rcases List.mem_cons.1 hz with rfl | hz
            · exact absurd (inRange_pos h2 hpos) (Nat.lt_irrefl _)
            · exact r2 ⟨z, hz, hpos⟩
        · obtain ⟨g1, t, g2, g3⟩ := ih1 y rfl hy hk
          exact ⟨fun _ => ⟨t, g2, .here g3⟩, fun _ => by omega⟩

theorem first_times : ∀ {q : Part N} {k i j : Nat}, DerivesTimes (spaced W) input q k i j → ∀ x, q = .given x → x ≠ W.root → 0 < k →
    i < j ∧ ∃ t, input[i]? = some t ∧ WFirst W x t
  | _, _, _, _, .zero, _, _, _, h => absurd h (Nat.lt_irrefl _)
  | _, _, i, j, .succ (k := k) (m := m) h1 h2, x, e, hx, _ => by
    have ih1 := first_times h1 x e hx
    have ih2 := first_given h2 x e hx
    have b1 := h1.bounds.1
    rcases Nat.eq_zero_or_pos k with rfl | hk
    · cases h1
      exact ih2
    · obtain ⟨g1, g2⟩ := ih1 hk
      exact ⟨by omega, g2⟩
end

end

/-! ### Whitespace -/

def SpaceAt (W : WGrammar N) (input : List Rune) (i : Nat) : Prop := ∃ t, input[i]? = some t ∧ SpaceChar W t

def Blank (W : WGrammar N) (input : List Rune) (i j : Nat) : Prop := i ≤ j ∧ ∀ k, i ≤ k → k < j → SpaceAt W input k

theorem Blank.refl {i : Nat} : Blank W input i i := ⟨Nat.le_refl _, fun _ h1 h2 => absurd h2 (Nat.not_lt.2 h1)⟩

theorem Blank.trans {i j k : Nat} (h1 : Blank W input i j) (h2 : Blank W input j k) : Blank W input i k :=
  ⟨Nat.le_trans h1.1 h2.1, fun l g1 g2 => by
    rcases Nat.lt_or_ge l j with h | h
    · exact h1.2 l g1 h
    · exact h2.2 l h g2⟩

theorem Blank.shrink {i j m : Nat} (h : Blank W input i j) (h1 : i ≤ m) (h2 : m ≤ j) : Blank W input m j :=
  ⟨h2, fun k g1 g2 => h.2 k (Nat.le_trans h1 g1) g2⟩

/-- The whitespace ends at the same place. -/
theorem Blank.unique {i j k : Nat} (h1 : Blank W input i j) (h2 : Blank W input i k) (g1 : ¬ SpaceAt W input j)
    (g2 : ¬ SpaceAt W input k) : j = k := by
  rcases Nat.lt_trichotomy j k with h | h | h
  · exact absurd (h2.2 j h1.1 h) g1
  · exact h
  · exact absurd (h1.2 k h2.1 h) g2

theorem not_spaceAt {c : Option Rune} {i : Nat} (h : input[i]? = c) (hc : ∀ t, c = some t → ¬ SpaceChar W t) : ¬ SpaceAt W input i := by
  rintro ⟨t, ht, hs⟩
  exact hc t (h ▸ ht) hs

section
variable (L : WLL1 W)

include L

theorem single_derives {n : N} (h : Single W n) : n ≠ W.root → ∀ {i j : Nat}, WDerives W input n i j →
    j = i + 1 ∧ ∃ t, input[i]? = some t ∧ WFirst W n t := by
  induction h with
  | @char n d neg chars ranges hd he =>
    intro hne i j hw
    cases hw with
    | root => exact absurd rfl hne
    | def_ _ hb =>
      cases hb with
      | char h1 h2 h3 h4 => exact ⟨rfl, _, h3, .char h1 h2 h4⟩
      | choice h1 h2 => rw [hd] at h1; cases h1; rw [he] at h2; cases h2
      | tight h1 h2 => rw [hd] at h1; cases h1; rw [he] at h2; cases h2
      | loose h1 h2 => rw [hd] at h1; cases h1; rw [he] at h2; cases h2
  | @choice n d os hd he _ ih =>
    intro hne i j hw
    cases hw with
    | root => exact absurd rfl hne
    | def_ _ hb =>
      cases hb with
      | char h1 h2 h3 h4 => rw [hd] at h1; cases h1; rw [he] at h2; cases h2
      | choice h1 h2 h3 h4 =>
        rw [hd] at h1; cases h1; rw [he] at h2; cases h2
        obtain ⟨g1, t, g2, g3⟩ := ih _ h3 (L.option_ne hd he h3) h4
        exact ⟨g1, t, g2, .choice hd he h3 g3⟩
      | tight h1 h2 => rw [hd] at h1; cases h1; rw [he] at h2; cases h2
      | loose h1 h2 => rw [hd] at h1; cases h1; rw [he] at h2; cases h2
  | @seq n d x hd he _ ih =>
    intro hne i j hw
    have hx : x ≠ W.root := L.item_ne hd he (x := (x, 1, 1)) (List.mem_cons_self ..)
    have one : ∀ {k : Nat}, InRange 1 1 k → k = 1 := by
      intro k hk
      rcases hk with hk | hk <;> omega
    cases hw with
    | root => exact absurd rfl hne
    | def_ _ hb =>
      cases hb with
      | char h1 h2 h3 h4 => rw [hd] at h1; cases h1; rw [he] at h2; cases h2
      | choice h1 h2 h3 h4 => rw [hd] at h1; cases h1; rw [he] at h2; cases h2
      | tight h1 h2 _ h3 =>
        rw [hd] at h1; cases h1; rw [he] at h2; cases h2
        cases h3 with
        | cons g1 g2 g3 =>
          cases one g2
          cases g3
          cases g1 with
          | succ g4 g5 =>
            cases g4
            obtain ⟨r1, t, r2, r3⟩ := ih hx g5
            exact ⟨r1, t, r2, .seq hd he (.here r3)⟩
      | loose h1 h2 _ h3 =>
        rw [hd] at h1; cases h1; rw [he] at h2; cases h2
        cases h3 with
        | cons g1 g2 g3 =>
          cases one g2
          cases g3
          cases g1 with
          | first g5 =>
            obtain ⟨r1, t, r2, r3⟩ := ih hx g5
            exact ⟨r1, t, r2, .seq hd he (.here r3)⟩
          | succ g4 g5 => exact absurd (g5 rfl) (Nat.lt_irrefl _)

theorem gap_blank : ∀ {i j : Nat}, Gap W input i j → Blank W input i j
  | _, _, .nil => .refl
  | i, j, .cons (w := w) (m := m) h1 h2 h3 => by
    have ih := gap_blank h1
    obtain ⟨h4, h5⟩ := L.spaces w h2
    obtain ⟨rfl, t, g1, g2⟩ := single_derives L h5 h4 h3
    refine ih.trans ⟨Nat.le_succ _, fun k k1 k2 => ?_⟩
    obtain rfl : k = m := by omega
    exact ⟨t, g1, w, h2, g2⟩

theorem single_spaced {n : N} (h : Single W n) : n ≠ W.root → ∀ {i j : Nat}, Derives (spaced W) input (.given n) i j → j = i + 1 := by
  induction h with
  | @char n d neg chars ranges hd he =>
    intro hne i j hw
    obtain ⟨gd, g1, g2⟩ := given_spaced hne hd
    rw [he] at g2
    cases hw with
    | char h1 h2 h3 h4 => rfl
    | choice h1 h2 => rw [g1] at h1; cases h1; rw [g2] at h2; cases h2
    | seq h1 h2 => rw [g1] at h1; cases h1; rw [g2] at h2; cases h2
  | @choice n d os hd he _ ih =>
    intro hne i j hw
    obtain ⟨gd, g1, g2⟩ := given_spaced hne hd
    rw [he] at g2
    cases hw with
    | char h1 h2 h3 h4 => rfl
    | choice h1 h2 h3 h4 =>
      rw [g1] at h1; cases h1; rw [g2] at h2; cases h2
      obtain ⟨o, ho, rfl⟩ := List.mem_map.1 h3
      exact ih o ho (L.option_ne hd he ho) h4
    | seq h1 h2 => rw [g1] at h1; cases h1; rw [g2] at h2; cases h2
  | @seq n d x hd he _ ih =>
    intro hne i j hw
    have hx : x ≠ W.root := L.item_ne hd he (x := (x, 1, 1)) (List.mem_cons_self ..)
    obtain ⟨gd, g1, g2⟩ := given_spaced hne hd
    rw [he] at g2
    have g3 : gd.expr = .seq [(.given x, 1, 1)] := by
      rw [g2]
      by_cases ht : W.tight n = true
      · rw [inner_tight ht]; rfl
      · simp only [Bool.not_eq_true] at ht
        rw [inner_loose ht]; rfl
    cases hw with
    | char h1 h2 h3 h4 => rfl
    | choice h1 h2 => rw [g1] at h1; cases h1; rw [g3] at h2; cases h2
    | seq h1 h2 h3 =>
      rw [g1] at h1; cases h1; rw [g3] at h2; cases h2
      cases h3 with
      | @cons _ _ _ _ k _ _ _ g4 g5 g6 =>
        obtain rfl : k = 1 := by rcases g5 with g5 | g5 <;> omega
        cases g6
        cases g4 with
        | succ g7 g8 =>
          cases g7
          exact ih hx g8

theorem space_spaced {i j : Nat} (h : Derives (spaced W) input .space i j) : j = i + 1 ∧ SpaceAt W input i := by
  cases h with
  | char h1 h2 => cases h1; cases h2
  | seq h1 h2 => cases h1; cases h2
  | choice h1 h2 h3 h4 =>
    cases h1
    cases h2
    obtain ⟨w, hw, rfl⟩ := List.mem_map.1 h3
    obtain ⟨g1, g2⟩ := L.spaces w hw
    obtain ⟨-, t, ht, hf⟩ := first_given L h4 w rfl g1
    exact ⟨single_spaced L g2 g1 h4, t, ht, w, hw, hf⟩

theorem spaces_blank : ∀ {k i j : Nat}, DerivesTimes (spaced W) input .space k i j → Blank W input i j
  | _, _, _, .zero => .refl
  | _, _, _, .succ (m := m) h1 h2 => by
    have ih := spaces_blank h1
    obtain ⟨rfl, h3⟩ := space_spaced L h2
    refine ih.trans ⟨Nat.le_succ _, fun k k1 k2 => ?_⟩
    obtain rfl : k = m := by omega
    exact h3

end

end

end Treerack
