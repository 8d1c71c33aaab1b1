import Verif.Spec.Definite
import Verif.Proofs.LookaheadWs

/-
With one character of lookahead, a text has a single derivation tree with whitespace.
-/

set_option linter.unusedSectionVars false

namespace Treerack
open Spec

section
variable {N : Type} [DecidableEq N]

/-- `l` times `D x`, with something in front of each. -/
inductive RepT (D : N → Nat → Nat → List Node → Prop) (sep : Nat → Nat → Prop) (x : N) : Nat → Nat → Nat → List Node → Prop
  | zero {p : Nat} : RepT D sep x 0 p p []
  | succ {l p a b q : Nat} {ns ms : List Node} : sep p a → D x a b ns → RepT D sep x l b q ms → RepT D sep x (l + 1) p q (ns ++ ms)

inductive ItemsT (D : N → Nat → Nat → List Node → Prop) (sep : Nat → Nat → Prop) : List (N × Int × Int) → Nat → Nat → List Node → Prop
  | nil {a : Nat} : ItemsT D sep [] a a []
  | cons {x : N} {mn mx : Int} {back : List (N × Int × Int)} {k a b m e : Nat} {ns ms : List Node} :
      (a = b ∨ k = 0 ∧ mx = 1 ∧ sep a b) → RepT D sep x k b m ns → InRange mn mx k → ItemsT D sep back m e ms →
      ItemsT D sep ((x, mn, mx) :: back) a e (ns ++ ms)

variable {W : WGrammar N} {input : List Rune} {D D' : N → Nat → Nat → List Node → Prop} {sep : Nat → Nat → Prop}

def Space (W : WGrammar N) (input : List Rune) (tight : Bool) (i j : Nat) : Prop := if tight then i = j else Blank W input i j

inductive BodyT (W : WGrammar N) (input : List Rune) (D : N → Nat → Nat → List Node → Prop) : N → Nat → Nat → List Node → Prop
  | char {n : N} {d : GDef N} {neg : Bool} {chars : List Rune} {ranges : List (Rune × Rune)} {i : Nat} {t : Rune} :
      W.G n = some d → d.expr = .char neg chars ranges → input[i]? = some t → InClass neg chars ranges t → BodyT W input D n i (i + 1) []
  | choice {n : N} {d : GDef N} {os : List N} {o : N} {i j : Nat} {ns : List Node} :
      W.G n = some d → d.expr = .choice os → o ∈ os → D o i j ns → BodyT W input D n i j ns
  | tight {n : N} {d : GDef N} {items : List (N × Int × Int)} {i j : Nat} {ns : List Node} :
      W.G n = some d → d.expr = .seq items → W.tight n = true → ItemsT D (Space W input true) items i j ns → BodyT W input D n i j ns
  | loose {n : N} {d : GDef N} {x : N} {mn mx : Int} {back : List (N × Int × Int)} {l i b m j : Nat} {ns ms vs : List Node} :
      W.G n = some d → d.expr = .seq ((x, mn, mx) :: back) → W.tight n = false → D x i b ns → RepT D (Space W input false) x l b m ms →
      InRange mn mx (l + 1) → ItemsT D (Space W input false) back m j vs → BodyT W input D n i j (ns ++ ms ++ vs)

theorem RepT.snoc {x : N} : ∀ {l p q a b : Nat} {ns ms : List Node}, RepT D sep x l p q ns → sep q a → D x a b ms →
    RepT D sep x (l + 1) p b (ns ++ ms)
  | _, _, _, _, _, _, ms, .zero, h1, h2 => by
    have := RepT.succ h1 h2 (.zero (sep := sep))
    rwa [List.append_nil] at this
  | _, _, _, _, _, _, _, .succ h1 h2 h3, h4, h5 => by
    rw [List.append_assoc]
    exact .succ h1 h2 (h3.snoc h4 h5)

theorem RepT.mono (hD : ∀ {x a b ns}, D x a b ns → D' x a b ns) {x : N} : ∀ {l p q : Nat} {ns : List Node}, RepT D sep x l p q ns →
    RepT D' sep x l p q ns
  | _, _, _, _, .zero => .zero
  | _, _, _, _, .succ h1 h2 h3 => .succ h1 (hD h2) (h3.mono hD)

theorem ItemsT.mono (hD : ∀ {x a b ns}, D x a b ns → D' x a b ns) : ∀ {items : List (N × Int × Int)} {a e : Nat} {ns : List Node},
    ItemsT D sep items a e ns → ItemsT D' sep items a e ns
  | _, _, _, _, .nil => .nil
  | _, _, _, _, .cons h1 h2 h3 h4 => .cons h1 (h2.mono hD) h3 (h4.mono hD)

theorem BodyT.mono (hD : ∀ {x a b ns}, D x a b ns → D' x a b ns) {n : N} {i j : Nat} {ns : List Node} (h : BodyT W input D n i j ns) :
    BodyT W input D' n i j ns := by
  cases h with
  | char h1 h2 h3 h4 => exact .char h1 h2 h3 h4
  | choice h1 h2 h3 h4 => exact .choice h1 h2 h3 (hD h4)
  | tight h1 h2 h3 h4 => exact .tight h1 h2 h3 (h4.mono hD)
  | loose h1 h2 h3 h4 h5 h6 h7 => exact .loose h1 h2 h3 (hD h4) (h5.mono hD) h6 (h7.mono hD)

/-! ### Trees are derivations -/

mutual
theorem Spec.WTree.derives : ∀ {n : N} {i j : Nat} {ns : List Node}, WTree W input n i j ns → WDerives W input n i j
  | _, _, _, _, .shown h0 _ _ h => .def_ h0 (Spec.WTreeBody.derives h)
  | _, _, _, _, .hidden h0 _ _ h => .def_ h0 (Spec.WTreeBody.derives h)
  | _, _, _, _, .root _ h1 h2 h3 => .root (Spec.TreeGap.derives h1) (Spec.WTreeBody.derives h2) (Spec.TreeGap.derives h3)

theorem Spec.WTreeBody.derives : ∀ {n : N} {i j : Nat} {ns : List Node}, WTreeBody W input n i j ns → WBody W input n i j
  | _, _, _, _, .char h1 h2 h3 h4 => .char h1 h2 h3 h4
  | _, _, _, _, .choice h1 h2 h3 h4 => .choice h1 h2 h3 (Spec.WTree.derives h4)
  | _, _, _, _, .tight h1 h2 h3 h4 => .tight h1 h2 h3 (Spec.WTreeTight.derives h4)
  | _, _, _, _, .loose h1 h2 h3 h4 => .loose h1 h2 h3 (Spec.WTreeLoose.derives h4)

theorem Spec.TreeGap.derives : ∀ {i j : Nat} {ns : List Node}, TreeGap W input i j ns → Gap W input i j
  | _, _, _, .nil => .nil
  | _, _, _, .cons h1 h2 h3 => .cons (Spec.TreeGap.derives h1) h2 (Spec.WTree.derives h3)

theorem Spec.WTreeTight.derives : ∀ {items : List (N × Int × Int)} {i j : Nat} {ns : List Node}, WTreeTight W input items i j ns →
    WTight W input items i j
  | _, _, _, _, .nil => .nil
  | _, _, _, _, .cons h1 h2 h3 => .cons (Spec.WTreeTimes.derives h1) h2 (Spec.WTreeTight.derives h3)

theorem Spec.WTreeTimes.derives : ∀ {x : N} {k i j : Nat} {ns : List Node}, WTreeTimes W input x k i j ns → WTimes W input x k i j
  | _, _, _, _, _, .zero => .zero
  | _, _, _, _, _, .succ h1 h2 => .succ (Spec.WTreeTimes.derives h1) (Spec.WTree.derives h2)

theorem Spec.WTreeLoose.derives : ∀ {first : Bool} {items : List (N × Int × Int)} {i j : Nat} {ns : List Node},
    WTreeLoose W input first items i j ns → WLoose W input first items i j
  | _, _, _, _, _, .nil => .nil
  | _, _, _, _, _, .cons h1 h2 h3 => .cons (Spec.WTreeOcc.derives h1) h2 (Spec.WTreeLoose.derives h3)
  | _, _, _, _, _, .absent h1 h2 h3 => .absent h1 (Spec.TreeGap.derives h2) (Spec.WTreeLoose.derives h3)

theorem Spec.WTreeOcc.derives : ∀ {first : Bool} {x : N} {k i j : Nat} {ns : List Node}, WTreeOcc W input first x k i j ns →
    WOcc W input first x k i j
  | _, _, _, _, _, _, .zero => .zero
  | _, _, _, _, _, _, .first h => .first (Spec.WTree.derives h)
  | _, _, _, _, _, _, .succ h1 h2 h3 h4 => .succ (Spec.WTreeOcc.derives h1) h2 (Spec.TreeGap.derives h3) (Spec.WTree.derives h4)
end

section
variable (L : WLL1 W)

include L

/-! ### The whitespace has no nodes -/

theorem quiet_tree {n : N} (h : Quiet W n) : n ≠ W.root → ∀ {i j : Nat} {ns : List Node}, WTree W input n i j ns →
    ns = [] ∧ j = i + 1 ∧ ∃ t, input[i]? = some t ∧ WFirst W n t := by
  have body : ∀ {n : N} {d : GDef N} {i j : Nat} {ns : List Node}, n ≠ W.root → W.G n = some d → ¬ Shown W n d →
      WTree W input n i j ns → WTreeBody W input n i j ns := by
    intro n d i j ns hne hd hs hw
    cases hw with
    | root => exact absurd rfl hne
    | shown _ h1 h2 => rw [hd] at h1; cases h1; exact absurd h2 hs
    | hidden _ _ _ hb => exact hb
  induction h with
  | @char n d neg chars ranges hd he =>
    intro hne i j ns hw
    have hb := body hne hd (fun h => h.2.2 _ _ _ he) hw
    cases hb with
    | char h1 h2 h3 h4 => exact ⟨rfl, rfl, _, h3, .char h1 h2 h4⟩
    | choice h1 h2 => rw [hd] at h1; cases h1; rw [he] at h2; cases h2
    | tight h1 h2 => rw [hd] at h1; cases h1; rw [he] at h2; cases h2
    | loose h1 h2 => rw [hd] at h1; cases h1; rw [he] at h2; cases h2
  | @choice n d os hd he hs _ ih =>
    intro hne i j ns hw
    have hb := body hne hd hs hw
    cases hb with
    | char h1 h2 h3 h4 => rw [hd] at h1; cases h1; rw [he] at h2; cases h2
    | choice h1 h2 h3 h4 =>
      rw [hd] at h1; cases h1; rw [he] at h2; cases h2
      obtain ⟨g0, g1, t, g2, g3⟩ := ih _ h3 (L.option_ne hd he h3) h4
      exact ⟨g0, g1, t, g2, .choice hd he h3 g3⟩
    | tight h1 h2 => rw [hd] at h1; cases h1; rw [he] at h2; cases h2
    | loose h1 h2 => rw [hd] at h1; cases h1; rw [he] at h2; cases h2
  | @seq n d x hd he hs _ ih =>
    intro hne i j ns hw
    have hx : x ≠ W.root := L.item_ne hd he (x := (x, 1, 1)) (List.mem_cons_self ..)
    have one : ∀ {k : Nat}, InRange 1 1 k → k = 1 := by
      intro k hk
      rcases hk with hk | hk <;> omega
    have hb := body hne hd hs hw
    cases hb with
    | char h1 h2 h3 h4 => rw [hd] at h1; cases h1; rw [he] at h2; cases h2
    | choice h1 h2 h3 h4 => rw [hd] at h1; cases h1; rw [he] at h2; cases h2
    | tight h1 h2 _ h3 =>
      rw [hd] at h1; cases h1; rw [he] at h2; cases h2
      cases h3 with
      | cons g1 g2 g3 =>
        cases one g2
        cases g3
        cases g1 with
        | succ g4 g5 =>
          cases g4
          obtain ⟨rfl, r1, t, r2, r3⟩ := ih hx g5
          exact ⟨rfl, r1, t, r2, .seq hd he (.here r3)⟩
    | loose h1 h2 _ h3 =>
      rw [hd] at h1; cases h1; rw [he] at h2; cases h2
      cases h3 with
      | cons g1 g2 g3 =>
        cases one g2
        cases g3
        cases g1 with
        | first g5 =>
          obtain ⟨rfl, r1, t, r2, r3⟩ := ih hx g5
          exact ⟨rfl, r1, t, r2, .seq hd he (.here r3)⟩
        | succ g4 g5 => exact absurd (g5 rfl) (Nat.lt_irrefl _)

variable (Q : WDefinite W)

include Q

theorem gap_quiet : ∀ {i j : Nat} {us : List Node}, TreeGap W input i j us → us = [] ∧ Blank W input i j
  | _, _, _, .nil => ⟨rfl, .refl⟩
  | i, j, _, .cons (w := w) (m := m) h1 h2 h3 => by
    obtain ⟨rfl, ih⟩ := gap_quiet h1
    obtain ⟨rfl, rfl, t, g1, g2⟩ := quiet_tree L (Q.quiet w h2) (L.spaces w h2).1 h3
    refine ⟨rfl, ih.trans ⟨Nat.le_succ _, fun k k1 k2 => ?_⟩⟩
    obtain rfl : k = m := by omega
    exact ⟨t, g1, w, h2, g2⟩

/-! ### Induction over the trees -/

section
variable {P : N → Nat → Nat → List Node → Prop}
  (step : ∀ {n i j ns d ms}, n ≠ W.root → WTree W input n i j ns → W.G n = some d → BodyT W input P n i j ms →
    (Shown W n d → ns = [Node.mk d.name i j input ms]) → (¬ Shown W n d → ns = ms) → P n i j ns)

include step

mutual
theorem wtree_induct : ∀ {n : N} {i j : Nat} {ns : List Node}, WTree W input n i j ns → n ≠ W.root → P n i j ns
  | _, _, _, _, .root _ _ _ _, h => absurd rfl h
  | _, _, _, _, .shown h0 h1 h2 h3, _ => step h0 (.shown h0 h1 h2 h3) h1 (wtree_body h3) (fun _ => rfl) (fun h => absurd h2 h)
  | _, _, _, _, .hidden h0 h1 h2 h3, _ => step h0 (.hidden h0 h1 h2 h3) h1 (wtree_body h3) (fun h => absurd h h2) (fun _ => rfl)

theorem wtree_body : ∀ {n : N} {i j : Nat} {ns : List Node}, WTreeBody W input n i j ns → BodyT W input P n i j ns
  | _, _, _, _, .char h1 h2 h3 h4 => .char h1 h2 h3 h4
  | _, _, _, _, .choice h1 h2 h3 h4 => .choice h1 h2 h3 (wtree_induct h4 (L.option_ne h1 h2 h3))
  | _, _, _, _, .tight h1 h2 h3 h4 => .tight h1 h2 h3 (wtree_tight h4 fun _ hx => L.item_ne h1 h2 hx)
  | _, _, _, _, .loose (items := items) h1 h2 h3 h4 => by
    have ih := wtree_loose h4 fun _ hx => L.item_ne h1 h2 hx
    cases items with
    | nil =>
      obtain ⟨y, hy, -⟩ := L.solid h1 h2
      cases hy
    | cons x back =>
      obtain ⟨x, mn, mx⟩ := x
      obtain ⟨l, b, m, vs1, vs2, vs3, g1, g2, g3, g4, g5⟩ := ih.1 rfl x mn mx back rfl (L.leads h1 h2 h3)
      rw [g5]
      exact .loose h1 h2 h3 g1 g2 g3 g4

theorem wtree_tight : ∀ {items : List (N × Int × Int)} {i j : Nat} {ns : List Node}, WTreeTight W input items i j ns →
    (∀ x ∈ items, x.1 ≠ W.root) → ItemsT P (Space W input true) items i j ns
  | _, _, _, _, .nil, _ => .nil
  | _, _, _, _, .cons h1 h2 h3, hr =>
    .cons (.inl rfl) (wtree_times h1 (hr _ (List.mem_cons_self ..))) h2 (wtree_tight h3 fun x hx => hr x (List.mem_cons_of_mem _ hx))

theorem wtree_times : ∀ {x : N} {k i j : Nat} {ns : List Node}, WTreeTimes W input x k i j ns → x ≠ W.root →
    RepT P (Space W input true) x k i j ns
  | _, _, _, _, _, .zero, _ => .zero
  | _, _, _, _, _, .succ h1 h2, hr => (wtree_times h1 hr).snoc rfl (wtree_induct h2 hr)

theorem wtree_loose : ∀ {first : Bool} {items : List (N × Int × Int)} {i j : Nat} {ns : List Node}, WTreeLoose W input first items i j ns →
    (∀ x ∈ items, x.1 ≠ W.root) →
    (first = true → ∀ x mn mx back, items = (x, mn, mx) :: back → 0 < mn → ∃ l b m vs1 vs2 vs3, P x i b vs1 ∧
      RepT P (Space W input false) x l b m vs2 ∧ InRange mn mx (l + 1) ∧ ItemsT P (Space W input false) back m j vs3 ∧
      ns = vs1 ++ vs2 ++ vs3) ∧
    (first = false → ItemsT P (Space W input false) items i j ns)
  | _, _, _, _, _, .nil, _ => by
    refine ⟨?_, fun _ => .nil⟩
    intro _ x mn mx back h
    cases h
  | _, _, _, _, _, .cons (k := k) h1 h2 h3, hr => by
    have ih1 := wtree_occ h1 (hr _ (List.mem_cons_self ..))
    have ih2 := (wtree_loose h3 fun x hx => hr x (List.mem_cons_of_mem _ hx)).2 rfl
    constructor
    · rintro rfl x mn mx back h hmn
      cases h
      have hk := inRange_pos h2 hmn
      obtain ⟨b, vs1, vs2, g1, g2, rfl⟩ := ih1.1 rfl hk
      exact ⟨k - 1, b, _, _, _, _, g1, g2, by rwa [Nat.sub_add_cancel hk], ih2, rfl⟩
    · rintro rfl
      exact .cons (.inl rfl) (ih1.2 rfl) h2 ih2
  | _, _, _, _, _, .absent h1 h2 h3, hr => by
    have ih2 := (wtree_loose h3 fun x hx => hr x (List.mem_cons_of_mem _ hx)).2 rfl
    obtain ⟨hu, hb⟩ := gap_quiet L Q h2
    rw [hu]
    exact ⟨fun h => (by cases h), fun _ => .cons (.inr ⟨rfl, rfl, hb⟩) .zero (inRange_zero.2 h1) ih2⟩

theorem wtree_occ : ∀ {first : Bool} {x : N} {k i j : Nat} {ns : List Node}, WTreeOcc W input first x k i j ns → x ≠ W.root →
    (first = true → 0 < k → ∃ b vs1 vs2, P x i b vs1 ∧ RepT P (Space W input false) x (k - 1) b j vs2 ∧ ns = vs1 ++ vs2) ∧
    (first = false → RepT P (Space W input false) x k i j ns)
  | _, _, _, _, _, _, .zero, _ => ⟨fun _ h => absurd h (Nat.lt_irrefl _), fun _ => .zero⟩
  | _, _, _, _, _, _, .first h1, hr => by
    have ih := wtree_induct h1 hr
    exact ⟨fun _ _ => ⟨_, _, _, ih, .zero, (List.append_nil _).symm⟩, fun h => (by cases h)⟩
  | first, x, _, i, j, _, .succ (k := k) h1 h2 h3 h4, hr => by
    have ih1 := wtree_occ h1 hr
    have ih2 := wtree_induct h4 hr
    obtain ⟨hu, hb⟩ := gap_quiet L Q h3
    rw [hu, List.append_nil]
    constructor
    · intro hf _
      have hk := h2 hf
      obtain ⟨b, vs1, vs2, g1, g2, g3⟩ := ih1.1 hf hk
      have := g2.snoc (show Space W input false _ _ from hb) ih2
      rw [Nat.sub_add_cancel hk] at this
      refine ⟨b, _, _, g1, this, ?_⟩
      rw [g3, List.append_assoc]
    · intro hf
      exact (ih1.2 hf).snoc (show Space W input false _ _ from hb) ih2
end
end

/-! ### What a tree starts with -/

def Starts (W : WGrammar N) (input : List Rune) (x : N) (a _b : Nat) (_ns : List Node) : Prop :=
  ∃ t, input[a]? = some t ∧ WFirst W x t

theorem itemsT_first {items : List (N × Int × Int)} {a e : Nat} {ns : List Node}
    (h : ItemsT (Starts W input) (Space W input true) items a e ns) : (∃ x ∈ items, 0 < x.2.1) →
      ∃ t, input[a]? = some t ∧ WFirstItems W items t := by
  induction h with
  | nil => rintro ⟨x, hx, -⟩; cases hx
  | @cons x mn mx back k a b m e ns ms g0 g1 g2 g3 ih =>
    intro hp
    obtain rfl : a = b := by
      rcases g0 with h | ⟨-, -, h⟩
      · exact h
      · exact h
    cases g1 with
    | zero =>
      have h0 := inRange_zero.1 g2
      obtain ⟨t, h1, h2⟩ := ih (by
        obtain ⟨y, hy, hpos⟩ := hp
        rcases List.mem_cons.1 hy with rfl | hy
        · simp only at hpos; omega
        · exact ⟨y, hy, hpos⟩)
      exact ⟨t, h1, .next h0 h2⟩
    | succ s1 s2 s3 =>
      cases (show a = _ from s1)
      obtain ⟨t, h1, h2⟩ := s2
      exact ⟨t, h1, .here h2⟩

theorem bodyT_first {n : N} {i j : Nat} {ns : List Node} (h : BodyT W input (Starts W input) n i j ns) :
    ∃ t, input[i]? = some t ∧ WFirst W n t := by
  cases h with
  | char h1 h2 h3 h4 => exact ⟨_, h3, .char h1 h2 h4⟩
  | choice h1 h2 h3 h4 =>
    obtain ⟨t, g1, g2⟩ := h4
    exact ⟨t, g1, .choice h1 h2 h3 g2⟩
  | tight h1 h2 h3 h4 =>
    obtain ⟨t, g1, g2⟩ := itemsT_first L Q h4 (L.solid h1 h2)
    exact ⟨t, g1, .seq h1 h2 g2⟩
  | loose h1 h2 h3 h4 =>
    obtain ⟨t, g1, g2⟩ := h4
    exact ⟨t, g1, .seq h1 h2 (.here g2)⟩

/-- A part of a tree. -/
def Piece (W : WGrammar N) (input : List Rune) (x : N) (a b : Nat) (ns : List Node) : Prop :=
  Starts W input x a b ns ∧ x ≠ W.root ∧ WTree W input x a b ns

theorem wtree_piece {n : N} {i j : Nat} {ns : List Node} (h : WTree W input n i j ns) (hne : n ≠ W.root) : Piece W input n i j ns :=
  wtree_induct L Q (P := Piece W input) (fun hn hw _ hb _ _ => ⟨bodyT_first L Q (hb.mono fun h => h.1), hn, hw⟩) h hne

theorem wtreeBody_pieces {n : N} {i j : Nat} {ns : List Node} (h : WTreeBody W input n i j ns) : BodyT W input (Piece W input) n i j ns :=
  wtree_body L Q (P := Piece W input) (fun hn hw _ hb _ _ => ⟨bodyT_first L Q (hb.mono fun h => h.1), hn, hw⟩) h

/-! ### What comes behind -/

def Followed (W : WGrammar N) (input : List Rune) (F : Bool → Option Rune → Prop) (j : Nat) : Prop :=
  ∃ g c m, F g c ∧ Blank W input j m ∧ input[m]? = c ∧ (g = false → m = j)

omit L Q in
theorem Space.blank {b : Bool} {i j : Nat} (h : Space W input b i j) : Blank W input i j := by
  cases b
  · exact h
  · cases h; exact .refl

omit L Q in
theorem Space.tight {b : Bool} {i j : Nat} (h : Space W input b i j) (hb : b = true) : i = j := by
  subst hb
  exact h

omit L Q in
theorem followed_next {n : N} {items : List (N × Int × Int)} {m e : Nat} {ns : List Node}
    (h : ItemsT (Starts W input) (Space W input (W.tight n)) items m e ns) (hK : Followed W input (WFollow W n) e) :
    Followed W input (WNext W n items) m := by
  induction h with
  | nil =>
    obtain ⟨g, c, m2, h1, h2⟩ := hK
    exact ⟨g, c, m2, .done h1, h2⟩
  | @cons x mn mx back k a b m e ns ms g0 g1 g2 g3 ih =>
    cases g1 with
    | zero =>
      obtain ⟨g, c, m2, h1, h2, h3, h4⟩ := ih hK
      have hmn := inRange_zero.1 g2
      have hb : Blank W input a b := by
        rcases g0 with rfl | ⟨-, -, h⟩
        · exact .refl
        · exact h.blank
      refine ⟨_, c, m2, .skip hmn h1, hb.trans h2, h3, fun hg => ?_⟩
      simp only [Bool.or_eq_false_iff, Bool.not_eq_false'] at hg
      have : a = b := by
        rcases g0 with rfl | ⟨-, -, h⟩
        · rfl
        · exact h.tight hg.2
      rw [this]
      exact h4 hg.1
    | @succ l _ a' b' _ _ _ s1 s2 s3 =>
      obtain ⟨t, ht, hf⟩ := s2
      obtain rfl : a = b := by
        rcases g0 with h | ⟨h, -, -⟩
        · exact h
        · cases h
      refine ⟨_, some t, a', .here hf, s1.blank, ht, fun hg => ?_⟩
      simp only [Bool.not_eq_false'] at hg
      exact (s1.tight hg).symm

omit L Q in
theorem followed_rep {n : N} {d : GDef N} {front back : List (N × Int × Int)} {x : N} {mn mx : Int} {l p q e : Nat} {ns ms : List Node}
    (hd : W.G n = some d) (he : d.expr = .seq (front ++ (x, mn, mx) :: back)) (hl : 0 < l → mx ≠ 1)
    (h1 : RepT (Starts W input) (Space W input (W.tight n)) x l p q ns)
    (h2 : ItemsT (Starts W input) (Space W input (W.tight n)) back q e ms) (hK : Followed W input (WFollow W n) e) :
    Followed W input (WFollow W x) p := by
  cases h1 with
  | zero =>
    obtain ⟨g, c, m2, h1, k⟩ := followed_next h2 hK
    exact ⟨g, c, m2, .next hd he h1, k⟩
  | @succ l _ a b _ _ _ s1 s2 s3 =>
    obtain ⟨t, ht, hf⟩ := s2
    refine ⟨_, some t, a, .again hd he (hl (Nat.succ_pos _)) hf, s1.blank, ht, fun hg => ?_⟩
    simp only [Bool.not_eq_false'] at hg
    exact (s1.tight hg).symm

/-! ### Two trees of the same text -/

/-- The positions are in the same whitespace. -/
def Near (W : WGrammar N) (input : List Rune) (p q : Nat) : Prop := Blank W input p q ∨ Blank W input q p

omit L Q in
theorem Near.unique {p q a b : Nat} (h : Near W input p q) (h1 : Blank W input p a) (h2 : Blank W input q b) (g1 : ¬ SpaceAt W input a)
    (g2 : ¬ SpaceAt W input b) : a = b := by
  rcases h with h | h
  · exact h1.unique (h.trans h2) g1 g2
  · exact (h.trans h1).unique h2 g1 g2

omit L Q in
theorem Near.symm {p q : Nat} (h : Near W input p q) : Near W input q p := Or.symm h

omit L Q in
theorem Near.move {p q m : Nat} (h : Near W input p q) (h1 : Blank W input p m) : Near W input m q := by
  rcases h with h | h
  · rcases Nat.le_total m q with k | k
    · exact .inl (h.shrink h1.1 k)
    · exact .inr (h1.shrink h.1 k)
  · exact .inr (h.trans h1)

omit L Q in
theorem inRange_two {mn mx : Int} {k k' : Nat} (h : InRange mn mx k) (h' : InRange mn mx k') (hne : k ≠ k') : ¬ (0 < mx ∧ mx ≤ mn) := by
  rintro ⟨h1, h2⟩
  rcases h with h | h <;> rcases h' with h' | h' <;> omega

/-- What is tried behind something where whitespace is allowed does not start like whitespace. -/
theorem spaced_first {n : N} {d : GDef N} {front back : List (N × Int × Int)} {x : N} {mn mx : Int} {t : Rune} (hd : W.G n = some d)
    (he : d.expr = .seq (front ++ (x, mn, mx) :: back)) (ht : W.tight n = false) (hf : front ≠ [] ∨ mx ≠ 1) (h : WFirst W x t) :
    ¬ SpaceChar W t := by
  rcases hf with hf | hf
  · obtain ⟨front', y, rfl⟩ : ∃ front' y, front = front' ++ [y] := ⟨_, _, (List.dropLast_concat_getLast hf).symm⟩
    obtain ⟨y, mn', mx'⟩ := y
    rw [List.append_assoc] at he
    have := WNext.here (W := W) (n := n) (mn := mn) (mx := mx) (items := back) h
    rw [ht] at this
    exact L.gaps (.next hd he this)
  · have := WFollow.again hd he hf h
    rw [ht] at this
    exact L.gaps this

/-- An item is not there in one tree, and missing in the other one. -/
theorem clash {n : N} {d : GDef N} {front back : List (N × Int × Int)} {x : N} {mn mx : Int} {c l p p' a e : Nat} {t : Rune}
    {ms : List Node} (hd : W.G n = some d) (he : d.expr = .seq (front ++ (x, mn, mx) :: back))
    (hf : W.tight n = false → front = [] → 0 < c) (h1 : InRange mn mx (c + l + 1)) (h2 : InRange mn mx c)
    (hp : p = p' ∨ W.tight n = false ∧ Near W input p p') (ha : Space W input (W.tight n) p a) (hta : input[a]? = some t)
    (hx : WFirst W x t) (hi : ItemsT (Starts W input) (Space W input (W.tight n)) back p' e ms)
    (hK : Followed W input (WFollow W n) e) : False := by
  have hv := inRange_two h1 h2 (by omega)
  obtain ⟨g, k, m, h3, h4, h5, h6⟩ := followed_next hi hK
  have hit : m = a → False := by
    rintro rfl
    rw [hta] at h5
    subst h5
    exact L.items hd he hv hx h3
  cases ht : W.tight n with
  | true =>
    have hpa := ha.tight ht
    subst hpa
    obtain rfl : p = p' := by
      rcases hp with h | ⟨h, -⟩
      · exact h
      · rw [ht] at h; cases h
    cases g with
    | false => exact hit (h6 rfl)
    | true =>
      have hs := L.ends hd he hv ht hx h3
      rcases Nat.eq_or_lt_of_le h4.1 with h | h
      · exact hit h.symm
      · exact not_spaceAt hta (fun t' e => by cases e; exact hs) (h4.2 p (Nat.le_refl _) h)
  | false =>
    have hmx : front ≠ [] ∨ mx ≠ 1 := by
      by_cases hfr : front = []
      · have := hf ht hfr
        refine .inr ?_
        rintro rfl
        rcases h1 with h1 | h1 <;> omega
      · exact .inl hfr
    have hs := spaced_first L Q hd he ht hmx hx
    have hnear : Near W input p p' := by
      rcases hp with rfl | ⟨-, h⟩
      · exact .inl .refl
      · exact h
    refine hit (hnear.unique ha.blank h4 (not_spaceAt hta fun t' e => by cases e; exact hs) (not_spaceAt h5 fun t' e => ?_)).symm
    subst e
    exact L.after hd he hv ht h3

/-- The other trees of the part are the same. -/
def Sole (W : WGrammar N) (input : List Rune) (x : N) (a b : Nat) (ns : List Node) : Prop :=
  Starts W input x a b ns ∧ ∀ b' ns', WTree W input x a b' ns' → Followed W input (WFollow W x) b → Followed W input (WFollow W x) b' →
    b = b' ∧ ns = ns'

/-- The places where the rest of the two trees starts. -/
def Beside (W : WGrammar N) (input : List Rune) (n : N) (items : List (N × Int × Int)) (p p' : Nat) : Prop :=
  p = p' ∨ W.tight n = false ∧ Near W input p p' ∧ ∃ y ∈ items, 0 < y.2.1

def SameRest (W : WGrammar N) (input : List Rune) (n : N) (items : List (N × Int × Int)) : Prop :=
  ∀ p p' e e' ns ns', Beside W input n items p p' → ItemsT (Sole W input) (Space W input (W.tight n)) items p e ns →
    ItemsT (Piece W input) (Space W input (W.tight n)) items p' e' ns' → Followed W input (WFollow W n) e →
    Followed W input (WFollow W n) e' → e = e' ∧ ns = ns'

theorem same_rep {n : N} {d : GDef N} {front back : List (N × Int × Int)} {x : N} {mn mx : Int} (hd : W.G n = some d)
    (he : d.expr = .seq (front ++ (x, mn, mx) :: back)) (ih : SameRest W input n back) : ∀ {l c p q p' q' l' e e' : Nat}
    {ns ms ns' ms' : List Node}, (W.tight n = false → front = [] → 0 < c) → (p = p' ∨ c = 0 ∧ Beside W input n ((x, mn, mx) :: back) p p') →
    RepT (Sole W input) (Space W input (W.tight n)) x l p q ns → RepT (Piece W input) (Space W input (W.tight n)) x l' p' q' ns' →
    InRange mn mx (c + l) → InRange mn mx (c + l') → ItemsT (Sole W input) (Space W input (W.tight n)) back q e ms →
    ItemsT (Piece W input) (Space W input (W.tight n)) back q' e' ms' → Followed W input (WFollow W n) e →
    Followed W input (WFollow W n) e' → e = e' ∧ ns ++ ms = ns' ++ ms' := by
  intro l
  induction l with
  | zero =>
    intro c p q p' q' l' e e' ns ms ns' ms' hf hp h1 h1' h2 h2' h3 h3' hK hK'
    cases h1
    cases h1' with
    | zero =>
      refine ih _ _ _ _ _ _ ?_ h3 h3' hK hK'
      rcases hp with rfl | ⟨rfl, rfl | ⟨g1, g2, y, hy, hpos⟩⟩
      · exact .inl rfl
      · exact .inl rfl
      · refine .inr ⟨g1, g2, y, ?_, hpos⟩
        rcases List.mem_cons.1 hy with rfl | hy
        · have := inRange_zero.1 h2
          simp only at hpos
          omega
        · exact hy
    | succ s1 s2 s3 =>
      obtain ⟨⟨t, ht, hx⟩, -⟩ := s2
      refine (clash L Q hd he hf h2' h2 ?_ s1 ht hx (h3.mono fun h => h.1) hK).elim
      rcases hp with rfl | ⟨-, rfl | ⟨g1, g2, -⟩⟩
      · exact .inl rfl
      · exact .inl rfl
      · exact .inr ⟨g1, g2.symm⟩
  | succ l ihl =>
    intro c p q p' q' l' e e' ns ms ns' ms' hf hp h1 h1' h2 h2' h3 h3' hK hK'
    cases h1 with
    | @succ _ _ a b _ ns1 ns2 s1 s2 s3 =>
    cases h1' with
    | zero =>
      obtain ⟨⟨t, ht, hx⟩, -⟩ := s2
      refine (clash L Q hd he hf h2 h2' ?_ s1 ht hx (h3'.mono fun h => h.1) hK').elim
      rcases hp with rfl | ⟨-, rfl | ⟨g1, g2, -⟩⟩
      · exact .inl rfl
      · exact .inl rfl
      · exact .inr ⟨g1, g2⟩
    | @succ l' _ a' b' _ ns1' ns2' s1' s2' s3' =>
      obtain ⟨⟨t, ht, hx⟩, hu⟩ := s2
      obtain ⟨⟨t', ht', hx'⟩, hne, hw⟩ := s2'
      have heq : a = a' := by
        cases htn : W.tight n with
        | true =>
          rw [← s1.tight htn, ← s1'.tight htn]
          rcases hp with rfl | ⟨-, rfl | ⟨g1, -, -⟩⟩
          · rfl
          · rfl
          · rw [htn] at g1; cases g1
        | false =>
          have hnear : Near W input p p' := by
            rcases hp with rfl | ⟨-, rfl | ⟨-, g2, -⟩⟩
            · exact .inl .refl
            · exact .inl .refl
            · exact g2
          have hmx : front ≠ [] ∨ mx ≠ 1 := by
            by_cases hfr : front = []
            · have := hf htn hfr
              refine .inr ?_
              rintro rfl
              rcases h2 with h | h <;> omega
            · exact .inl hfr
          exact hnear.unique s1.blank s1'.blank (not_spaceAt ht fun _ e => by cases e; exact spaced_first L Q hd he htn hmx hx)
            (not_spaceAt ht' fun _ e => by cases e; exact spaced_first L Q hd he htn hmx hx')
      subst heq
      have many : ∀ {k : Nat}, InRange mn mx (c + (k + 1)) → 0 < k → mx ≠ 1 := by
        rintro k h h0 rfl
        rcases h with h | h <;> omega
      obtain ⟨rfl, rfl⟩ := hu _ _ hw
        (followed_rep hd he (many h2) (s3.mono fun h => h.1) (h3.mono fun h => h.1) hK)
        (followed_rep hd he (many h2') (s3'.mono fun h => h.1) (h3'.mono fun h => h.1) hK')
      obtain ⟨h4, h5⟩ := ihl (c := c + 1) (fun _ _ => Nat.succ_pos _) (.inl rfl) s3 s3' (by rwa [Nat.add_right_comm])
        (by rwa [Nat.add_right_comm]) h3 h3' hK hK'
      refine ⟨h4, ?_⟩
      rw [List.append_assoc, List.append_assoc, h5]

theorem same_items {n : N} {d : GDef N} (hd : W.G n = some d) : ∀ (items front : List (N × Int × Int)),
    (W.tight n = false → front ≠ []) → d.expr = .seq (front ++ items) → SameRest W input n items := by
  intro items
  induction items with
  | nil =>
    intro front _ _ p p' e e' ns ns' hp h h' _ _
    cases h
    cases h'
    rcases hp with hp | ⟨-, -, y, hy, -⟩
    · exact ⟨hp, rfl⟩
    · cases hy
  | cons x back ih =>
    intro front hf he p p' e e' ns ns' hp h h' hK hK'
    obtain ⟨x, mn, mx⟩ := x
    have ihb := ih (front ++ [(x, mn, mx)]) (by simp) (by rw [he]; simp)
    cases h with
    | @cons _ _ _ _ k _ b m _ ns1 ms1 g0 g1 g2 g3 =>
    cases h' with
    | @cons _ _ _ _ k' _ b' m' _ ns1' ms1' g0' g1' g2' g3' =>
      have key : ∀ {p p' b k}, Beside W input n ((x, mn, mx) :: back) p p' → p = b ∨ k = 0 ∧ mx = 1 ∧ Space W input (W.tight n) p b →
          InRange mn mx k → Beside W input n ((x, mn, mx) :: back) b p' := by
        intro p p' b k hp h0 hr
        rcases h0 with rfl | ⟨rfl, rfl, hs⟩
        · exact hp
        · cases htn : W.tight n with
          | true =>
            rw [← hs.tight htn]
            exact hp
          | false =>
            obtain ⟨y, hy, hpos⟩ := Q.closed hd he htn (inRange_zero.1 hr)
            refine .inr ⟨htn, ?_, y, List.mem_cons_of_mem _ hy, hpos⟩
            rcases hp with rfl | ⟨-, h, -⟩
            · exact .inr hs.blank
            · exact h.move hs.blank
      have swap : ∀ {p p'}, Beside W input n ((x, mn, mx) :: back) p p' → Beside W input n ((x, mn, mx) :: back) p' p := by
        rintro p p' (rfl | ⟨h1, h2, h3⟩)
        · exact .inl rfl
        · exact .inr ⟨h1, h2.symm, h3⟩
      have hp' := swap (key (swap (key hp g0 g2)) g0' g2')
      exact same_rep L Q hd he ihb (c := 0) (fun h1 h2 => absurd h2 (hf h1)) (.inr ⟨rfl, hp'⟩) g1 g1' (by rwa [Nat.zero_add])
        (by rwa [Nat.zero_add]) g3 g3' hK hK'

theorem same_body {n : N} {i j j' : Nat} {ns ns' : List Node} (h : BodyT W input (Sole W input) n i j ns)
    (h' : BodyT W input (Piece W input) n i j' ns') (hK : Followed W input (WFollow W n) j) (hK' : Followed W input (WFollow W n) j') :
    j = j' ∧ ns = ns' := by
  cases h with
  | char h1 h2 h3 h4 =>
    cases h' with
    | char g1 g2 g3 g4 => exact ⟨rfl, rfl⟩
    | choice g1 g2 => rw [h1] at g1; cases g1; rw [h2] at g2; cases g2
    | tight g1 g2 => rw [h1] at g1; cases g1; rw [h2] at g2; cases g2
    | loose g1 g2 => rw [h1] at g1; cases g1; rw [h2] at g2; cases g2
  | @choice _ os o _ _ _ h1 h2 h3 h4 =>
    cases h' with
    | char g1 g2 g3 g4 => rw [h1] at g1; cases g1; rw [h2] at g2; cases g2
    | @choice _ _ o' _ _ _ g1 g2 g3 g4 =>
      rw [h1] at g1; cases g1; rw [h2] at g2; cases g2
      obtain ⟨⟨t, ht, hf⟩, hu⟩ := h4
      obtain ⟨⟨t', ht', hf'⟩, -, hw⟩ := g4
      rw [ht] at ht'; cases ht'
      obtain rfl : o' = o := Classical.byContradiction fun hne => L.options h1 h2 h3 g3 hne hf hf'
      have fol : ∀ {k}, Followed W input (WFollow W n) k → Followed W input (WFollow W o') k := by
        rintro k ⟨g, c, m, r1, r2⟩
        exact ⟨g, c, m, .option r1 h1 h2 h3, r2⟩
      exact hu _ _ hw (fol hK) (fol hK')
    | tight g1 g2 => rw [h1] at g1; cases g1; rw [h2] at g2; cases g2
    | loose g1 g2 => rw [h1] at g1; cases g1; rw [h2] at g2; cases g2
  | tight h1 h2 h3 h4 =>
    cases h' with
    | char g1 g2 g3 g4 => rw [h1] at g1; cases g1; rw [h2] at g2; cases g2
    | choice g1 g2 => rw [h1] at g1; cases g1; rw [h2] at g2; cases g2
    | tight g1 g2 g3 g4 =>
      rw [h1] at g1; cases g1; rw [h2] at g2; cases g2
      rw [← h3] at h4 g4
      exact same_items L Q h1 _ [] (fun h => by rw [h3] at h; cases h) h2 _ _ _ _ _ _ (.inl rfl) h4 g4 hK hK'
    | loose g1 g2 g3 => rw [h3] at g3; cases g3
  | @loose _ x mn mx back l _ b m _ vs1 vs2 vs3 h1 h2 h3 h4 h5 h6 h7 =>
    cases h' with
    | char g1 g2 g3 g4 => rw [h1] at g1; cases g1; rw [h2] at g2; cases g2
    | choice g1 g2 => rw [h1] at g1; cases g1; rw [h2] at g2; cases g2
    | tight g1 g2 g3 => rw [h3] at g3; cases g3
    | @loose _ _ _ _ _ l' _ b' m' _ vs1' vs2' vs3' g1 g2 g3 g4 g5 g6 g7 =>
      rw [h1] at g1; cases g1; rw [h2] at g2; cases g2
      rw [← h3] at h5 h7 g5 g7
      have many : ∀ {k : Nat}, InRange mn mx (k + 1) → 0 < k → mx ≠ 1 := by
        rintro k h h0 rfl
        rcases h with h | h <;> omega
      obtain ⟨rfl, rfl⟩ := h4.2 _ _ g4.2.2
        (followed_rep h1 (front := []) h2 (many h6) (h5.mono fun h => h.1) (h7.mono fun h => h.1) hK)
        (followed_rep h1 (front := []) h2 (many g6) (g5.mono fun h => h.1) (g7.mono fun h => h.1) hK')
      have ihb := same_items L Q (input := input) h1 back [(x, mn, mx)] (by simp) h2
      obtain ⟨r1, r2⟩ := same_rep L Q h1 (front := []) h2 ihb (c := 1) (fun _ _ => Nat.one_pos) (.inl rfl) h5 g5
        (by rwa [Nat.add_comm]) (by rwa [Nat.add_comm]) h7 g7 hK hK'
      refine ⟨r1, ?_⟩
      rw [List.append_assoc, List.append_assoc, r2]

theorem sole_step {n : N} {i j : Nat} {ns : List Node} {d : GDef N} {ms : List Node} (hne : n ≠ W.root) (hd : W.G n = some d)
    (hb : BodyT W input (Sole W input) n i j ms) (h1 : Shown W n d → ns = [Node.mk d.name i j input ms])
    (h2 : ¬ Shown W n d → ns = ms) : Sole W input n i j ns := by
  refine ⟨bodyT_first L Q (hb.mono fun h => h.1), fun j' ns' hw hK hK' => ?_⟩
  cases hw with
  | root => exact absurd rfl hne
  | shown _ g1 g2 g3 =>
    rw [hd] at g1; cases g1
    obtain ⟨rfl, rfl⟩ := same_body L Q hb (wtreeBody_pieces L Q g3) hK hK'
    exact ⟨rfl, h1 g2⟩
  | hidden _ g1 g2 g3 =>
    rw [hd] at g1; cases g1
    obtain ⟨rfl, rfl⟩ := same_body L Q hb (wtreeBody_pieces L Q g3) hK hK'
    exact ⟨rfl, h2 g2⟩

theorem wtreeBody_soles {n : N} {i j : Nat} {ns : List Node} (h : WTreeBody W input n i j ns) : BodyT W input (Sole W input) n i j ns :=
  wtree_body L Q (P := Sole W input) (fun hne _ hd hb h1 h2 => sole_step L Q hne hd hb h1 h2) h

/-- A text has a single tree. -/
theorem wtree_unique {ns ns' : List Node} (h : WTree W input W.root 0 input.length ns) (h' : WTree W input W.root 0 input.length ns') :
    ns = ns' := by
  cases h with
  | shown h0 => exact absurd rfl h0
  | hidden h0 => exact absurd rfl h0
  | root h1 h2 h3 h4 =>
  cases h' with
  | shown h0 => exact absurd rfl h0
  | hidden h0 => exact absurd rfl h0
  | root g1 g2 g3 g4 =>
    rw [h1] at g1; cases g1
    obtain ⟨rfl, b1⟩ := gap_quiet L Q h2
    obtain ⟨rfl, b2⟩ := gap_quiet L Q h4
    obtain ⟨rfl, b3⟩ := gap_quiet L Q g2
    obtain ⟨rfl, b4⟩ := gap_quiet L Q g4
    have k1 := wtreeBody_soles L Q h3
    have k2 := wtreeBody_pieces L Q g3
    obtain ⟨t, ht, hf⟩ := bodyT_first L Q (k1.mono fun h => h.1)
    obtain ⟨t', ht', hf'⟩ := bodyT_first L Q (k2.mono fun h => h.1)
    cases b1.unique b3 (not_spaceAt ht fun _ e => by cases e; exact L.begins hf) (not_spaceAt ht' fun _ e => by cases e; exact L.begins hf')
    have fol : ∀ {b}, Blank W input b input.length → Followed W input (WFollow W W.root) b := fun hb =>
      ⟨true, none, _, .root, hb, List.getElem?_eq_none (Nat.le_refl _), fun h => by cases h⟩
    obtain ⟨-, rfl⟩ := same_body L Q k1 k2 (fol b2) (fol b4)
    rfl

end
end
end Treerack
