import Verif.Proofs.LookaheadWs

/-
From derivations with whitespace to the reference semantics: the induction.
-/

set_option linter.unusedSectionVars false

namespace Treerack
open Spec

section
variable {N : Type} [DecidableEq N]

/-- `l` times `D x`, with something in front of each. -/
inductive RepD (D : N → Nat → Nat → Prop) (sep : Nat → Nat → Prop) (x : N) : Nat → Nat → Nat → Prop
  | zero {p : Nat} : RepD D sep x 0 p p
  | succ {l p a b q : Nat} : sep p a → D x a b → RepD D sep x l b q → RepD D sep x (l + 1) p q

theorem RepD.snoc {D : N → Nat → Nat → Prop} {sep : Nat → Nat → Prop} {x : N} : ∀ {l p q a b : Nat}, RepD D sep x l p q → sep q a → D x a b →
    RepD D sep x (l + 1) p b
  | _, _, _, _, _, .zero, h1, h2 => .succ h1 h2 .zero
  | _, _, _, _, _, .succ h1 h2 h3, h4, h5 => .succ h1 h2 (h3.snoc h4 h5)

inductive ItemsD (D : N → Nat → Nat → Prop) (sep : Nat → Nat → Prop) : List (N × Int × Int) → Nat → Nat → Prop
  | nil {a : Nat} : ItemsD D sep [] a a
  | cons {x : N} {mn mx : Int} {back : List (N × Int × Int)} {k a m e : Nat} :
      RepD D sep x k a m → InRange mn mx k → ItemsD D sep back m e → ItemsD D sep ((x, mn, mx) :: back) a e
  | absent {x : N} {mn : Int} {back : List (N × Int × Int)} {a m e : Nat} :
      mn ≤ 0 → sep a m → ItemsD D sep back m e → ItemsD D sep ((x, mn, 1) :: back) a e

variable {W : WGrammar N} {input : List Rune}

def Sep (W : WGrammar N) (input : List Rune) (tight : Bool) (i j : Nat) : Prop := if tight then i = j else Blank W input i j

theorem Sep.refl {b : Bool} {i : Nat} : Sep W input b i i := by
  cases b
  · exact Blank.refl
  · rfl

theorem Sep.blank {b : Bool} {i j : Nat} (h : Sep W input b i j) : Blank W input i j := by
  cases b
  · exact h
  · cases h; exact .refl

theorem Sep.shrink {b : Bool} {i j m : Nat} (h : Sep W input b i j) (h1 : i ≤ m) (h2 : m ≤ j) : Sep W input b m j := by
  cases b
  · exact Blank.shrink h h1 h2
  · cases h
    exact Nat.le_antisymm h2 h1

theorem Sep.tight {b : Bool} {i j : Nat} (h : Sep W input b i j) (hb : b = true) : i = j := by
  subst hb
  exact h

inductive BodyD (W : WGrammar N) (input : List Rune) (D : N → Nat → Nat → Prop) : N → Nat → Nat → Prop
  | char {n : N} {d : GDef N} {neg : Bool} {chars : List Rune} {ranges : List (Rune × Rune)} {i : Nat} {t : Rune} :
      W.G n = some d → d.expr = .char neg chars ranges → input[i]? = some t → InClass neg chars ranges t → BodyD W input D n i (i + 1)
  | choice {n : N} {d : GDef N} {os : List N} {o : N} {i j : Nat} :
      W.G n = some d → d.expr = .choice os → o ∈ os → D o i j → BodyD W input D n i j
  | tight {n : N} {d : GDef N} {items : List (N × Int × Int)} {i j : Nat} :
      W.G n = some d → d.expr = .seq items → W.tight n = true → ItemsD D (Sep W input true) items i j → BodyD W input D n i j
  | loose {n : N} {d : GDef N} {x : N} {mn mx : Int} {back : List (N × Int × Int)} {l i b m j : Nat} :
      W.G n = some d → d.expr = .seq ((x, mn, mx) :: back) → W.tight n = false → D x i b → RepD D (Sep W input false) x l b m →
      InRange mn mx (l + 1) → ItemsD D (Sep W input false) back m j → BodyD W input D n i j

/-- What can be seen behind the positions of `K`. -/
def Sees (W : WGrammar N) (input : List Rune) (F : Bool → Option Rune → Prop) (K : Nat → Prop) : Prop :=
  ∀ j, K j → ∃ g c m, F g c ∧ Blank W input j m ∧ input[m]? = c ∧ (g = false → m = j) ∧ ∀ m', j ≤ m' → m' ≤ m → K m'

theorem Sees.mono {F F' : Bool → Option Rune → Prop} {K : Nat → Prop} (h : Sees W input F K) (hF : ∀ g c, F g c → F' g c) :
    Sees W input F' K := fun j hj => by
  obtain ⟨g, c, m, h1, h2⟩ := h j hj
  exact ⟨g, c, m, hF _ _ h1, h2⟩

section
variable {B : Part N → Nat → Nat → Prop}

def End (W : WGrammar N) (B : Part N → Nat → Nat → Prop) (input : List Rune) (q : Part N) (i j : Nat) : Prop :=
  ∃ ns, Ref (spaced W) B input q i (some (j, ns))

def Ends (W : WGrammar N) (B : Part N → Nat → Nat → Prop) (input : List Rune) (items : List (Part N × Int × Int)) (k i j : Nat) : Prop :=
  ∃ ns, RefItems (spaced W) B input items k i (some (j, ns))

theorem Ends.nil {k i : Nat} : Ends W B input [] k i i := ⟨_, .nil⟩

theorem Ends.done {q : Part N} {mn mx : Int} {items : List (Part N × Int × Int)} {k i j : Nat} (h1 : Ref (spaced W) B input q i none)
    (h2 : mn ≤ (k : Int)) (h3 : Ends W B input items 0 i j) : Ends W B input ((q, mn, mx) :: items) k i j := by
  obtain ⟨ns, h3⟩ := h3
  exact ⟨ns, .done h1 h2 h3⟩

theorem Ends.last {q : Part N} {mn mx : Int} {items : List (Part N × Int × Int)} {k i m j : Nat} (h1 : End W B input q i m) (h : i < m)
    (h2 : 0 < mx) (h2' : ((k + 1 : Nat) : Int) = mx) (h3 : Ends W B input items 0 m j) : Ends W B input ((q, mn, mx) :: items) k i j := by
  obtain ⟨ms, h1⟩ := h1
  obtain ⟨ns, h3⟩ := h3
  exact ⟨ms ++ ns, .last h1 h h2 h2' h3⟩

theorem Ends.more {q : Part N} {mn mx : Int} {items : List (Part N × Int × Int)} {k i m j : Nat} (h1 : End W B input q i m) (h : i < m)
    (h2 : ¬ (0 < mx ∧ ((k + 1 : Nat) : Int) = mx)) (h3 : Ends W B input ((q, mn, mx) :: items) (k + 1) m j) :
    Ends W B input ((q, mn, mx) :: items) k i j := by
  obtain ⟨ms, h1⟩ := h1
  obtain ⟨ns, h3⟩ := h3
  exact ⟨ms ++ ns, .more h1 h h2 h3⟩

theorem Ends.end_ (hB : ∀ q i j, ¬ B q i j) {q : Part N} {gd : GDef (Part N)} {items : List (Part N × Int × Int)} {i j : Nat}
    (h : Ends W B input items 0 i j) (h1 : spaced W q = some gd) (h2 : gd.expr = .seq items) : End W B input q i j := by
  obtain ⟨ns, h⟩ := h
  exact ⟨_, .seq h1 h2 h fun x _ => hB _ _ _⟩

section
variable (L : WLL1 W) (hB : ∀ q i j, ¬ B q i j) (hn : ∀ a s, ¬ Recurs (spaced W) a s) {R : Part N → Prop}
  (Wh : Whole (spaced W) B input R)

include L hB hn Wh

theorem End.derives {q : Part N} {i j : Nat} (h : End W B input q i j) : Derives (spaced W) input q i j := by
  obtain ⟨ns, h⟩ := h
  exact Ref.sound hn h _ _ rfl

/-- No match, when there is no derivation. -/
theorem fails {q : Part N} {i : Nat} (hR : R q) (h : ∀ j, ¬ Derives (spaced W) input q i j) : Ref (spaced W) B input q i none := by
  obtain ⟨m, hm⟩ := Wh.total hR i
  cases m with
  | none => exact hm
  | some x => exact absurd (Ref.sound hn hm x.1 x.2 rfl) (h _)

/-- The only option that can match. -/
theorem choice_end {q : Part N} {gd : GDef (Part N)} {os : List (Part N)} {o : Part N} {i j : Nat} (hR : R q) (h1 : spaced W q = some gd)
    (h2 : gd.expr = .choice os) (h3 : o ∈ os) (h4 : End W B input o i j)
    (h5 : ∀ o' ∈ os, o' ≠ o → ∀ j', Derives (spaced W) input o' i j' → j' ≤ j) : End W B input q i j := by
  obtain ⟨ns, ho⟩ := h4
  obtain ⟨ms, hr⟩ := RefOptions.picked (j := j) (fun o' ho' => by
    by_cases e : o' = o
    · subst e
      exact ⟨_, ho, fun x hx => by cases hx; exact Nat.le_refl _⟩
    · obtain ⟨m, hm⟩ := Wh.total (Wh.option hR h1 h2 ho') i
      exact ⟨m, hm, fun x hx => h5 o' ho' e _ (Ref.sound hn hm _ _ hx)⟩) ⟨o, h3, ns, ho⟩
  exact ⟨_, .choice h1 h2 (hn _) hr⟩

theorem single_end {n : N} (h : Single W n) : n ≠ W.root → ∀ {i : Nat} {t : Rune}, R (.given n) → input[i]? = some t → WFirst W n t →
    End W B input (.given n) i (i + 1) := by
  induction h with
  | @char n d neg chars ranges hd he =>
    intro hne i t hR ht hf
    obtain ⟨gd, g1, g2⟩ := given_spaced hne hd
    rw [he] at g2
    cases hf with
    | char h1 h2 h3 =>
      rw [hd] at h1; cases h1; rw [he] at h2; cases h2
      exact ⟨_, .char g1 g2 ht h3⟩
    | choice h1 h2 => rw [hd] at h1; cases h1; rw [he] at h2; cases h2
    | seq h1 h2 => rw [hd] at h1; cases h1; rw [he] at h2; cases h2
  | @choice n d os hd he hs ih =>
    intro hne i t hR ht hf
    obtain ⟨gd, g1, g2⟩ := given_spaced hne hd
    rw [he] at g2
    cases hf with
    | char h1 h2 => rw [hd] at h1; cases h1; rw [he] at h2; cases h2
    | @choice _ _ _ o _ h1 h2 h3 h4 =>
      rw [hd] at h1; cases h1; rw [he] at h2; cases h2
      have hm : (Part.given o) ∈ os.map Part.given := List.mem_map.2 ⟨o, h3, rfl⟩
      refine choice_end L hB hn Wh hR g1 g2 hm (ih o h3 (L.option_ne hd he h3) (Wh.option hR g1 g2 hm) ht h4) fun o' ho' _ j' hj => ?_
      obtain ⟨o', ho'', rfl⟩ := List.mem_map.1 ho'
      exact Nat.le_of_eq (single_spaced L (hs o' ho'') (L.option_ne hd he ho'') hj)
    | seq h1 h2 => rw [hd] at h1; cases h1; rw [he] at h2; cases h2
  | @seq n d x hd he _ ih =>
    intro hne i t hR ht hf
    have hx : x ≠ W.root := L.item_ne hd he (x := (x, 1, 1)) (List.mem_cons_self ..)
    obtain ⟨gd, g1, g2⟩ := given_spaced hne hd
    rw [he] at g2
    have g3 : gd.expr = .seq [(.given x, 1, 1)] := by
      rw [g2]
      by_cases ht : W.tight n = true
      · rw [inner_tight ht]; rfl
      · simp only [Bool.not_eq_true] at ht
        rw [inner_loose ht]; rfl
    cases hf with
    | char h1 h2 => rw [hd] at h1; cases h1; rw [he] at h2; cases h2
    | choice h1 h2 => rw [hd] at h1; cases h1; rw [he] at h2; cases h2
    | seq h1 h2 h3 =>
      rw [hd] at h1; cases h1; rw [he] at h2; cases h2
      cases h3 with
      | here h3 =>
        have := ih hx (Wh.item hR g1 g3 (x := (.given x, 1, 1)) (List.mem_cons_self ..)) ht h3
        exact (Ends.last this (Nat.lt_succ_self _) (by decide) rfl .nil).end_ hB g1 g3
      | next h3 => omega

theorem space_end {i : Nat} (hR : R .space) (h : SpaceAt W input i) : End W B input .space i (i + 1) := by
  obtain ⟨t, ht, w, hw, hf⟩ := h
  obtain ⟨h1, h2⟩ := L.spaces w hw
  have hm : (Part.given w) ∈ W.ws.map Part.given := List.mem_map.2 ⟨w, hw, rfl⟩
  refine choice_end L hB hn Wh hR (gd := hidden (.choice (W.ws.map .given))) rfl rfl hm
    (single_end L hB hn Wh h2 h1 (Wh.option hR (d := hidden (.choice (W.ws.map .given))) rfl rfl hm) ht hf) fun o' ho' _ j' hj => ?_
  obtain ⟨o', ho'', rfl⟩ := List.mem_map.1 ho'
  obtain ⟨g1, g2⟩ := L.spaces o' ho''
  exact Nat.le_of_eq (single_spaced L g2 g1 hj)

/-- The whitespace is taken. -/
theorem Ends.gap {items : List (Part N × Int × Int)} {m e : Nat} (hR : R .space) (hm : ¬ SpaceAt W input m)
    (h : Ends W B input items 0 m e) : ∀ (l : Nat) {k a : Nat}, m - a = l → Blank W input a m → Ends W B input ((.space, 0, -1) :: items) k a e
  | 0, k, a, hl, hb => by
    obtain rfl : a = m := Nat.le_antisymm hb.1 (Nat.le_of_sub_eq_zero hl)
    exact .done (fails L hB hn Wh hR fun j hj => hm (space_spaced L hj).2) (by omega) h
  | l + 1, k, a, hl, hb => by
    have hlt : a < m := by omega
    refine .more (space_end L hB hn Wh hR (hb.2 a (Nat.le_refl _) hlt)) (Nat.lt_succ_self _) (by omega) ?_
    exact Ends.gap hR hm h l (by omega) (hb.shrink (Nat.le_succ _) hlt)

/-! ### What can be seen -/

/-- The derivations of a definition lead to a match, whatever comes behind it. -/
def Leads (W : WGrammar N) (B : Part N → Nat → Nat → Prop) (input : List Rune) (R : Part N → Prop) (x : N) (i j : Nat) : Prop :=
  x ≠ W.root ∧ (∃ t, input[i]? = some t ∧ WFirst W x t) ∧
  (R (.given x) → ∀ K, Sees W input (WFollow W x) K → K j → ∃ j', End W B input (.given x) i j' ∧ K j')

theorem sees_next {n : N} {K : Nat → Prop} (hK : Sees W input (WFollow W n) K) : ∀ (items : List (N × Int × Int)),
    Sees W input (WNext W n items) fun m => ∃ e, ItemsD (Leads W B input R) (Sep W input (W.tight n)) items m e ∧ K e := by
  intro items
  induction items with
  | nil =>
    rintro m ⟨e, h, hk⟩
    cases h
    obtain ⟨g, c, m2, h1, h2, h3, h4, h5⟩ := hK m hk
    exact ⟨g, c, m2, .done h1, h2, h3, h4, fun m' k1 k2 => ⟨m', .nil, h5 m' k1 k2⟩⟩
  | cons y items ih =>
    rintro m ⟨e, h, hk⟩
    cases h with
    | @cons x mn mx _ k _ q _ g1 g2 g3 =>
      cases g1 with
      | zero =>
        obtain ⟨g, c, m2, h1, h2, h3, h4, h5⟩ := ih m ⟨e, g3, hk⟩
        refine ⟨_, c, m2, .skip (inRange_zero.1 g2) h1, h2, h3, fun hg => h4 ?_, fun m' k1 k2 => ?_⟩
        · cases g
          · rfl
          · cases hg
        · obtain ⟨e', h6, h7⟩ := h5 m' k1 k2
          exact ⟨e', .cons .zero g2 h6, h7⟩
      | @succ l _ a b _ s1 s2 s3 =>
        obtain ⟨t, ht, hf⟩ := s2.2.1
        refine ⟨_, some t, a, .here hf, s1.blank, ht, fun hg => ?_, fun m' k1 k2 => ?_⟩
        · simp only [Bool.not_eq_false'] at hg
          exact (s1.tight hg).symm
        · exact ⟨e, .cons (.succ (s1.shrink k1 k2) s2 s3) g2 g3, hk⟩
    | @absent x mn _ _ m1 _ g1 g2 g3 =>
      obtain ⟨g, c, m2, h1, h2, h3, h4, h5⟩ := ih m1 ⟨e, g3, hk⟩
      refine ⟨_, c, m2, .skip g1 h1, g2.blank.trans h2, h3, fun hg => ?_, fun m' k1 k2 => ?_⟩
      · simp only [Bool.or_eq_false_iff, Bool.not_eq_false'] at hg
        rw [g2.tight hg.2]
        exact h4 hg.1
      · rcases Nat.le_total m' m1 with k3 | k3
        · exact ⟨e, .absent g1 (g2.shrink k1 k3) g3, hk⟩
        · obtain ⟨e', h6, h7⟩ := h5 m' k3 k2
          exact ⟨e', .absent g1 .refl h6, h7⟩

theorem sees_rep {n : N} {d : GDef N} {front back : List (N × Int × Int)} {x : N} {mn mx : Int} {K : Nat → Prop}
    (hd : W.G n = some d) (he : d.expr = .seq (front ++ (x, mn, mx) :: back)) (hK : Sees W input (WFollow W n) K) (l : Nat)
    (hl : 0 < l → mx ≠ 1) :
    Sees W input (WFollow W x) fun p => ∃ q e, RepD (Leads W B input R) (Sep W input (W.tight n)) x l p q ∧
      ItemsD (Leads W B input R) (Sep W input (W.tight n)) back q e ∧ K e := by
  rintro p ⟨q, e, h1, h2, h3⟩
  cases h1 with
  | zero =>
    obtain ⟨g, c, m2, h1, k2, h3, h4, h5⟩ := sees_next L hB hn Wh hK back p ⟨e, h2, h3⟩
    refine ⟨g, c, m2, .next hd he h1, k2, h3, h4, fun m' k1 k2 => ?_⟩
    obtain ⟨e', h6, h7⟩ := h5 m' k1 k2
    exact ⟨m', e', .zero, h6, h7⟩
  | @succ l _ a b _ s1 s2 s3 =>
    obtain ⟨t, ht, hf⟩ := s2.2.1
    refine ⟨_, some t, a, .again hd he (hl (Nat.succ_pos _)) hf, s1.blank, ht, fun hg => ?_, fun m' k1 k2 => ?_⟩
    · simp only [Bool.not_eq_false'] at hg
      exact (s1.tight hg).symm
    · exact ⟨q, e, .succ (s1.shrink k1 k2) s2 s3, h2, h3⟩

/-! ### Sequences without whitespace -/

theorem tight_items {n : N} {d : GDef N} {K : Nat → Prop} (hd : W.G n = some d) (ht : W.tight n = true)
    (hK : Sees W input (WFollow W n) K) : ∀ (items front : List (N × Int × Int)), d.expr = .seq (front ++ items) →
    (∀ y ∈ items, R (.given y.1)) → ∀ ⦃a e : Nat⦄, ItemsD (Leads W B input R) (Sep W input (W.tight n)) items a e → K e →
    ∃ e', Ends W B input (givens items) 0 a e' ∧ K e' := by
  intro items
  induction items with
  | nil =>
    intro front he hR a e h hk
    cases h
    exact ⟨a, .nil, hk⟩
  | cons y back ih =>
    obtain ⟨x, mn, mx⟩ := y
    intro front he hR a e h hk
    have hRx : R (.given x) := hR _ (List.mem_cons_self ..)
    have hx : x ≠ W.root := L.item_ne hd he (x := (x, mn, mx)) (List.mem_append_right _ (List.mem_cons_self ..))
    have ihb := ih (front ++ [(x, mn, mx)]) (by rw [he]; simp) fun y hy => hR y (List.mem_cons_of_mem _ hy)
    have rep : ∀ (l c p : Nat), (∃ q e, RepD (Leads W B input R) (Sep W input (W.tight n)) x l p q ∧
        ItemsD (Leads W B input R) (Sep W input (W.tight n)) back q e ∧ K e) → InRange mn mx (c + l) → ¬ (0 < mx ∧ (c : Int) = mx) →
        ∃ e', Ends W B input (givens ((x, mn, mx) :: back)) c p e' ∧ K e' := by
      intro l
      induction l with
      | zero =>
        rintro c p ⟨q, e, h1, h2, h3⟩ hin hmx
        cases h1
        have hv : ¬ (0 < mx ∧ mx ≤ mn) := by
          rintro ⟨g1, g2⟩
          rcases hin with h3 | h3
          · have := h3.2 g1
            omega
          · exact hmx ⟨g1, h3.2.2⟩
        obtain ⟨e', h4, h5⟩ := ihb h2 h3
        refine ⟨e', .done (fails L hB hn Wh hRx fun j hj => ?_) ?_ h4, h5⟩
        · obtain ⟨-, t, ht', hf⟩ := first_given L hj x rfl hx
          obtain ⟨g, c', m2, k1, k2, k3, k4, -⟩ := sees_next L hB hn Wh hK back p ⟨e, h2, h3⟩
          rcases Nat.eq_or_lt_of_le k2.1 with rfl | hlt
          · rw [ht'] at k3
            subst k3
            exact L.items hd he hv hf k1
          · obtain ⟨t', hs, hs'⟩ := k2.2 p (Nat.le_refl _) hlt
            rw [ht'] at hs
            cases hs
            cases g with
            | false => exact absurd (k4 rfl) (by omega)
            | true => exact L.ends hd he hv ht hf k1 hs'
        · rcases hin with h6 | h6
          · exact h6.1
          · exact absurd ⟨h6.1, h6.2.2⟩ hmx
      | succ l ihl =>
        rintro c p ⟨q, e, h1, h2, h3⟩ hin hmx
        cases h1 with
        | @succ _ _ a b _ s1 s2 s3 =>
          have hmx1 : 0 < l → mx ≠ 1 := by
            rintro hl rfl
            rcases hin with h4 | h4 <;> omega
          obtain ⟨b', hb, hkb⟩ := s2.2.2 hRx _ (sees_rep L hB hn Wh hd he hK l hmx1) ⟨q, e, s3, h2, h3⟩
          have hpa := s1.tight ht
          subst hpa
          have hlt := (first_given L (End.derives L hB hn Wh hb) x rfl hx).1
          by_cases hlast : 0 < mx ∧ ((c + 1 : Nat) : Int) = mx
          · obtain rfl : l = 0 := by
              rcases hin with h4 | h4 <;> omega
            obtain ⟨q', e2, r1, r2, r3⟩ := hkb
            cases r1
            obtain ⟨e', h4, h5⟩ := ihb r2 r3
            exact ⟨e', .last hb hlt hlast.1 hlast.2 h4, h5⟩
          · obtain ⟨e', h4, h5⟩ := ihl (c + 1) b' hkb (by rw [show c + 1 + l = c + (l + 1) by omega]; exact hin) hlast
            exact ⟨e', .more hb hlt hlast h4, h5⟩
    cases h with
    | @cons _ _ _ _ k _ m _ g1 g2 g3 => exact rep k 0 a ⟨m, e, g1, g3, hk⟩ (by simpa using g2) (by omega)
    | absent g1 g2 g3 =>
      cases g2.tight ht
      exact rep 0 0 a ⟨a, e, .zero, g3, hk⟩ (inRange_zero.2 g1) (by omega)

/-! ### Sequences with whitespace -/

theorem rest_spaced {n : N} {d : GDef N} {front back : List (N × Int × Int)} {x : N} {mn mx : Int} (hd : W.G n = some d)
    (he : d.expr = .seq (front ++ (x, mn, mx) :: back)) :
    spaced W (.rest n front.length) = some (hidden (.seq [(.space, 0, -1), (.given x, 1, 1)])) ∧
    spaced W (.several n front.length) = some (hidden (.seq (lead front.length ++ occurrences n front.length x mn mx))) := by
  have : W.item n front.length = some (x, mn, mx) := by
    obtain ⟨nm, al, ex⟩ := d
    simp only at he
    subst he
    simp only [WGrammar.item, hd]
    simp
  constructor <;> simp only [spaced, this, Option.map_some]

/-- What is tried after whitespace does not start like it. -/
theorem behind_gap {n : N} {d : GDef N} {front back : List (N × Int × Int)} {x : N} {mn mx : Int} {t : Rune} (hd : W.G n = some d)
    (ht : W.tight n = false) (he : d.expr = .seq (front ++ (x, mn, mx) :: back)) (hf : front ≠ []) (h : WFirst W x t) : ¬ SpaceChar W t := by
  obtain ⟨y, ys, rfl⟩ : ∃ y ys, front = ys ++ [y] := ⟨front.getLast hf, front.dropLast, (List.dropLast_concat_getLast hf).symm⟩
  obtain ⟨y, yn, yx⟩ := y
  refine L.gaps (n := y) (.next hd (front := ys) (mn := yn) (mx := yx) (back := (x, mn, mx) :: back) ?_ ?_)
  · rw [he]; simp
  · have := WNext.here (n := n) (mn := mn) (mx := mx) (items := back) h
    rwa [ht] at this

section
variable {n : N} {d : GDef N} {front back : List (N × Int × Int)} {x : N} {mn mx : Int} {K : Nat → Prop}
  (hd : W.G n = some d) (ht : W.tight n = false) (he : d.expr = .seq (front ++ (x, mn, mx) :: back))
  (hK : Sees W input (WFollow W n) K)

include hd ht he hK

/-- No further item, when its number may vary. -/
theorem no_more (hv : ¬ (0 < mx ∧ mx ≤ mn)) (hs : ∀ t, WFirst W x t → ¬ SpaceChar W t) {p e : Nat}
    (h : ItemsD (Leads W B input R) (Sep W input (W.tight n)) back p e) (hk : K e) :
    ∃ m, Blank W input p m ∧ ¬ SpaceAt W input m ∧ (∃ e, ItemsD (Leads W B input R) (Sep W input (W.tight n)) back m e ∧ K e) ∧
      (∀ j, ¬ Derives (spaced W) input (.given x) m j) ∧
      ∀ b j, Blank W input p b → ¬ Derives (spaced W) input (.given x) b j := by
  have hx : x ≠ W.root := L.item_ne hd he (x := (x, mn, mx)) (List.mem_append_right _ (List.mem_cons_self ..))
  obtain ⟨g, c, m, k1, k2, k3, k4, k5⟩ := sees_next L hB hn Wh hK back p ⟨e, h, hk⟩
  have hm : ¬ SpaceAt W input m := not_spaceAt k3 fun t hc => by
    subst hc
    exact L.after hd he hv ht k1
  have key : ∀ j, ¬ Derives (spaced W) input (.given x) m j := by
    intro j hj
    obtain ⟨-, t, ht', hf⟩ := first_given L hj x rfl hx
    rw [ht'] at k3
    subst k3
    exact L.items hd he hv hf k1
  refine ⟨m, k2, hm, k5 m k2.1 (Nat.le_refl _), key, fun b j hb hj => ?_⟩
  obtain ⟨-, t, ht', hf⟩ := first_given L hj x rfl hx
  obtain rfl : b = m := hb.unique k2 (not_spaceAt ht' fun t' h => by cases h; exact hs _ hf) hm
  exact key j hj

theorem loose_rep (hmx : mx ≠ 1) (hRr : R (.rest n front.length)) {its : List (Part N × Int × Int)} {K' : Nat → Prop}
    (hcont : ∀ p, (∃ e, ItemsD (Leads W B input R) (Sep W input (W.tight n)) back p e ∧ K e) → ∃ e', Ends W B input its 0 p e' ∧ K' e') :
    ∀ (l c p : Nat), (∃ q e, RepD (Leads W B input R) (Sep W input (W.tight n)) x l p q ∧
      ItemsD (Leads W B input R) (Sep W input (W.tight n)) back q e ∧ K e) → InRange mn mx (c + 1 + l) →
      ¬ (0 < (if 1 < mx then mx - 1 else -1) ∧ (c : Int) = if 1 < mx then mx - 1 else -1) →
      ∃ e', Ends W B input ((.rest n front.length, if 0 < mn then mn - 1 else 0, if 1 < mx then mx - 1 else -1) :: its) c p e' ∧ K' e' := by
  have hx : x ≠ W.root := L.item_ne hd he (x := (x, mn, mx)) (List.mem_append_right _ (List.mem_cons_self ..))
  have hs : ∀ t, WFirst W x t → ¬ SpaceChar W t := fun t hf => by
    have := WFollow.again (W := W) hd he hmx hf
    rw [ht] at this
    exact L.gaps this
  obtain ⟨hrest, -⟩ := rest_spaced L hB hn Wh hd he
  have hRs : R .space := Wh.item hRr hrest rfl (x := (.space, 0, -1)) (List.mem_cons_self ..)
  have hRx : R (.given x) := Wh.item hRr hrest rfl (x := (.given x, 1, 1)) (List.mem_cons_of_mem _ (List.mem_cons_self ..))
  intro l
  induction l with
  | zero =>
    rintro c p ⟨q, e, h1, h2, h3⟩ hin hlast
    cases h1
    have hv : ¬ (0 < mx ∧ mx ≤ mn) := by
      rintro ⟨g1, g2⟩
      have : 1 < mx := by omega
      simp only [this, if_true] at hlast
      rcases hin with h4 | h4
      · have := h4.2 g1
        omega
      · omega
    obtain ⟨m, k1, k2, k3, -, k4⟩ := no_more L hB hn Wh hd ht he hK hv hs h2 h3
    obtain ⟨e', h4, h5⟩ := hcont p ⟨e, h2, h3⟩
    refine ⟨e', .done (fails L hB hn Wh hRr fun j hj => ?_) ?_ h4, h5⟩
    · cases hj with
      | char g1 g2 => rw [hrest] at g1; cases g1; cases g2
      | choice g1 g2 => rw [hrest] at g1; cases g1; cases g2
      | seq g1 g2 g3 =>
        rw [hrest] at g1; cases g1; cases g2
        cases g3 with
        | cons g4 g5 g6 =>
          cases g6 with
          | @cons _ _ _ _ k' _ _ _ g7 g8 g9 =>
            obtain rfl : k' = 1 := by rcases g8 with g8 | g8 <;> omega
            cases g7 with
            | succ g10 g11 =>
              cases g10
              exact k4 _ _ (spaces_blank L g4) g11
    · rcases hin with h6 | h6
      · split <;> omega
      · have : 1 < mx := by omega
        simp only [this, if_true] at hlast
        omega
  | succ l ihl =>
    rintro c p ⟨q, e, h1, h2, h3⟩ hin hlast
    cases h1 with
    | @succ _ _ a b _ s1 s2 s3 =>
      obtain ⟨b', hb, hkb⟩ := s2.2.2 hRx _ (sees_rep L hB hn Wh hd he hK l fun _ => hmx) ⟨q, e, s3, h2, h3⟩
      have hlt := (first_given L (End.derives L hB hn Wh hb) x rfl hx).1
      obtain ⟨t, hta, hft⟩ := s2.2.1
      have ha : ¬ SpaceAt W input a := not_spaceAt hta fun t' h => by cases h; exact hs _ hft
      have hr : End W B input (.rest n front.length) p b' :=
        (Ends.gap L hB hn Wh hRs ha (.last hb hlt (by decide) rfl .nil) _ rfl s1.blank).end_ hB hrest rfl
      have hlt' : p < b' := Nat.lt_of_le_of_lt s1.blank.1 hlt
      by_cases hl' : 0 < (if 1 < mx then mx - 1 else -1) ∧ ((c + 1 : Nat) : Int) = if 1 < mx then mx - 1 else -1
      · have h1mx : 1 < mx := by
          by_cases h : 1 < mx
          · exact h
          · simp only [h, if_false] at hl'; omega
        have hl'' := hl'
        simp only [h1mx, if_true] at hl''
        obtain rfl : l = 0 := by
          rcases hin with h4 | h4 <;> omega
        obtain ⟨q', e2, r1, r2, r3⟩ := hkb
        cases r1
        obtain ⟨e', h4, h5⟩ := hcont b' ⟨e2, r2, r3⟩
        exact ⟨e', .last hr hlt' hl'.1 hl'.2 h4, h5⟩
      · obtain ⟨e', h4, h5⟩ := ihl (c + 1) b' hkb (by rw [show c + 1 + 1 + l = c + 1 + (l + 1) by omega]; exact hin) hl'
        exact ⟨e', .more hr hlt' hl' h4, h5⟩

/-- All the occurrences of an item. -/
theorem loose_occ (hmx : mx ≠ 1) (hRo : ∀ y ∈ occurrences n front.length x mn mx, R y.1) {its : List (Part N × Int × Int)} {K' : Nat → Prop}
    (hcont : ∀ p, (∃ e, ItemsD (Leads W B input R) (Sep W input (W.tight n)) back p e ∧ K e) → ∃ e', Ends W B input its 0 p e' ∧ K' e')
    {l a b q e : Nat} (h : Leads W B input R x a b) (h1 : RepD (Leads W B input R) (Sep W input (W.tight n)) x l b q)
    (h2 : ItemsD (Leads W B input R) (Sep W input (W.tight n)) back q e) (h3 : K e) (hin : InRange mn mx (l + 1)) :
    ∃ e', Ends W B input (occurrences n front.length x mn mx ++ its) 0 a e' ∧ K' e' := by
  have hx : x ≠ W.root := L.item_ne hd he (x := (x, mn, mx)) (List.mem_append_right _ (List.mem_cons_self ..))
  obtain ⟨b', hb, hkb⟩ := h.2.2 (hRo _ (List.mem_cons_self ..)) _ (sees_rep L hB hn Wh hd he hK l fun _ => hmx) ⟨q, e, h1, h2, h3⟩
  have hlt := (first_given L (End.derives L hB hn Wh hb) x rfl hx).1
  obtain ⟨e', h4, h5⟩ := loose_rep L hB hn Wh hd ht he hK hmx (hRo (_, _, _) (List.mem_cons_of_mem _ (List.mem_cons_self ..))) hcont l 0 b' hkb
    (by rw [show 0 + 1 + l = l + 1 by omega]; exact hin) (by split <;> omega)
  exact ⟨e', .last hb hlt (by decide) rfl h4, h5⟩

end

theorem loose_items {n : N} {d : GDef N} {K : Nat → Prop} (hd : W.G n = some d) (ht : W.tight n = false)
    (hK : Sees W input (WFollow W n) K) : ∀ (items front : List (N × Int × Int)), front ≠ [] → d.expr = .seq (front ++ items) →
    (∀ y ∈ spacedItems n front.length items, R y.1) → ∀ a, (∃ e, ItemsD (Leads W B input R) (Sep W input (W.tight n)) items a e ∧ K e) →
    ∃ e', Ends W B input (spacedItems n front.length items) 0 a e' ∧ K e' := by
  intro items
  induction items with
  | nil =>
    rintro front - he hR a ⟨e, h, hk⟩
    cases h
    exact ⟨a, .nil, hk⟩
  | cons y back ih =>
    obtain ⟨x, mn, mx⟩ := y
    intro front hf he hR a h
    have hx : x ≠ W.root := L.item_ne hd he (x := (x, mn, mx)) (List.mem_append_right _ (List.mem_cons_self ..))
    have hs : ∀ t, WFirst W x t → ¬ SpaceChar W t := fun t h => behind_gap L hB hn Wh hd ht he hf h
    have hpos : 0 < front.length := List.length_pos_iff.2 hf
    simp only [spacedItems] at hR ⊢
    have ihb := ih (front ++ [(x, mn, mx)]) (by simp) (by rw [he]; simp) (fun y hy => hR y (List.mem_append_right _ (by simpa using hy)))
    rw [show (front ++ [(x, mn, mx)]).length = front.length + 1 by simp] at ihb
    have hRi : ∀ y ∈ spacedItem n front.length (x, mn, mx), R y.1 := fun y hy => hR y (List.mem_append_left _ hy)
    -- a gap, and no item
    have absent : mx = 1 → mn ≤ 0 → ∀ {m e : Nat}, Blank W input a m →
        ItemsD (Leads W B input R) (Sep W input (W.tight n)) back m e → K e →
        ∃ e', Ends W B input (spacedItem n front.length (x, mn, mx) ++ spacedItems n (front.length + 1) back) 0 a e' ∧ K e' := by
      rintro rfl hmn m e hg hI hk
      obtain ⟨m2, k1, k2, k3, k4, -⟩ := no_more L hB hn Wh hd ht he hK (by omega) hs hI hk
      obtain ⟨e', h4, h5⟩ := ihb m2 k3
      simp only [spacedItem, lead, hpos, if_true] at hRi ⊢
      refine ⟨e', Ends.gap L hB hn Wh (hRi (.space, 0, -1) (List.mem_cons_self ..)) k2 ?_ _ rfl (hg.trans k1), h5⟩
      exact .done (fails L hB hn Wh (hRi (.given x, mn, 1) (List.mem_cons_of_mem _ (List.mem_cons_self ..))) k4) (by simpa using hmn) h4
    obtain ⟨e, h, hk⟩ := h
    cases h with
    | absent g1 g2 g3 => exact absent rfl g1 g2.blank g3 hk
    | @cons _ _ _ _ k _ m _ g1 g2 g3 =>
      cases g1 with
      | zero =>
        have hmn := inRange_zero.1 g2
        by_cases hmx : mx = 1
        · exact absent hmx hmn .refl g3 hk
        · have hmn' : ¬ 0 < mn := by omega
          obtain ⟨e', h4, h5⟩ := ihb a ⟨e, g3, hk⟩
          obtain ⟨-, hsev⟩ := rest_spaced L hB hn Wh hd he
          have hv : ¬ (0 < mx ∧ mx ≤ mn) := by omega
          obtain ⟨-, -, -, -, -, k4⟩ := no_more L hB hn Wh hd ht he hK hv hs g3 hk
          simp only [spacedItem, hmx, if_false, hmn'] at hRi ⊢
          refine ⟨e', .done (fails L hB hn Wh (hRi _ (List.mem_cons_self ..)) fun j hj => ?_) (by decide) h4, h5⟩
          cases hj with
          | char g1 g2 => rw [hsev] at g1; cases g1; cases g2
          | choice g1 g2 => rw [hsev] at g1; cases g1; cases g2
          | seq g1 g2 g3 =>
            rw [hsev] at g1; cases g1
            simp only [hidden, lead, hpos, if_true, occurrences, List.cons_append, List.nil_append] at g2
            cases g2
            cases g3 with
            | cons g4 g5 g6 =>
              cases g6 with
              | @cons _ _ _ _ k' _ _ _ g7 g8 g9 =>
                obtain rfl : k' = 1 := by rcases g8 with g8 | g8 <;> omega
                cases g7 with
                | succ g10 g11 =>
                  cases g10
                  exact k4 _ _ (spaces_blank L g4) g11
      | @succ l _ p b _ s1 s2 s3 =>
        obtain ⟨t, hta, hft⟩ := s2.2.1
        have hp : ¬ SpaceAt W input p := not_spaceAt hta fun t' h => by cases h; exact hs _ hft
        by_cases hmx : mx = 1
        · subst hmx
          obtain rfl : l = 0 := by rcases g2 with h4 | h4 <;> omega
          simp only [spacedItem, lead, hpos, if_true] at hRi ⊢
          obtain ⟨b', hb, hkb⟩ := s2.2.2 (hRi (.given x, mn, 1) (List.mem_cons_of_mem _ (List.mem_cons_self ..))) _
            (sees_rep L hB hn Wh hd he hK 0 fun h => absurd h (Nat.lt_irrefl _)) ⟨m, e, s3, g3, hk⟩
          have hlt := (first_given L (End.derives L hB hn Wh hb) x rfl hx).1
          obtain ⟨q', e2, r1, r2, r3⟩ := hkb
          cases r1
          obtain ⟨e', h4, h5⟩ := ihb b' ⟨e2, r2, r3⟩
          exact ⟨e', Ends.gap L hB hn Wh (hRi (.space, 0, -1) (List.mem_cons_self ..)) hp
            (.last hb hlt (by decide) rfl h4) _ rfl s1.blank, h5⟩
        · by_cases hmn : 0 < mn
          · simp only [spacedItem, lead, hpos, hmx, hmn, if_true, if_false] at hRi ⊢
            obtain ⟨e', h4, h5⟩ := loose_occ L hB hn Wh hd ht he hK hmx (fun y hy => hRi y (List.mem_append_right _ hy)) ihb s2 s3 g3 hk g2
            rw [List.append_assoc]
            exact ⟨e', Ends.gap L hB hn Wh (hRi (.space, 0, -1) (List.mem_append_left _ (List.mem_cons_self ..))) hp h4 _ rfl s1.blank, h5⟩
          · simp only [spacedItem, hmx, hmn, if_false] at hRi ⊢
            obtain ⟨-, hsev⟩ := rest_spaced L hB hn Wh hd he
            have hRsev := hRi _ (List.mem_cons_self ..)
            have hin : ∀ y ∈ lead front.length ++ occurrences n front.length x mn mx, R y.1 := fun y hy => Wh.item hRsev hsev rfl hy
            obtain ⟨q', h4, h5⟩ := loose_occ L hB hn Wh hd ht he hK hmx (fun y hy => hin y (List.mem_append_right _ hy)) (its := [])
              (K' := fun p => ∃ e, ItemsD (Leads W B input R) (Sep W input (W.tight n)) back p e ∧ K e) (fun p hp => ⟨p, .nil, hp⟩) s2 s3 g3 hk g2
            rw [List.append_nil] at h4
            simp only [lead, hpos, if_true] at hin hsev
            have hend : End W B input (.several n front.length) a q' :=
              (Ends.gap L hB hn Wh (hin (.space, 0, -1) (List.mem_append_left _ (List.mem_cons_self ..))) hp h4 _ rfl s1.blank).end_ hB hsev rfl
            obtain ⟨e', h6, h7⟩ := ihb q' h5
            have hlt : a < q' := by
              have hD := End.derives L hB hn Wh hend
              cases hD with
              | char g1 g2 => rw [hsev] at g1; cases g1; cases g2
              | choice g1 g2 => rw [hsev] at g1; cases g1; cases g2
              | seq g1 g2 g3 =>
                rw [hsev] at g1; cases g1
                simp only [hidden, occurrences, List.cons_append, List.nil_append] at g2
                cases g2
                cases g3 with
                | cons g4 g5 g6 =>
                  have := (first_items L g6).1 x _ _ _ rfl (by decide) hx
                  have := g4.bounds.1
                  omega
            exact ⟨e', .last hend hlt (by decide) rfl h6, h7⟩

/-! ### Definitions -/

theorem body_end {n : N} {q : Part N} {gd : GDef (Part N)} {d : GDef N} {K : Nat → Prop} (hd : W.G n = some d)
    (hq : spaced W q = some gd) (he : gd.expr = W.inner n d.expr) (hR : R q) (hK : Sees W input (WFollow W n) K) {i j : Nat}
    (h : BodyD W input (Leads W B input R) n i j) (hj : K j) : ∃ j', End W B input q i j' ∧ K j' := by
  cases h with
  | char h1 h2 h3 h4 =>
    rw [hd] at h1; cases h1
    rw [h2] at he
    exact ⟨_, ⟨_, .char hq he h3 h4⟩, hj⟩
  | @choice _ os o _ _ h1 h2 h3 h4 =>
    rw [hd] at h1; cases h1
    rw [h2] at he
    have hm : (Part.given o) ∈ os.map Part.given := List.mem_map.2 ⟨o, h3, rfl⟩
    obtain ⟨j', h5, h6⟩ := h4.2.2 (Wh.option hR hq he hm) K (hK.mono fun g c hf => .option hf hd h2 h3) hj
    obtain ⟨t, ht, hf⟩ := h4.2.1
    refine ⟨j', choice_end L hB hn Wh hR hq he hm h5 fun o' ho' hne k hk => ?_, h6⟩
    obtain ⟨o', ho'', rfl⟩ := List.mem_map.1 ho'
    obtain ⟨-, t', ht', hf'⟩ := first_given L hk o' rfl (L.option_ne hd h2 ho'')
    rw [ht] at ht'
    cases ht'
    exact absurd hf' (L.options hd h2 h3 ho'' (fun e => hne (by rw [e])) hf)
  | tight h1 h2 h3 h4 =>
    rw [hd] at h1; cases h1
    rw [h2, inner_tight h3] at he
    rw [← h3] at h4
    obtain ⟨e', h5, h6⟩ := tight_items L hB hn Wh hd h3 hK _ [] h2
      (fun y hy => Wh.item hR hq he (x := (.given y.1, y.2.1, y.2.2)) (List.mem_map.2 ⟨y, hy, rfl⟩)) h4 hj
    exact ⟨e', h5.end_ hB hq he, h6⟩
  | @loose _ x mn mx back l _ b m _ h1 h2 h3 h4 h5 h6 h7 =>
    rw [hd] at h1; cases h1
    have hmn := L.leads hd h2 h3
    rw [h2, inner_loose h3] at he
    rw [← h3] at h5 h7
    have hRs : ∀ y ∈ spacedItems n 0 ((x, mn, mx) :: back), R y.1 := fun y hy => Wh.item hR hq he hy
    simp only [spacedItems] at hRs he
    have hx : x ≠ W.root := L.item_ne hd h2 (x := (x, mn, mx)) (List.mem_cons_self ..)
    have hb := loose_items L hB hn Wh hd h3 hK back [(x, mn, mx)] (by simp) h2 (fun y hy => hRs y (List.mem_append_right _ hy))
    have : ∃ e', Ends W B input (spacedItem n 0 (x, mn, mx) ++ spacedItems n (0 + 1) back) 0 i e' ∧ K e' := by
      by_cases hmx : mx = 1
      · subst hmx
        obtain rfl : l = 0 := by rcases h6 with h4 | h4 <;> omega
        simp only [spacedItem, if_true, lead, Nat.lt_irrefl, if_false, List.nil_append] at hRs ⊢
        obtain ⟨b', hb', hkb⟩ := h4.2.2 (hRs (.given x, mn, 1) (List.mem_append_left _ (List.mem_cons_self ..))) _
          (sees_rep L hB hn Wh hd (front := []) h2 hK 0 fun h => absurd h (Nat.lt_irrefl _)) ⟨m, _, h5, h7, hj⟩
        have hlt := (first_given L (End.derives L hB hn Wh hb') x rfl hx).1
        obtain ⟨q', e2, r1, r2, r3⟩ := hkb
        cases r1
        obtain ⟨e', h8, h9⟩ := hb b' ⟨e2, r2, r3⟩
        exact ⟨e', .last hb' hlt (by decide) rfl h8, h9⟩
      · simp only [spacedItem, if_true, lead, Nat.lt_irrefl, if_false, List.nil_append, hmx, hmn] at hRs ⊢
        exact loose_occ L hB hn Wh hd h3 (front := []) h2 hK hmx (fun y hy => hRs y (List.mem_append_left _ hy)) hb h4 h5 h7 hj h6
    obtain ⟨e', h8, h9⟩ := this
    exact ⟨e', h8.end_ hB hq he, h9⟩

theorem itemsD_first {sep : Nat → Nat → Prop} (hsep : ∀ {a b}, sep a b → a = b) {items : List (N × Int × Int)} {a e : Nat}
    (h : ItemsD (Leads W B input R) sep items a e) : (∃ x ∈ items, 0 < x.2.1) → ∃ t, input[a]? = some t ∧ WFirstItems W items t := by
  induction h with
  | nil => rintro ⟨x, hx, -⟩; cases hx
  | @cons x mn mx back k a m e g1 g2 g3 ih =>
    intro hp
    cases g1 with
    | zero =>
      have h0 := inRange_zero.1 g2
      obtain ⟨t, h1, h2⟩ := ih (by
        obtain ⟨y, hy, hpos⟩ := hp
        rcases List.mem_cons.1 hy with rfl | hy
        · simp only at hpos; omega
        · exact ⟨y, hy, hpos⟩)
      exact ⟨t, h1, .next h0 h2⟩
    | succ s1 s2 s3 =>
      cases hsep s1
      obtain ⟨t, h1, h2⟩ := s2.2.1
      exact ⟨t, h1, .here h2⟩
  | absent g1 g2 g3 ih =>
    intro hp
    cases hsep g2
    obtain ⟨t, h1, h2⟩ := ih (by
      obtain ⟨y, hy, hpos⟩ := hp
      rcases List.mem_cons.1 hy with rfl | hy
      · simp only at hpos; omega
      · exact ⟨y, hy, hpos⟩)
    exact ⟨t, h1, .next g1 h2⟩

theorem bodyD_first {n : N} {i j : Nat} (h : BodyD W input (Leads W B input R) n i j) : ∃ t, input[i]? = some t ∧ WFirst W n t := by
  cases h with
  | char h1 h2 h3 h4 => exact ⟨_, h3, .char h1 h2 h4⟩
  | choice h1 h2 h3 h4 =>
    obtain ⟨t, g1, g2⟩ := h4.2.1
    exact ⟨t, g1, .choice h1 h2 h3 g2⟩
  | tight h1 h2 h3 h4 =>
    obtain ⟨t, g1, g2⟩ := itemsD_first L hB hn Wh (fun h => h) h4 (L.solid h1 h2)
    exact ⟨t, g1, .seq h1 h2 g2⟩
  | loose h1 h2 h3 h4 =>
    obtain ⟨t, g1, g2⟩ := h4.2.1
    exact ⟨t, g1, .seq h1 h2 (.here g2)⟩

mutual
theorem wderives_leads : ∀ {n : N} {i j : Nat}, WDerives W input n i j → n ≠ W.root → Leads W B input R n i j
  | _, _, _, .root _ _ _, h => absurd rfl h
  | n, i, j, .def_ _ h, hne => by
    have ih := wbody_bodyD h
    refine ⟨hne, bodyD_first L hB hn Wh ih, fun hR K hK hj => ?_⟩
    obtain ⟨d, hd⟩ : ∃ d, W.G n = some d := by
      cases ih with
      | char h1 => exact ⟨_, h1⟩
      | choice h1 => exact ⟨_, h1⟩
      | tight h1 => exact ⟨_, h1⟩
      | loose h1 => exact ⟨_, h1⟩
    obtain ⟨gd, g1, g2⟩ := given_spaced hne hd
    exact body_end L hB hn Wh hd g1 g2 hR hK ih hj

theorem wbody_bodyD : ∀ {n : N} {i j : Nat}, WBody W input n i j → BodyD W input (Leads W B input R) n i j
  | _, _, _, .char h1 h2 h3 h4 => .char h1 h2 h3 h4
  | _, _, _, .choice h1 h2 h3 h4 => .choice h1 h2 h3 (wderives_leads h4 (L.option_ne h1 h2 h3))
  | _, _, _, .tight h1 h2 h3 h4 => .tight h1 h2 h3 (wtight_itemsD h4 fun _ hx => L.item_ne h1 h2 hx)
  | _, _, _, .loose (items := items) h1 h2 h3 h4 => by
    have ih := wloose_itemsD h4 fun _ hx => L.item_ne h1 h2 hx
    cases items with
    | nil =>
      obtain ⟨y, hy, -⟩ := L.solid h1 h2
      cases hy
    | cons x back =>
      obtain ⟨x, mn, mx⟩ := x
      obtain ⟨l, b, m, g1, g2, g3, g4⟩ := ih.1 rfl x mn mx back rfl (L.leads h1 h2 h3)
      exact .loose h1 h2 h3 g1 g2 g3 g4

theorem wtight_itemsD : ∀ {items : List (N × Int × Int)} {i j : Nat}, WTight W input items i j → (∀ x ∈ items, x.1 ≠ W.root) →
    ItemsD (Leads W B input R) (Sep W input true) items i j
  | _, _, _, .nil, _ => .nil
  | _, _, _, .cons h1 h2 h3, hr =>
    .cons (wtimes_repD h1 (hr _ (List.mem_cons_self ..))) h2 (wtight_itemsD h3 fun x hx => hr x (List.mem_cons_of_mem _ hx))

theorem wtimes_repD : ∀ {x : N} {k i j : Nat}, WTimes W input x k i j → x ≠ W.root → RepD (Leads W B input R) (Sep W input true) x k i j
  | _, _, _, _, .zero, _ => .zero
  | _, _, _, _, .succ h1 h2, hr => (wtimes_repD h1 hr).snoc .refl (wderives_leads h2 hr)

theorem wloose_itemsD : ∀ {first : Bool} {items : List (N × Int × Int)} {i j : Nat}, WLoose W input first items i j →
    (∀ x ∈ items, x.1 ≠ W.root) →
    (first = true → ∀ x mn mx back, items = (x, mn, mx) :: back → 0 < mn → ∃ l b m, Leads W B input R x i b ∧
      RepD (Leads W B input R) (Sep W input false) x l b m ∧ InRange mn mx (l + 1) ∧
      ItemsD (Leads W B input R) (Sep W input false) back m j) ∧
    (first = false → ItemsD (Leads W B input R) (Sep W input false) items i j)
  | _, _, _, _, .nil, _ => by
    refine ⟨?_, fun _ => .nil⟩
    intro _ x mn mx back h
    cases h
  | _, _, _, _, .cons (k := k) h1 h2 h3, hr => by
    have ih1 := wocc_repD h1 (hr _ (List.mem_cons_self ..))
    have ih2 := (wloose_itemsD h3 fun x hx => hr x (List.mem_cons_of_mem _ hx)).2 rfl
    constructor
    · rintro rfl x mn mx back h hmn
      cases h
      have hk := inRange_pos h2 hmn
      obtain ⟨b, g1, g2⟩ := ih1.1 rfl hk
      exact ⟨k - 1, b, _, g1, g2, by rwa [Nat.sub_add_cancel hk], ih2⟩
    · rintro rfl
      exact .cons (ih1.2 rfl) h2 ih2
  | _, _, _, _, .absent h1 h2 h3, hr => by
    have ih2 := (wloose_itemsD h3 fun x hx => hr x (List.mem_cons_of_mem _ hx)).2 rfl
    exact ⟨fun h => (by cases h), fun _ => .absent h1 (gap_blank L h2) ih2⟩

theorem wocc_repD : ∀ {first : Bool} {x : N} {k i j : Nat}, WOcc W input first x k i j → x ≠ W.root →
    (first = true → 0 < k → ∃ b, Leads W B input R x i b ∧ RepD (Leads W B input R) (Sep W input false) x (k - 1) b j) ∧
    (first = false → RepD (Leads W B input R) (Sep W input false) x k i j)
  | _, _, _, _, _, .zero, _ => ⟨fun _ h => absurd h (Nat.lt_irrefl _), fun _ => .zero⟩
  | _, _, _, _, _, .first h1, hr => by
    have ih := wderives_leads h1 hr
    exact ⟨fun _ _ => ⟨_, ih, .zero⟩, fun h => (by cases h)⟩
  | first, x, _, i, j, .succ (k := k) h1 h2 h3 h4, hr => by
    have ih1 := wocc_repD h1 hr
    have ih2 := wderives_leads h4 hr
    have hb := gap_blank L h3
    constructor
    · intro hf _
      have hk := h2 hf
      obtain ⟨b, g1, g2⟩ := ih1.1 hf hk
      refine ⟨b, g1, ?_⟩
      have := g2.snoc (show Sep W input false _ _ from hb) ih2
      rwa [Nat.sub_add_cancel hk] at this
    · intro hf
      exact (ih1.2 hf).snoc (show Sep W input false _ _ from hb) ih2
end

/-- A text that is derived from the root is matched. -/
theorem wderives_ref (hR : R (.given W.root)) (h : WDerives W input W.root 0 input.length) :
    ∃ ns, Ref (spaced W) B input (.given W.root) 0 (some (input.length, ns)) := by
  cases h with
  | def_ h => exact absurd rfl h
  | @root _ a b _ h1 h2 h3 =>
    have hbd := wbody_bodyD L hB hn Wh h2
    obtain ⟨t, ht, hf⟩ := bodyD_first L hB hn Wh hbd
    obtain ⟨d, hd⟩ : ∃ d, W.G W.root = some d := by
      cases hbd with
      | char h1 => exact ⟨_, h1⟩
      | choice h1 => exact ⟨_, h1⟩
      | tight h1 => exact ⟨_, h1⟩
      | loose h1 => exact ⟨_, h1⟩
    have hroot : spaced W (.given W.root) = some ⟨d.name, false, .seq [(.space, 0, -1), (.body, 1, 1), (.space, 0, -1)]⟩ := by
      simp only [spaced, hd, Option.map_some, if_true]
    have hbody : spaced W .body = some (hidden (W.inner W.root d.expr)) := by
      simp only [spaced, hd, Option.map_some]
    have hRs : R .space := Wh.item hR hroot rfl (x := (.space, 0, -1)) (List.mem_cons_self ..)
    have hRb : R .body := Wh.item hR hroot rfl (x := (.body, 1, 1)) (List.mem_cons_of_mem _ (List.mem_cons_self ..))
    have hend : ¬ SpaceAt W input input.length := not_spaceAt (List.getElem?_eq_none (Nat.le_refl _)) fun t h => by cases h
    have hK : Sees W input (WFollow W W.root) fun p => Blank W input p input.length := by
      intro p hp
      exact ⟨true, none, input.length, .root, hp, List.getElem?_eq_none (Nat.le_refl _), fun h => (by cases h), fun m' k1 k2 => hp.shrink k1 k2⟩
    obtain ⟨b', h4, h5⟩ := body_end L hB hn Wh hd hbody rfl hRb hK hbd (gap_blank L h3)
    have ha : ¬ SpaceAt W input a := not_spaceAt ht fun t' h => by cases h; exact L.begins hf
    have hlt : a < b' := by
      rcases Nat.eq_or_lt_of_le (End.derives L hB hn Wh h4).bounds.1 with rfl | h
      · rw [← h5.unique .refl hend ha, List.getElem?_eq_none (Nat.le_refl _)] at ht
        cases ht
      · exact h
    have hgap := Ends.gap L hB hn Wh hRs hend (items := []) .nil _ (k := 0) rfl h5
    exact (Ends.gap L hB hn Wh hRs ha (.last h4 hlt (by decide) rfl hgap) _ (k := 0) rfl (gap_blank L h1)).end_ hB hroot rfl

end
end
end
end Treerack
