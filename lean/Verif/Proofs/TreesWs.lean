import Verif.Proofs.Trees
import Verif.Proofs.LookaheadWs

/-
The derivation trees of the grammar with explicit whitespace are those of the grammar with whitespace definitions.
-/

namespace Treerack
open Spec

section
variable {M : Type} (D : M → Nat → Nat → List Node → Prop)

/-- Occurrences one after the other, with their nodes. -/
inductive PartTimes : M → Nat → Nat → Nat → List Node → Prop
  | zero {q : M} {i : Nat} : PartTimes q 0 i i []
  | succ {q : M} {k i m j : Nat} {ns ms : List Node} : PartTimes q k i m ns → D q m j ms → PartTimes q (k + 1) i j (ns ++ ms)

inductive PartItems : List (M × Int × Int) → Nat → Nat → List Node → Prop
  | nil {i : Nat} : PartItems [] i i []
  | cons {q : M} {mn mx : Int} {items : List (M × Int × Int)} {k i m j : Nat} {ns ms : List Node} :
      PartTimes D q k i m ns → InRange mn mx k → PartItems items m j ms → PartItems ((q, mn, mx) :: items) i j (ns ++ ms)

variable {D}

theorem PartTimes.one {q : M} {k i j : Nat} {ns : List Node} (h : PartTimes D q k i j ns) (hk : k = 1) : D q i j ns := by
  subst hk
  cases h with
  | succ h1 h2 => cases h1; exact h2

theorem PartItems.once {q : M} {items : List (M × Int × Int)} {i j : Nat} {ns : List Node} (h : PartItems D ((q, 1, 1) :: items) i j ns) :
    ∃ m us vs, D q i m us ∧ PartItems D items m j vs ∧ ns = us ++ vs := by
  cases h with
  | cons h1 h2 h3 => exact ⟨_, _, _, h1.one (by unfold InRange at h2; omega), h3, rfl⟩

end

section
variable {N : Type} [DecidableEq N]

/-- What the trees of the parts are in the grammar with whitespace definitions. -/
def PartTree (W : WGrammar N) (input : List Rune) : Part N → Nat → Nat → List Node → Prop
  | .given n, i, j, ns => WTree W input n i j ns
  | .space, i, j, ns => ∃ w ∈ W.ws, WTree W input w i j ns
  | .body, i, j, ns => WTreeBody W input W.root i j ns
  | .rest n k, i, j, ns => ∃ x a us ms, W.item n k = some x ∧ TreeGap W input i a us ∧ WTree W input x.1 a j ms ∧ ns = us ++ ms
  | .several n k, i, j, ns => ∃ x c, W.item n k = some x ∧ WTreeOcc W input (k == 0) x.1 c i j ns ∧ 
      0 < c ∧ (x.2.1 ≤ 0 → 1 < x.2.2 → (c : Int) ≤ x.2.2)

variable {W : WGrammar N} {input : List Rune}

theorem PartTimes.gap : ∀ {k i j : Nat} {ns : List Node}, PartTimes (PartTree W input) .space k i j ns → TreeGap W input i j ns
  | _, _, _, _, .zero => .nil
  | _, _, _, _, .succ h ⟨_, h1, h2⟩ => .cons h.gap h1 h2

/-- The whitespace in front of an item. -/
theorem PartItems.lead {k : Nat} {items : List (Part N × Int × Int)} {i j : Nat} {ns : List Node}
    (h : PartItems (PartTree W input) (lead k ++ items) i j ns) :
    ∃ a us ms, TreeGap W input i a us ∧ (k = 0 → i = a ∧ us = []) ∧ PartItems (PartTree W input) items a j ms ∧ ns = us ++ ms := by
  unfold Spec.lead at h
  split at h
  · rename_i hk
    cases h with
    | cons h1 h2 h3 => exact ⟨_, _, _, h1.gap, fun h => by omega, h3, rfl⟩
  · exact ⟨i, [], ns, .nil, fun _ => ⟨rfl, rfl⟩, h, rfl⟩

/-- The first occurrence. -/
theorem treeOcc_first {x : N} {k i a b : Nat} {us ns : List Node} (hg : TreeGap W input i a us) (h0 : k = 0 → i = a ∧ us = [])
    (h : WTree W input x a b ns) : WTreeOcc W input (k == 0) x 1 i b (us ++ ns) := by
  by_cases hk : k = 0
  · obtain ⟨rfl, rfl⟩ := h0 hk
    subst hk
    exact .first h
  · rw [show (k == 0) = false by simp [hk]]
    exact .succ (k := 0) (ns := []) .zero nofun hg h

/-- The further occurrences. -/
theorem treeOcc_rest {n : N} {k : Nat} {x : N × Int × Int} (hx : W.item n k = some x) {first : Bool} {i a l : Nat} {ns : List Node}
    (h : WTreeOcc W input first x.1 l i a ns) (hl : 0 < l) : ∀ {c m : Nat} {ms : List Node},
    PartTimes (PartTree W input) (.rest n k) c a m ms → WTreeOcc W input first x.1 (l + c) i m (ns ++ ms)
  | _, _, _, .zero => by simpa using h
  | _, _, _, .succ h1 ⟨y, b, us, vs, h2, h3, h4, h5⟩ => by
    have ih := treeOcc_rest hx h hl h1
    rw [hx] at h2
    cases h2
    subst h5
    have := WTreeOcc.succ ih (fun _ => by omega) h3 h4
    rw [← Nat.add_assoc]
    simpa using this

/-- All the occurrences of an item. -/
theorem PartItems.occurrences {n : N} {k : Nat} {x : N} {mn mx : Int} (hx : W.item n k = some (x, mn, mx)) {rest : List (Part N × Int × Int)}
    {i a j : Nat} {us ns : List Node} (hg : TreeGap W input i a us) (h0 : k = 0 → i = a ∧ us = [])
    (h : PartItems (PartTree W input) (occurrences n k x mn mx ++ rest) a j ns) :
    ∃ c m ns' ms, WTreeOcc W input (k == 0) x (1 + c) i m ns' ∧ InRange (if 0 < mn then mn - 1 else 0) (if 1 < mx then mx - 1 else -1) c ∧
      PartItems (PartTree W input) rest m j ms ∧ us ++ ns = ns' ++ ms := by
  unfold Spec.occurrences at h
  obtain ⟨b, n1, n2, h1, h2, rfl⟩ := PartItems.once h
  cases h2 with
  | cons h3 h4 h5 =>
    exact ⟨_, _, _, _, treeOcc_rest (x := (x, mn, mx)) hx (treeOcc_first hg h0 h1) (by decide) h3, h4, h5, by simp⟩

/-- The items of a sequence with whitespace between them. -/
theorem PartItems.loose {n : N} : ∀ {items : List (N × Int × Int)} {k i j : Nat} {ns : List Node},
    (∀ t, items[t]? = W.item n (k + t) ∨ items.length ≤ t) → PartItems (PartTree W input) (spacedItems n k items) i j ns →
    WTreeLoose W input (k == 0) items i j ns
  | [], _, _, _, _, _, h => by cases h; exact .nil
  | (x, mn, mx) :: items, k, i, j, ns, hi, h => by
    have hx : W.item n k = some (x, mn, mx) := by
      rcases hi 0 with h | h
      · simpa using h.symm
      · simp at h
    have hi' : ∀ t, items[t]? = W.item n (k + 1 + t) ∨ items.length ≤ t := by
      intro t
      rcases hi (t + 1) with h | h
      · left
        rw [show k + 1 + t = k + (t + 1) by omega, ← h]
        simp
      · right
        simp at h
        omega
    have ih : ∀ {m vs}, PartItems (PartTree W input) (spacedItems n (k + 1) items) m j vs → WTreeLoose W input false items m j vs := by
      intro m vs h
      have := PartItems.loose hi' h
      simpa using this
    rw [spacedItems] at h
    unfold spacedItem at h
    simp only at h
    split at h
    · rename_i hmx
      subst hmx
      rw [List.append_assoc] at h
      obtain ⟨a, us, ms, hg, h0, h1, rfl⟩ := h.lead
      cases h1 with
      | @cons _ _ _ _ c _ m _ n1 n2 h2 h3 h4 =>
        have hc : c = 0 ∨ c = 1 := by unfold InRange at h3; omega
        rcases hc with rfl | rfl
        · cases h2
          have hmn : mn ≤ 0 := by unfold InRange at h3; omega
          by_cases hk : k = 0
          · obtain ⟨rfl, rfl⟩ := h0 hk
            exact .cons (k := 0) .zero h3 (ih h4)
          · rw [show (k == 0) = false by simp [hk]]
            exact .absent hmn hg (ih h4)
        · rw [← List.append_assoc]
          exact .cons (treeOcc_first hg h0 (h2.one rfl)) h3 (ih h4)
    · rename_i hmx
      split at h
      · rename_i hmn
        rw [List.append_assoc] at h
        obtain ⟨a, us, ms, hg, h0, h1, rfl⟩ := h.lead
        obtain ⟨c, m, n1, n2, h2, h3, h4, e⟩ := PartItems.occurrences hx hg h0 h1
        rw [e]
        refine .cons h2 ?_ (ih h4)
        rw [if_pos hmn] at h3
        split at h3 <;> (unfold InRange at h3 ⊢; omega)
      · rename_i hmn
        cases h with
        | @cons _ _ _ _ c _ m _ n1 n2 h2 h3 h4 =>
          have hc : c = 0 ∨ c = 1 := by unfold InRange at h3; omega
          rcases hc with rfl | rfl
          · cases h2
            exact .cons (k := 0) .zero (.inl ⟨by omega, fun _ => by omega⟩) (ih h4)
          · obtain ⟨y, l, h5, h6, h7, h8⟩ := h2.one rfl
            rw [hx] at h5
            cases h5
            simp only at h8
            exact .cons h6 (.inl ⟨by omega, fun h => h8 (by omega) (by omega)⟩) (ih h4)

theorem PartItems.tight : ∀ {items : List (N × Int × Int)} {i j : Nat} {ns : List Node},
    PartItems (PartTree W input) (items.map fun x => (.given x.1, x.2.1, x.2.2)) i j ns → WTreeTight W input items i j ns
  | [], _, _, _, h => by cases h; exact .nil
  | (x, mn, mx) :: items, i, j, ns, h => by
    have times : ∀ {k i j ns}, PartTimes (PartTree W input) (.given x) k i j ns → WTreeTimes W input x k i j ns := by
      intro k
      induction k with
      | zero => intro i j ns h; cases h; exact .zero
      | succ k ih => intro i j ns h; cases h with | succ h1 h2 => exact .succ (ih h1) h2
    cases h with
    | cons h1 h2 h3 => exact .cons (times h1) h2 h3.tight

theorem item_seq {n : N} {d : GDef N} {items : List (N × Int × Int)} (h : W.G n = some d) (he : d.expr = .seq items) (k : Nat) :
    W.item n k = items[k]? := by
  obtain ⟨nm, al, ex⟩ := d
  simp only at he
  subst he
  unfold WGrammar.item
  rw [h]

/-- The sequence that a definition consists of. -/
theorem body_seq {n : N} {d : GDef N} {its : List (Part N × Int × Int)} (h : W.G n = some d) (he : W.inner n d.expr = .seq its)
    {i j : Nat} {ns : List Node} (hi : PartItems (PartTree W input) its i j ns) : WTreeBody W input n i j ns := by
  cases hx : d.expr with
  | char => rw [hx] at he; cases he
  | choice => rw [hx] at he; cases he
  | seq items =>
    rw [hx] at he
    cases ht : W.tight n with
    | true =>
      rw [inner_tight ht] at he
      cases he
      exact .tight h hx ht hi.tight
    | false =>
      rw [inner_loose ht] at he
      cases he
      exact .loose h hx ht (PartItems.loose (fun t => .inl (by rw [item_seq h hx]; simp)) hi)

theorem body_choice {n : N} {d : GDef N} {os : List (Part N)} (h : W.G n = some d) (he : W.inner n d.expr = .choice os)
    {o : Part N} (ho : o ∈ os) {i j : Nat} {ns : List Node} (hi : PartTree W input o i j ns) : WTreeBody W input n i j ns := by
  cases hx : d.expr with
  | char => rw [hx] at he; cases he
  | choice os' =>
    rw [hx] at he
    cases he
    obtain ⟨o', h1, rfl⟩ := List.mem_map.1 ho
    exact .choice h hx h1 hi
  | seq items =>
    rw [hx] at he
    cases ht : W.tight n with
    | true => rw [inner_tight ht] at he; cases he
    | false => rw [inner_loose ht] at he; cases he

theorem body_char {n : N} {d : GDef N} {neg : Bool} {chars : List Rune} {ranges : List (Rune × Rune)} (h : W.G n = some d)
    (he : W.inner n d.expr = .char neg chars ranges) : d.expr = .char neg chars ranges := by
  cases hx : d.expr with
  | char => rw [hx] at he; cases he; rfl
  | choice os' => rw [hx] at he; cases he
  | seq items =>
    rw [hx] at he
    cases ht : W.tight n with
    | true => rw [inner_tight ht] at he; cases he
    | false => rw [inner_loose ht] at he; cases he

/-- A definition with its node, or without. -/
theorem given_wrap {n : N} {d : GDef N} (hn : n ≠ W.root) (h : W.G n = some d) (hc : ∀ neg cs rs, d.expr ≠ .char neg cs rs)
    {gd : GDef (Part N)} (hg : gd.name = d.name ∧ gd.alias = (d.alias || decide (n ∈ W.ws))) {i j : Nat} {ns : List Node}
    (hb : WTreeBody W input n i j ns) : WTree W input n i j (gd.wrap input i j ns) := by
  unfold GDef.wrap
  split
  · rename_i ha
    refine .hidden hn h ?_ hb
    rintro ⟨h1, h2, -⟩
    rw [hg.2, h1] at ha
    simp [h2] at ha
  · rename_i ha
    rw [hg.1]
    rw [hg.2] at ha
    simp only [Bool.or_eq_true, decide_eq_true_eq, not_or, Bool.not_eq_true] at ha
    exact .shown hn h ⟨ha.1, ha.2, hc⟩ hb

theorem given_of {n : N} {gd : GDef (Part N)} (h : spaced W (.given n) = some gd) : ∃ d, W.G n = some d ∧
    ((n = W.root ∧ gd = ⟨d.name, false, .seq [(.space, 0, -1), (.body, 1, 1), (.space, 0, -1)]⟩) ∨
     (n ≠ W.root ∧ gd = ⟨d.name, d.alias || decide (n ∈ W.ws), W.inner n d.expr⟩)) := by
  simp only [spaced] at h
  obtain ⟨d, h1, h2⟩ := Option.map_eq_some_iff.1 h
  refine ⟨d, h1, ?_⟩
  split at h2
  · exact .inl ⟨by assumption, h2.symm⟩
  · exact .inr ⟨by assumption, h2.symm⟩

theorem notChar_of_inner {n : N} {e : Expr N} (h : ∀ neg cs rs, W.inner n e ≠ .char neg cs rs) : ∀ neg cs rs, e ≠ .char neg cs rs := by
  rintro neg cs rs rfl
  exact h _ _ _ rfl

/-- The parts that are sequences. -/
theorem meaning_seq {q : Part N} {gd : GDef (Part N)} {its : List (Part N × Int × Int)} (h : spaced W q = some gd) (he : gd.expr = .seq its)
    {i j : Nat} {ns : List Node} (hi : PartItems (PartTree W input) its i j ns) : PartTree W input q i j (gd.wrap input i j ns) := by
  cases q with
  | given n =>
    obtain ⟨d, h1, ⟨rfl, rfl⟩ | ⟨hn, rfl⟩⟩ := given_of h
    · cases he
      cases hi with
      | cons k1 k2 k3 =>
        obtain ⟨m, us, vs, k4, k5, rfl⟩ := PartItems.once k3
        cases k5 with
        | cons k6 k7 k8 =>
          cases k8
          have := WTree.root h1 k1.gap k4 k6.gap
          simpa [GDef.wrap, PartTree] using this
    · exact given_wrap hn h1 (notChar_of_inner fun _ _ _ hx => by simp only at he; rw [hx] at he; cases he) ⟨rfl, rfl⟩ (body_seq h1 he hi)
  | space => cases h; cases he
  | body =>
    simp only [spaced] at h
    obtain ⟨d, h1, rfl⟩ := Option.map_eq_some_iff.1 h
    exact body_seq h1 he hi
  | rest n k =>
    simp only [spaced] at h
    obtain ⟨x, h1, rfl⟩ := Option.map_eq_some_iff.1 h
    cases he
    cases hi with
    | cons k1 k2 k3 =>
      obtain ⟨m, us, vs, k4, k5, rfl⟩ := PartItems.once k3
      cases k5
      refine ⟨x, _, _, _, h1, k1.gap, k4, ?_⟩
      simp [GDef.wrap, hidden]
  | several n k =>
    simp only [spaced] at h
    obtain ⟨⟨x, mn, mx⟩, h1, rfl⟩ := Option.map_eq_some_iff.1 h
    cases he
    obtain ⟨a, us, ms, hg, h0, h2, rfl⟩ := hi.lead
    rw [← List.append_nil (Spec.occurrences _ _ _ _ _)] at h2
    obtain ⟨c, m, n1, n2, h3, h4, h5, e⟩ := PartItems.occurrences h1 hg h0 h2
    cases h5
    refine ⟨_, 1 + c, h1, ?_, by omega, fun hn hm => ?_⟩
    · simp only [List.append_nil] at e
      show WTreeOcc W input (k == 0) x (1 + c) i j (us ++ ms)
      rw [e]
      exact h3
    · simp only at hn hm ⊢
      rw [if_pos hm, if_neg (by omega)] at h4
      unfold InRange at h4
      omega

theorem meaning_choice {q : Part N} {gd : GDef (Part N)} {os : List (Part N)} (h : spaced W q = some gd) (he : gd.expr = .choice os)
    {o : Part N} (ho : o ∈ os) {i j : Nat} {ns : List Node} (hi : PartTree W input o i j ns) :
    PartTree W input q i j (gd.wrap input i j ns) := by
  cases q with
  | given n =>
    obtain ⟨d, h1, ⟨rfl, rfl⟩ | ⟨hn, rfl⟩⟩ := given_of h
    · cases he
    · exact given_wrap hn h1 (notChar_of_inner fun _ _ _ hx => by simp only at he; rw [hx] at he; cases he) ⟨rfl, rfl⟩ (body_choice h1 he ho hi)
  | space =>
    cases h
    cases he
    obtain ⟨w, h1, rfl⟩ := List.mem_map.1 ho
    exact ⟨w, h1, hi⟩
  | body =>
    simp only [spaced] at h
    obtain ⟨d, h1, rfl⟩ := Option.map_eq_some_iff.1 h
    exact body_choice h1 he ho hi
  | rest n k =>
    simp only [spaced] at h
    obtain ⟨x, h1, rfl⟩ := Option.map_eq_some_iff.1 h
    cases he
  | several n k =>
    simp only [spaced] at h
    obtain ⟨⟨x, mn, mx⟩, h1, rfl⟩ := Option.map_eq_some_iff.1 h
    cases he

theorem meaning_char {q : Part N} {gd : GDef (Part N)} {neg : Bool} {chars : List Rune} {ranges : List (Rune × Rune)}
    (h : spaced W q = some gd) (he : gd.expr = .char neg chars ranges) {i : Nat} {t : Rune} (ht : input[i]? = some t)
    (hc : InClass neg chars ranges t) : PartTree W input q i (i + 1) [] := by
  cases q with
  | given n =>
    obtain ⟨d, h1, ⟨rfl, rfl⟩ | ⟨hn, rfl⟩⟩ := given_of h
    · cases he
    · have hx := body_char h1 he
      exact WTree.hidden hn h1 (fun hs => hs.2.2 _ _ _ hx) (.char h1 hx ht hc)
  | space => cases h; cases he
  | body =>
    simp only [spaced] at h
    obtain ⟨d, h1, rfl⟩ := Option.map_eq_some_iff.1 h
    exact WTreeBody.char h1 (body_char h1 he) ht hc
  | rest n k =>
    simp only [spaced] at h
    obtain ⟨x, h1, rfl⟩ := Option.map_eq_some_iff.1 h
    cases he
  | several n k =>
    simp only [spaced] at h
    obtain ⟨⟨x, mn, mx⟩, h1, rfl⟩ := Option.map_eq_some_iff.1 h
    cases he

mutual

theorem Spec.Tree.meaning : ∀ {q : Part N} {i j : Nat} {ns : List Node}, Spec.Tree (spaced W) input q i j ns → PartTree W input q i j ns
  | _, _, _, _, .char h1 h2 h3 h4 => meaning_char h1 h2 h3 h4
  | _, _, _, _, .choice h1 h2 h3 h4 => meaning_choice h1 h2 h3 (Spec.Tree.meaning h4)
  | _, _, _, _, .seq h1 h2 h3 => meaning_seq h1 h2 (Spec.TreeItems.meaning h3)

theorem Spec.TreeItems.meaning : ∀ {its : List (Part N × Int × Int)} {i j : Nat} {ns : List Node}, TreeItems (spaced W) input its i j ns →
    PartItems (PartTree W input) its i j ns
  | _, _, _, _, .nil => .nil
  | _, _, _, _, .cons h1 h2 h3 => .cons (Spec.TreeTimes.meaning h1) h2 (Spec.TreeItems.meaning h3)

theorem Spec.TreeTimes.meaning : ∀ {q : Part N} {k i j : Nat} {ns : List Node}, TreeTimes (spaced W) input q k i j ns →
    PartTimes (PartTree W input) q k i j ns
  | _, _, _, _, _, .zero => .zero
  | _, _, _, _, _, .succ h1 h2 => .succ (Spec.TreeTimes.meaning h1) (Spec.Tree.meaning h2)

end

/-- The derivation trees of a definition in the grammar with explicit whitespace. -/
theorem spaced_tree {n : N} {i j : Nat} {ns : List Node} (h : Spec.Tree (spaced W) input (.given n) i j ns) : WTree W input n i j ns :=
  h.meaning

end

end Treerack
