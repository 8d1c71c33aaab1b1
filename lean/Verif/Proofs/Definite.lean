import Verif.Spec.Definite
import Verif.Proofs.Trees

/-
With one character of lookahead, the derivation trees are what the reference semantics matches.
-/

namespace Treerack
open Spec

variable {N : Type} {G : Grammar N} {B : N → Nat → Nat → Prop} {input : List Rune}

/-! ### Trees have derivations -/

mutual
theorem Spec.Tree.derives : ∀ {n : N} {i j : Nat} {ns : List Node}, Spec.Tree G input n i j ns → Derives G input n i j
  | _, _, _, _, .char h1 h2 h3 h4 => .char h1 h2 h3 h4
  | _, _, _, _, .choice h1 h2 h3 h4 => .choice h1 h2 h3 (Spec.Tree.derives h4)
  | _, _, _, _, .seq h1 h2 h3 => .seq h1 h2 (Spec.TreeItems.derives h3)

theorem Spec.TreeItems.derives : ∀ {items : List (N × Int × Int)} {i j : Nat} {ns : List Node}, TreeItems G input items i j ns →
    DerivesItems G input items i j
  | _, _, _, _, .nil => .nil
  | _, _, _, _, .cons h1 h2 h3 => .cons (Spec.TreeTimes.derives h1) h2 (Spec.TreeItems.derives h3)

theorem Spec.TreeTimes.derives : ∀ {x : N} {k i j : Nat} {ns : List Node}, TreeTimes G input x k i j ns → DerivesTimes G input x k i j
  | _, _, _, _, _, .zero => .zero
  | _, _, _, _, _, .succ h1 h2 => .succ (Spec.TreeTimes.derives h1) (Spec.Tree.derives h2)
end

mutual
theorem Spec.Derives.tree : ∀ {n : N} {i j : Nat}, Derives G input n i j → ∃ ns, Spec.Tree G input n i j ns
  | _, _, _, .char h1 h2 h3 h4 => ⟨_, .char h1 h2 h3 h4⟩
  | _, _, _, .choice h1 h2 h3 h4 => let ⟨_, h⟩ := Spec.Derives.tree h4; ⟨_, .choice h1 h2 h3 h⟩
  | _, _, _, .seq h1 h2 h3 => let ⟨_, h⟩ := Spec.DerivesItems.tree h3; ⟨_, .seq h1 h2 h⟩

theorem Spec.DerivesItems.tree : ∀ {items : List (N × Int × Int)} {i j : Nat}, DerivesItems G input items i j →
    ∃ ns, TreeItems G input items i j ns
  | _, _, _, .nil => ⟨_, .nil⟩
  | _, _, _, .cons h1 h2 h3 => let ⟨_, g1⟩ := Spec.DerivesTimes.tree h1; let ⟨_, g3⟩ := Spec.DerivesItems.tree h3; ⟨_, .cons g1 h2 g3⟩

theorem Spec.DerivesTimes.tree : ∀ {x : N} {k i j : Nat}, DerivesTimes G input x k i j → ∃ ns, TreeTimes G input x k i j ns
  | _, _, _, _, .zero => ⟨_, .zero⟩
  | _, _, _, _, .succ h1 h2 => let ⟨_, g1⟩ := Spec.DerivesTimes.tree h1; let ⟨_, g2⟩ := Spec.Derives.tree h2; ⟨_, .succ g1 g2⟩
end

/-! ### Choices -/

theorem RefOptions.chosen {i j : Nat} {o : N} {ns : List Node} (ho : Ref G B input o i (some (j, ns))) : ∀ {os : List N},
    (∀ o' ∈ os, o' ≠ o → ∃ m, Ref G B input o' i m ∧ ∀ x, m = some x → x.1 < j) →
    (o ∈ os → RefOptions G B input os i (some (j, ns))) ∧
      (o ∉ os → ∃ m, RefOptions G B input os i m ∧ ∀ x, m = some x → x.1 < j)
  | [], _ => ⟨fun h => (by cases h), fun _ => ⟨_, .nil, fun _ h => (by cases h)⟩⟩
  | o' :: os, hall => by
    obtain ⟨ih1, ih2⟩ := RefOptions.chosen ho fun o' ho' => hall o' (List.mem_cons_of_mem _ ho')
    by_cases e : o' = o
    · subst e
      refine ⟨fun _ => ?_, fun h => absurd (List.mem_cons_self ..) h⟩
      by_cases hm : o' ∈ os
      · have : better (some (j, ns)) (some (j, ns)) = some (j, ns) := by simp [better]
        rw [← this]
        exact .cons ho (ih1 hm)
      · obtain ⟨m, h1, h2⟩ := ih2 hm
        have : better (some (j, ns)) m = some (j, ns) := by
          cases m with
          | none => rfl
          | some x => simp [better, Nat.not_lt.2 (Nat.le_of_lt (h2 x rfl))]
        rw [← this]
        exact .cons ho h1
    · obtain ⟨m, h1, h2⟩ := hall o' (List.mem_cons_self ..) e
      constructor
      · intro hm
        have hm := (List.mem_cons.1 hm).resolve_left fun h => e h.symm
        have : better m (some (j, ns)) = some (j, ns) := by
          cases m with
          | none => rfl
          | some x => simp [better, h2 x rfl]
        rw [← this]
        exact .cons h1 (ih1 hm)
      · intro hm
        obtain ⟨m', h3, h4⟩ := ih2 fun h => hm (List.mem_cons_of_mem _ h)
        refine ⟨_, .cons h1 h3, fun x hx => ?_⟩
        rcases better_some hx with e | e
        · exact h2 x e
        · exact h4 x e

/-! ### Trees -/

section
variable (hn : ∀ a s, ¬ Recurs G a s) {R : N → Prop} (W : Whole G B input R) {root : N} (hr : R root) (L : LL1 G root) (E : Definite G)
  (hB : ∀ n i j, Within G input root n i j → ¬ B n i j)

include hn W hr L E hB

mutual
/-- A tree inside of a derivation of the whole text is what the reference semantics matches. -/
theorem Spec.Tree.ref : ∀ {n : N} {i j : Nat} {ns : List Node}, Spec.Tree G input n i j ns → Within G input root n i j →
    Ref G B input n i (some (j, ns))
  | _, _, _, _, .char h1 h2 h3 h4, _ => .char h1 h2 h3 h4
  | n, i, j, _, .choice (o := o) (ns := ns) h1 h2 h3 h4, hw => by
    have hd := Spec.Tree.derives h4
    have ho := Spec.Tree.ref h4 (.option hw h1 h2 h3 hd)
    refine .choice (m := some (j, ns)) h1 h2 (hn _) ((RefOptions.chosen ho fun o' ho' hne => ?_).1 h3)
    obtain ⟨m, hm⟩ := W.total (W.option (hw.mem W hr) h1 h2 ho') i
    refine ⟨m, hm, fun x hx => ?_⟩
    have hd' := Ref.sound hn hm x.1 x.2 hx
    have hle := (L.decisive hB).options hw h1 h2 h3 hd ho' hne hd'
    rcases Nat.lt_or_eq_of_le hle with hlt | heq
    · exact hlt
    · exfalso
      rcases Nat.lt_or_eq_of_le hd.bounds.1 with hij | rfl
      · obtain ⟨t, ht, hf⟩ := hd.first hij
        obtain ⟨t', ht', hf'⟩ := hd'.first (heq ▸ hij)
        rw [ht] at ht'
        cases ht'
        exact L.options h1 h2 h3 ho' hne hf hf'
      · exact E.options h1 h2 h3 ho' hne (hd.null rfl) (hd'.null heq.symm)
  | _, _, _, _, .seq h1 h2 h3, hw =>
    .seq (m := some (_, _)) h1 h2 (Spec.TreeItems.ref h3 (front := []) hw h1 h2 .nil) fun x hx => by cases hx; exact hB _ _ _ hw

theorem Spec.TreeItems.ref : ∀ {items : List (N × Int × Int)} {a j : Nat} {ns : List Node}, TreeItems G input items a j ns →
    ∀ {n : N} {d : GDef N} {front : List (N × Int × Int)} {i : Nat}, Within G input root n i j → G n = some d →
      d.expr = .seq (front ++ items) → DerivesItems G input front i a → RefItems G B input items 0 a (some (j, ns))
  | _, _, _, _, .nil, _, _, _, _, _, _, _, _ => .nil
  | _, a, j, _, .cons (n := x) (mn := mn) (mx := mx) (items := back) (k := k) (m := b) (ns := ns) (ms := ms) h1 h2 h3,
      n, d, front, i, hw, hd, he, hf => by
    have g1 := Spec.TreeTimes.derives h1
    have g3 := Spec.TreeItems.derives h3
    have hback : RefItems G B input back 0 b (some (j, ms)) :=
      Spec.TreeItems.ref h3 (front := front ++ [(x, mn, mx)]) hw hd (by rw [he]; simp) (hf.snoc (.cons g1 h2 .nil))
    have hend : if 0 < mx ∧ (k : Int) = mx then RefItems G B input back 0 b (some (j, ms))
        else RefItems G B input ((x, mn, mx) :: back) k b (some (j, ms)) := by
      split
      · exact hback
      · rename_i hmx
        have hle : mn ≤ (k : Int) := by
          rcases h2 with h2 | h2
          · exact h2.1
          · exact absurd ⟨h2.1, h2.2.2⟩ hmx
        have hx : R x := W.item (hw.mem W hr) hd he (x := (x, mn, mx)) (List.mem_append_right _ (List.mem_cons_self ..))
        obtain ⟨m, hm⟩ := W.total hx b
        cases m with
        | none => exact .done hm hle hback
        | some y =>
          exfalso
          have hdy := Ref.sound hn hm y.1 y.2 rfl
          have hyb := (L.decisive hB).items hw hd he hf g1 h2 hmx g3 hdy
          obtain ⟨rfl, rfl⟩ := E.items hd he (List.mem_append_right _ (List.mem_cons_self ..))
            (hdy.null (Nat.le_antisymm hdy.bounds.1 hyb))
          refine hmx ⟨by decide, ?_⟩
          rcases h2 with h2 | h2
          · have := h2.2 (by decide)
            omega
          · omega
    have := Spec.TreeTimes.ref h1 (l := 0) (e := b) .zero (by simpa using h2) g3 hw hd he hf hend
    by_cases hmx : 0 < mx ∧ ((0 : Nat) : Int) = mx
    · exact absurd hmx.1 (by rw [← hmx.2]; decide)
    · rwa [if_neg hmx] at this

theorem Spec.TreeTimes.ref : ∀ {x : N} {k a b : Nat} {ns : List Node}, TreeTimes G input x k a b ns →
    ∀ {l e : Nat}, DerivesTimes G input x l b e → ∀ {mn mx : Int}, InRange mn mx (k + l) →
    ∀ {back : List (N × Int × Int)} {j : Nat} {ms : List Node}, DerivesItems G input back e j →
    ∀ {n : N} {d : GDef N} {front : List (N × Int × Int)} {i : Nat}, Within G input root n i j → G n = some d →
      d.expr = .seq (front ++ (x, mn, mx) :: back) → DerivesItems G input front i a →
      (if 0 < mx ∧ (k : Int) = mx then RefItems G B input back 0 b (some (j, ms))
        else RefItems G B input ((x, mn, mx) :: back) k b (some (j, ms))) →
      if 0 < mx ∧ ((0 : Nat) : Int) = mx then RefItems G B input back 0 a (some (j, ns ++ ms))
        else RefItems G B input ((x, mn, mx) :: back) 0 a (some (j, ns ++ ms))
  | _, _, _, _, _, .zero, _, _, _, _, _, _, _, _, _, _, _, _, _, _, _, _, _, _, h => h
  | x, _, a, b, _, .succ (k := k) (m := m) (ns := ns) (ms := us) h1 h2, l, e, hl, mn, mx, hin, back, j, ms, hb, n, d, front, i, hw, hd, he, hf, h => by
    have g1 := Spec.TreeTimes.derives h1
    have g2 := Spec.Tree.derives h2
    have hwx : Within G input root x m b := .item hw hd he hf g1 g2 hl hin hb
    have hp := Spec.Tree.ref h2 hwx
    rw [List.append_assoc]
    refine Spec.TreeTimes.ref h1 (hl.prepend g2) (by rw [show k + (l + 1) = k + 1 + l by omega]; exact hin) hb hw hd he hf ?_
    have hk : ¬ (0 < mx ∧ (k : Int) = mx) := by
      rintro ⟨h3, h4⟩
      rcases hin with h5 | h5
      · have := h5.2 h3
        omega
      · have := h5.2.2
        omega
    rw [if_neg hk]
    rcases Nat.lt_or_eq_of_le g2.bounds.1 with hlt | heq
    · split at h
      · rename_i hmx
        exact .last (m := some (j, ms)) hp hlt hmx.1 hmx.2 h
      · rename_i hmx
        exact .more (m := some (j, ms)) hp hlt hmx h
    · subst heq
      obtain ⟨rfl, rfl⟩ := E.items hd he (List.mem_append_right _ (List.mem_cons_self ..)) (g2.null rfl)
      obtain rfl : k = 0 := by
        rcases hin with h5 | h5
        · have := h5.2 (by decide)
          omega
        · omega
      rw [if_pos (by decide)] at h
      have := RefItems.empty (mn := 1) (mx := 1) (k := 0) hp h
      simpa [prepend] using this
end

/-- The tree of a whole text. -/
theorem Spec.Tree.whole {ns : List Node} (h : Spec.Tree G input root 0 input.length ns) :
    Ref G B input root 0 (some (input.length, ns)) :=
  Spec.Tree.ref hn W hr L E hB h (.root (Spec.Tree.derives h))

end

end Treerack
