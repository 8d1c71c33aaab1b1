import Verif.Spec.Trees
import Verif.Proofs.Lookahead

/-
The nodes of the reference semantics are those of derivation trees.
-/

namespace Treerack
open Spec

variable {N : Type} {G : Grammar N} {B : N → Nat → Nat → Prop} {input : List Rune}

theorem better_cases {a b : Match} {x : Nat × List Node} (h : better a b = some x) : a = some x ∨ b = some x := better_some h

theorem prepend_nodes {ns : List Node} {m : Match} {j : Nat} {ms : List Node} (h : prepend ns m = some (j, ms)) :
    ∃ ms', m = some (j, ms') ∧ ms = ns ++ ms' := by
  cases m with
  | none => cases h
  | some x => cases h; exact ⟨_, rfl, rfl⟩

/-- The items, when the first of them has already been matched `k` times from `a` on. -/
abbrev Continues (G : Grammar N) (input : List Rune) (items : List (N × Int × Int)) (k i j : Nat) (ns : List Node) : Prop :=
  (items = [] → i = j ∧ ns = []) ∧ ∀ x mn mx rest a us, items = (x, mn, mx) :: rest → TreeTimes G input x k a i us →
    (0 < mx → (k : Int) < mx) → TreeItems G input items a j (us ++ ns)

theorem Continues.start {items : List (N × Int × Int)} {i j : Nat} {ns : List Node} (h : Continues G input items 0 i j ns) :
    TreeItems G input items i j ns := by
  cases items with
  | nil => obtain ⟨rfl, rfl⟩ := h.1 rfl; exact .nil
  | cons x rest => simpa using h.2 _ _ _ _ i [] rfl .zero id

theorem TreeTimes.pad {x : N} {k a i : Nat} {us ns : List Node} (h : TreeTimes G input x k a i us) (he : Spec.Tree G input x i i ns) :
    ∀ l, TreeTimes G input x (k + l) a i (us ++ (List.replicate l ns).flatten)
  | 0 => by simpa using h
  | l + 1 => by
    have := TreeTimes.succ (TreeTimes.pad h he l) he
    rw [List.append_assoc] at this
    rw [List.replicate_succ', List.flatten_append]
    rw [← Nat.add_assoc]
    simpa using this

mutual

theorem Ref.tree (hr : Ranged G) : ∀ {n : N} {i : Nat} {m : Match}, Ref G B input n i m → ∀ j ns, m = some (j, ns) →
    Spec.Tree G input n i j ns
  | _, _, _, .char h1 h2 h3 h4, _, _, e => by cases e; exact .char h1 h2 h3 h4
  | _, _, _, .noChar _ _ _, _, _, e => by cases e
  | _, _, _, .choice (m := m) h1 h2 _ h4, j, ns, e => by
    have ih := RefOptions.tree hr h4
    cases m with
    | none => cases e
    | some x =>
      cases e
      obtain ⟨o, ho, hd⟩ := ih _ _ rfl
      exact .choice h1 h2 ho hd
  | _, _, _, .noBase _ _ _ _ _, _, _, e => by cases e
  | _, _, _, .grow h1 h2 h3 h4 h5 _, j, ns, e => by
    cases e
    refine RefChain.tree hr h5 _ _ h1 h2 ?_ ?_
    · intro s hs
      rcases List.mem_append.1 hs with hs | hs
      · exact h4.lasts s hs
      · exact h4.firsts s hs
    · intro o ho
      rw [h4.options]
      simp [ho]
  | n, i, _, .seq (items := items) (m := m) h1 h2 h3 _, j, ns, e => by
    have ih := RefItems.tree hr h3 (fun x hx => hr n _ items x h1 h2 hx)
    cases m with
    | none => cases e
    | some x =>
      cases e
      exact .seq h1 h2 (ih _ _ rfl).start
  | _, _, _, .blocked _ _ _ _, _, _, e => by cases e

theorem RefOptions.tree (hr : Ranged G) : ∀ {os : List N} {i : Nat} {m : Match}, RefOptions G B input os i m →
    ∀ j ns, m = some (j, ns) → ∃ o ∈ os, Spec.Tree G input o i j ns
  | _, _, _, .nil, _, _, e => by cases e
  | _, _, _, .cons (o := o) h1 h2, j, ns, e => by
    rcases better_cases e with e | e
    · exact ⟨o, by simp, Ref.tree hr h1 _ _ e⟩
    · obtain ⟨o', ho, hd⟩ := RefOptions.tree hr h2 _ _ e
      exact ⟨o', by simp [ho], hd⟩

theorem RefChain.tree (hr : Ranged G) : ∀ {d : GDef N} {ss bs : List N} {i k j : Nat} {ns : List Node},
    RefChain G B input d ss bs i k j ns → ∀ (n : N) (os : List N), G n = some d → d.expr = .choice os → (∀ s ∈ ss, Recurs G n s) →
    (∀ o ∈ bs, o ∈ os) → Spec.Tree G input n i j ns
  | _, _, _, _, _, _, _, .base h, n, os, h1, h2, _, hb => by
    obtain ⟨o, ho, hd⟩ := RefOptions.tree hr h _ _ rfl
    exact .choice h1 h2 (hb o ho) hd
  | _, _, _, _, _, _, _, .skip h _ _ _ _, n, os, h1, h2, hs, hb => RefChain.tree hr h n os h1 h2 hs hb
  | _, _, _, _, _, _, _, .step (s := s) h g1 g2 g3 g4 _, n, os, h1, h2, hs, hb => by
    have ih := RefChain.tree hr h n os h1 h2 hs hb
    have ih2 := RefItems.tree hr g4
    obtain ⟨d', os', e', tail', k1, k2, k3, k4, k5⟩ := hs s (List.mem_of_getElem? g1)
    rw [h1] at k1; cases k1
    rw [h2] at k2; cases k2
    rw [g2] at k4; cases k4
    rw [g3] at k5; cases k5
    have hi := ih2 (fun x hx => hr s _ _ x g2 g3 (List.mem_cons_of_mem _ hx)) _ _ rfl
    have one : TreeTimes G input n 1 _ _ _ := .succ .zero ih
    refine .choice h1 h2 k3 (.seq g2 g3 ?_)
    have := TreeItems.cons one (mn := 1) (mx := 1) (.inl ⟨by simp, by simp⟩) hi.start
    simpa using this

theorem RefItems.tree (hr : Ranged G) : ∀ {items : List (N × Int × Int)} {k i : Nat} {m : Match},
    RefItems G B input items k i m → (∀ x ∈ items, 0 < x.2.2 → x.2.1 ≤ x.2.2) → ∀ j ns, m = some (j, ns) → Continues G input items k i j ns
  | _, _, _, _, .nil, _, _, _, e => by
    cases e
    exact ⟨fun _ => ⟨rfl, rfl⟩, fun _ _ _ _ _ _ h => by cases h⟩
  | _, _, _, _, .fail _ _, _, _, _, e => by cases e
  | _, _, _, _, .done h1 h2 h3, hx, j, ns, e => by
    have ih := RefItems.tree hr h3 (fun x h => hx x (List.mem_cons_of_mem _ h))
    refine ⟨fun h => (by cases h), fun x mn mx rest a us h ht hk => ?_⟩
    cases h
    exact .cons ht (.inl ⟨h2, fun h => Int.le_of_lt (hk h)⟩) (ih _ _ e).start
  | _, _, _, _, .empty (n := n) (mn := mn) (mx := mx) (k := k) (i := i) (ns := n0) h1 h2, hx, j, ns, e => by
    have ih := RefItems.tree hr h2 (fun x h => hx x (List.mem_cons_of_mem _ h))
    have ih1 := Ref.tree hr h1
    have hmx := hx _ (List.mem_cons_self ..)
    refine ⟨fun h => (by cases h), fun x mn mx rest a us h ht hk => ?_⟩
    cases h
    obtain ⟨ns', e', rfl⟩ := prepend_nodes e
    have hd := ih1 _ _ rfl
    rw [← List.append_assoc]
    refine .cons (TreeTimes.pad ht hd (mn - k).toNat) (.inl ⟨by omega, fun h => ?_⟩) (ih _ _ e').start
    have := hk h
    have := hmx h
    simp only at this
    omega
  | _, _, _, _, .last (mn := mn) (mx := mx) (k := k) h1 h2 h3 h4 h5, hx, j, ns, e => by
    have ih := RefItems.tree hr h5 (fun x h => hx x (List.mem_cons_of_mem _ h))
    have ih1 := Ref.tree hr h1
    have hmx := hx _ (List.mem_cons_self ..)
    refine ⟨fun h => (by cases h), fun x mn mx rest a us h ht hk => ?_⟩
    cases h
    obtain ⟨ns', e', rfl⟩ := prepend_nodes e
    rw [← List.append_assoc]
    refine .cons (.succ ht (ih1 _ _ rfl)) (.inl ⟨?_, fun _ => by omega⟩) (ih _ _ e').start
    have := hmx h3
    simp only at this
    omega
  | _, _, _, _, .more (mn := mn) (mx := mx) (k := k) h1 h2 h3 h4, hx, j, ns, e => by
    have ih := RefItems.tree hr h4 hx
    have ih1 := Ref.tree hr h1
    refine ⟨fun h => (by cases h), fun x mn mx rest a us h ht hk => ?_⟩
    cases h
    obtain ⟨ns', e', rfl⟩ := prepend_nodes e
    rw [← List.append_assoc]
    refine (ih _ _ e').2 _ _ _ _ a _ rfl (.succ ht (ih1 _ _ rfl)) fun h => ?_
    have := hk h
    have : ¬ ((k + 1 : Nat) : Int) = mx := fun h' => h3 ⟨h, h'⟩
    omega

end

end Treerack
