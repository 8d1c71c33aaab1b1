import Verif.Proofs.Reference
import Verif.Spec.Tree
import Verif.Spec.Api

/-
Properties of the reference semantics: the order of the nodes, and the choices.
-/

namespace Treerack.Spec

variable {N : Type} {G : Grammar N} {B : N → Nat → Nat → Prop} {input : List Rune}

/-! ### Order -/

theorem InOrder.le : ∀ {i : Nat} {ns : List Node} {j : Nat}, InOrder i ns j → i ≤ j
  | _, [], _, h => h
  | _, _ :: _, _, ⟨h1, h2, h3⟩ => Nat.le_trans h1 (Nat.le_trans h2 h3.le)

theorem InOrder.append : ∀ {i j k : Nat} {ns ms : List Node}, InOrder i ns j → InOrder j ms k → InOrder i (ns ++ ms) k
  | i, j, k, [], ms, h1, h2 => by
    have h1 : i ≤ j := h1
    cases ms with
    | nil => exact Nat.le_trans h1 h2
    | cons m ms => exact ⟨Nat.le_trans h1 h2.1, h2.2⟩
  | _, _, _, _ :: _, _, ⟨h1, h2, h3⟩, h4 => ⟨h1, h2, h3.append h4⟩

theorem InOrder.replicate {i : Nat} {ns : List Node} (h : InOrder i ns i) : ∀ k : Nat, InOrder i (List.replicate k ns).flatten i
  | 0 => Nat.le_refl i
  | k + 1 => by
    rw [List.replicate_succ, List.flatten_cons]
    exact h.append (InOrder.replicate h k)

/-- The nodes of a match. -/
def Tidy (i : Nat) (m : Match) : Prop := ∀ j ns, m = some (j, ns) → InOrder i ns j ∧ ∀ t ∈ ns, Nested t

theorem Nested.node {n : Name} {i j : Nat} {ns : List Node} (h : InOrder i ns j) (hn : ∀ t ∈ ns, Nested t) :
    Nested (Node.mk n i j input ns) := by
  intro m hm
  cases hm with
  | refl => exact h
  | child hk hs => exact hn _ hk _ hs

theorem Tidy.wrap {i : Nat} {m : Match} (h : Tidy i m) (d : GDef N) :
    Tidy i (m.map fun x => (x.1, d.wrap input i x.1 x.2)) := by
  intro j ns hm
  obtain ⟨x, rfl, h2⟩ := Option.map_eq_some_iff.1 hm
  obtain ⟨k, ms⟩ := x
  simp only [Prod.mk.injEq] at h2
  obtain ⟨rfl, rfl⟩ := h2
  obtain ⟨h3, h4⟩ := h _ _ rfl
  unfold GDef.wrap
  split
  · exact ⟨h3, h4⟩
  · refine ⟨⟨Nat.le_refl _, h3.le, Nat.le_refl _⟩, fun t ht => ?_⟩
    simp only [List.mem_singleton] at ht
    subst ht
    exact .node h3 h4

theorem Tidy.better {i : Nat} {m m' : Match} (h : Tidy i m) (h' : Tidy i m') : Tidy i (better m m') := by
  cases m with
  | none => exact h'
  | some x =>
    cases m' with
    | none => exact h
    | some y =>
      simp only [Spec.better]
      split
      · exact h'
      · exact h

theorem Tidy.prepend {i j : Nat} {ns : List Node} {m : Match} (h1 : InOrder i ns j) (h2 : ∀ t ∈ ns, Nested t)
    (h : Tidy j m) : Tidy i (prepend ns m) := by
  intro k ms hm
  obtain ⟨x, rfl, hx⟩ := Option.map_eq_some_iff.1 hm
  obtain ⟨k', ms'⟩ := x
  simp only [Prod.mk.injEq] at hx
  obtain ⟨rfl, rfl⟩ := hx
  obtain ⟨h3, h4⟩ := h _ _ rfl
  refine ⟨h1.append h3, fun t ht => ?_⟩
  rcases List.mem_append.1 ht with ht | ht
  · exact h2 t ht
  · exact h4 t ht

mutual

theorem Ref.tidy : ∀ {n : N} {i : Nat} {m : Match}, Ref G B input n i m → Tidy i m
  | _, i, _, .char _ _ _ _ => by
    intro j ns h
    cases h
    exact ⟨Nat.le_succ i, by simp⟩
  | _, _, _, .noChar _ _ _ => fun _ _ h => by cases h
  | _, _, _, .choice _ _ _ h => h.tidy.wrap _
  | _, _, _, .noBase _ _ _ _ _ => fun _ _ h => by cases h
  | _, _, _, .grow _ _ _ _ h1 _ => fun _ _ h => by cases h; exact h1.tidy
  | _, _, _, .seq _ _ h _ => h.tidy.wrap _
  | _, _, _, .blocked _ _ _ _ => fun _ _ h => by cases h

theorem RefOptions.tidy : ∀ {os : List N} {i : Nat} {m : Match}, RefOptions G B input os i m → Tidy i m
  | _, _, _, .nil => fun _ _ h => by cases h
  | _, _, _, .cons h1 h2 => h1.tidy.better h2.tidy

theorem RefChain.tidy : ∀ {d : GDef N} {ss bs : List N} {i k j : Nat} {ns : List Node},
    RefChain G B input d ss bs i k j ns → InOrder i ns j ∧ ∀ t ∈ ns, Nested t
  | d, _, _, _, _, _, _, .base h => h.tidy.wrap (input := input) d _ _ rfl
  | _, _, _, _, _, _, _, .skip h _ _ _ _ => h.tidy
  | d, _, _, _, _, _, _, .step (e := e) (t := k) h _ _ _ h1 _ => by
    have ih := h.tidy
    have t := h1.tidy.prepend ih.1 ih.2
    have t := (t.wrap (input := input) e).wrap (input := input) d
    exact t k _ rfl

theorem RefItems.tidy : ∀ {items : List (N × Int × Int)} {k i : Nat} {m : Match}, RefItems G B input items k i m → Tidy i m
  | _, _, i, _, .nil => fun _ _ h => by cases h; exact ⟨Nat.le_refl i, by simp⟩
  | _, _, _, _, .fail _ _ => fun _ _ h => by cases h
  | _, _, _, _, .done _ _ h => h.tidy
  | _, _, _, _, .empty h1 h2 => by
    have t1 := h1.tidy
    have t2 := h2.tidy
    obtain ⟨o, n⟩ := t1 _ _ rfl
    refine t2.prepend (o.replicate _) fun t ht => ?_
    obtain ⟨l, hl, ht⟩ := List.mem_flatten.1 ht
    rw [(List.mem_replicate.1 hl).2] at ht
    exact n t ht
  | _, _, _, _, .last h1 _ _ _ h2 => by
    have t1 := h1.tidy
    have t2 := h2.tidy
    obtain ⟨o, n⟩ := t1 _ _ rfl
    exact t2.prepend o n
  | _, _, _, _, .more h1 _ _ h2 => by
    have t1 := h1.tidy
    have t2 := h2.tidy
    obtain ⟨o, n⟩ := t1 _ _ rfl
    exact t2.prepend o n

end

/-! ### Choices -/

theorem RefOptions.longest : ∀ {os : List N} {i : Nat} {m : Match}, RefOptions G B input os i m → ∀ j ns, m = some (j, ns) →
    ∃ front o rest, os = front ++ o :: rest ∧ Ref G B input o i (some (j, ns)) ∧
      (∀ q ∈ front, ∃ r, Ref G B input q i r ∧ ∀ x, r = some x → x.1 < j) ∧
      (∀ q ∈ rest, ∃ r, Ref G B input q i r ∧ ∀ x, r = some x → x.1 ≤ j) := by
  have all : ∀ {os : List N} {i : Nat} {m : Match}, RefOptions G B input os i m → ∀ j, (∀ x, m = some x → x.1 ≤ j) →
      ∀ q ∈ os, ∃ r, Ref G B input q i r ∧ ∀ x, r = some x → x.1 ≤ j := by
    intro os
    induction os with
    | nil => intro i m h j _ q hq; cases hq
    | cons o os ih =>
      intro i m h j hj q hq
      cases h with
      | @cons _ _ _ m ms h1 h2 =>
        have hb : (∀ x, m = some x → x.1 ≤ j) ∧ (∀ x, ms = some x → x.1 ≤ j) := by
          cases m with
          | none => exact ⟨(by intro x h; cases h), hj⟩
          | some a =>
            cases ms with
            | none => exact ⟨hj, (by intro x h; cases h)⟩
            | some b =>
              simp only [Spec.better] at hj
              split at hj
              · have := hj _ rfl
                exact ⟨fun x h => by cases h; omega, fun x h => by cases h; omega⟩
              · have := hj _ rfl
                exact ⟨fun x h => by cases h; omega, fun x h => by cases h; omega⟩
        rcases List.mem_cons.1 hq with rfl | hq
        · exact ⟨_, h1, hb.1⟩
        · exact ih h2 j hb.2 q hq
  intro os
  induction os with
  | nil => intro i m h j ns hm; cases h; cases hm
  | cons o os ih =>
    intro i m h j ns hm
    cases h with
    | @cons _ _ _ m ms h1 h2 =>
      have fromTail : ms = some (j, ns) → (∀ x, m = some x → x.1 < j) → ∃ front o' rest, o :: os = front ++ o' :: rest ∧
          Ref G B input o' i (some (j, ns)) ∧ (∀ q ∈ front, ∃ r, Ref G B input q i r ∧ ∀ x, r = some x → x.1 < j) ∧
          (∀ q ∈ rest, ∃ r, Ref G B input q i r ∧ ∀ x, r = some x → x.1 ≤ j) := by
        intro hms hlt
        obtain ⟨front, o', rest, rfl, g1, g2, g3⟩ := ih h2 j ns hms
        refine ⟨o :: front, o', rest, rfl, g1, fun q hq => ?_, g3⟩
        rcases List.mem_cons.1 hq with rfl | hq
        · exact ⟨_, h1, hlt⟩
        · exact g2 q hq
      have fromHead : m = some (j, ns) → (∀ x, ms = some x → x.1 ≤ j) → ∃ front o' rest, o :: os = front ++ o' :: rest ∧
          Ref G B input o' i (some (j, ns)) ∧ (∀ q ∈ front, ∃ r, Ref G B input q i r ∧ ∀ x, r = some x → x.1 < j) ∧
          (∀ q ∈ rest, ∃ r, Ref G B input q i r ∧ ∀ x, r = some x → x.1 ≤ j) := by
        intro hm hle
        subst hm
        exact ⟨[], o, os, rfl, h1, by simp, all h2 j hle⟩
      cases m with
      | none => exact fromTail hm (by intro x h; cases h)
      | some a =>
        cases ms with
        | none => exact fromHead hm (by intro x h; cases h)
        | some b =>
          simp only [Spec.better] at hm
          split at hm
          · rename_i hlt
            cases hm
            exact fromTail rfl fun x h => by cases h; exact hlt
          · rename_i hlt
            cases hm
            exact fromHead rfl fun x h => by cases h; simp only at hlt; omega

end Treerack.Spec
