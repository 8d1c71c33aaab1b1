import Verif.Spec.Lookahead
import Verif.Proofs.Reference
import Verif.Proofs.Completes

/-
From derivations to the reference semantics.
-/

namespace Treerack
open Spec

variable {N : Type} {G : Grammar N} {B : N → Nat → Nat → Prop} {input : List Rune}

/-! ### The reference semantics derives what it matches -/

theorem RefItems.sound_start {items : List (N × Int × Int)} {i : Nat} {m : Match}
    (h : ∀ j ns, m = some (j, ns) →
      (items = [] → i = j) ∧ ∀ x mn mx rest a, items = (x, mn, mx) :: rest → DerivesTimes G input x 0 a i → (0 < mx → ((0 : Nat) : Int) < mx) →
        DerivesItems G input items a j) {j : Nat} {ns : List Node} (e : m = some (j, ns)) : DerivesItems G input items i j := by
  obtain ⟨h1, h2⟩ := h j ns e
  cases items with
  | nil => cases h1 rfl; exact .nil
  | cons x rest => exact h2 _ _ _ _ i rfl .zero id

mutual
theorem Ref.sound (hn : ∀ a s, ¬ Recurs G a s) : ∀ {n : N} {i : Nat} {m : Match}, Ref G B input n i m → ∀ j ns, m = some (j, ns) →
    Derives G input n i j
  | _, _, _, .char h1 h2 h3 h4, _, _, e => by cases e; exact .char h1 h2 h3 h4
  | _, _, _, .noChar _ _ _, _, _, e => by cases e
  | _, _, _, .choice (m := m) h1 h2 _ h4, j, ns, e => by
    have ih := RefOptions.sound hn h4
    cases m with
    | none => cases e
    | some x =>
      cases e
      obtain ⟨o, ho, hd⟩ := ih _ _ rfl
      exact .choice h1 h2 ho hd
  | _, _, _, .noBase _ _ _ _ _, _, _, e => by cases e
  | _, _, _, .grow _ _ h3 _ _ _, _, _, _ => by
    obtain ⟨s, hs⟩ := h3
    exact (hn _ _ hs).elim
  | _, _, _, .seq (items := items) (m := m) h1 h2 h3 _, j, ns, e => by
    have ih := RefItems.sound hn h3
    cases m with
    | none => cases e
    | some x =>
      cases e
      exact .seq h1 h2 (RefItems.sound_start ih rfl)
  | _, _, _, .blocked _ _ _ _, _, _, e => by cases e

theorem RefOptions.sound (hn : ∀ a s, ¬ Recurs G a s) : ∀ {os : List N} {i : Nat} {m : Match}, RefOptions G B input os i m →
    ∀ j ns, m = some (j, ns) → ∃ o ∈ os, Derives G input o i j
  | _, _, _, .nil, _, _, e => by cases e
  | _, _, _, .cons (o := o) h1 h2, j, ns, e => by
    rcases better_some e with e | e
    · exact ⟨o, by simp, Ref.sound hn h1 _ _ e⟩
    · obtain ⟨o', ho, hd⟩ := RefOptions.sound hn h2 _ _ e
      exact ⟨o', by simp [ho], hd⟩

theorem RefItems.sound (hn : ∀ a s, ¬ Recurs G a s) : ∀ {items : List (N × Int × Int)} {k i : Nat} {m : Match},
    RefItems G B input items k i m → ∀ j ns, m = some (j, ns) →
      (items = [] → i = j) ∧ ∀ x mn mx rest a, items = (x, mn, mx) :: rest → DerivesTimes G input x k a i → (0 < mx → (k : Int) < mx) →
        DerivesItems G input items a j
  | _, _, _, _, .nil, _, _, e => by
    cases e
    exact ⟨fun _ => rfl, fun _ _ _ _ _ h => by cases h⟩
  | _, _, _, _, .fail _ _, _, _, e => by cases e
  | _, _, _, _, .done h1 h2 h3, j, ns, e => by
    have ih := RefItems.sound hn h3
    refine ⟨fun h => (by cases h), fun x mn mx rest a h ht hk => ?_⟩
    cases h
    refine .cons ht (.inl ⟨h2, fun h => Int.le_of_lt (hk h)⟩) ?_
    exact RefItems.sound_start ih e
  | _, _, _, _, .empty (n := n) (mn := mn) (mx := mx) (k := k) (i := i) h1 h2, j, ns, e => by
    have ih := RefItems.sound hn h2
    have ih1 := Ref.sound hn h1
    refine ⟨fun h => (by cases h), fun x mn mx rest a h ht hk => ?_⟩
    cases h
    obtain ⟨ns', e'⟩ := prepend_some e
    have hd := ih1 _ _ rfl
    have pad : ∀ l, DerivesTimes G input n (k + l) a i := by
      intro l
      induction l with
      | zero => exact ht
      | succ l ih => exact .succ ih hd
    have hr := RefItems.sound_start ih e'
    by_cases hw : 0 < mx ∧ mx < mn
    · refine .cons (pad (mx - k).toNat) (.inr ⟨hw.1, hw.2, ?_⟩) hr
      have := hk hw.1
      omega
    · refine .cons (pad (mn - k).toNat) (.inl ⟨by omega, fun h => ?_⟩) hr
      have := hk h
      omega
  | _, _, _, _, .last (mn := mn) (mx := mx) (k := k) h1 h2 h3 h4 h5, j, ns, e => by
    have ih := RefItems.sound hn h5
    have ih1 := Ref.sound hn h1
    refine ⟨fun h => (by cases h), fun x mn mx rest a h ht hk => ?_⟩
    cases h
    obtain ⟨ns', e'⟩ := prepend_some e
    refine .cons (.succ ht (ih1 _ _ rfl)) ?_ (RefItems.sound_start ih e')
    by_cases hw : mx < mn
    · exact .inr ⟨h3, hw, h4⟩
    · exact .inl ⟨by omega, fun _ => by omega⟩
  | _, _, _, _, .more (mn := mn) (mx := mx) (k := k) h1 h2 h3 h4, j, ns, e => by
    have ih := RefItems.sound hn h4
    have ih1 := Ref.sound hn h1
    refine ⟨fun h => (by cases h), fun x mn mx rest a h ht hk => ?_⟩
    cases h
    obtain ⟨ns', e'⟩ := prepend_some e
    refine (ih _ _ e').2 _ _ _ _ a rfl (.succ ht (ih1 _ _ rfl)) fun h => ?_
    have := hk h
    have : ¬ ((k + 1 : Nat) : Int) = mx := fun h' => h3 ⟨h, h'⟩
    omega

end

/-! ### Intended derivations -/

mutual
/-- Derivations that take as much as possible. -/
inductive Picks (G : Grammar N) (B : N → Nat → Nat → Prop) (input : List Rune) : N → Nat → Nat → Prop
  | char {n : N} {d : GDef N} {neg : Bool} {chars : List Rune} {ranges : List (Rune × Rune)} {i : Nat} {t : Rune} :
      G n = some d → d.expr = .char neg chars ranges → input[i]? = some t → InClass neg chars ranges t → Picks G B input n i (i + 1)
  | choice {n : N} {d : GDef N} {os : List N} {o : N} {i j : Nat} :
      G n = some d → d.expr = .choice os → o ∈ os → Picks G B input o i j →
      (∀ o' ∈ os, o' ≠ o → ∀ j', Derives G input o' i j' → j' ≤ j) → Picks G B input n i j
  | seq {n : N} {d : GDef N} {items : List (N × Int × Int)} {i j : Nat} :
      G n = some d → d.expr = .seq items → PicksItems G B input items 0 i j → ¬ B n i j → Picks G B input n i j

inductive PicksItems (G : Grammar N) (B : N → Nat → Nat → Prop) (input : List Rune) : List (N × Int × Int) → Nat → Nat → Nat → Prop
  | nil {k i : Nat} : PicksItems G B input [] k i i
  | done {x : N} {mn mx : Int} {items : List (N × Int × Int)} {k i j : Nat} :
      (∀ c, Derives G input x i c → c ≤ i) → mn ≤ (k : Int) → PicksItems G B input items 0 i j →
      PicksItems G B input ((x, mn, mx) :: items) k i j
  | empty {x : N} {mn mx : Int} {items : List (N × Int × Int)} {k i j : Nat} :
      Picks G B input x i i → PicksItems G B input items 0 i j → PicksItems G B input ((x, mn, mx) :: items) k i j
  | last {x : N} {mn mx : Int} {items : List (N × Int × Int)} {k i m j : Nat} :
      Picks G B input x i m → i < m → 0 < mx → ((k + 1 : Nat) : Int) = mx → PicksItems G B input items 0 m j →
      PicksItems G B input ((x, mn, mx) :: items) k i j
  | more {x : N} {mn mx : Int} {items : List (N × Int × Int)} {k i m j : Nat} :
      Picks G B input x i m → i < m → ¬ (0 < mx ∧ ((k + 1 : Nat) : Int) = mx) →
      PicksItems G B input ((x, mn, mx) :: items) (k + 1) m j → PicksItems G B input ((x, mn, mx) :: items) k i j
end

/-- The definitions in `R` have results, and refer to definitions in `R`. -/
structure Whole (G : Grammar N) (B : N → Nat → Nat → Prop) (input : List Rune) (R : N → Prop) : Prop where
  option : ∀ {n d os o}, R n → G n = some d → d.expr = .choice os → o ∈ os → R o
  item : ∀ {n d items x}, R n → G n = some d → d.expr = .seq items → x ∈ items → R x.1
  total : ∀ {n}, R n → ∀ i, ∃ m, Ref G B input n i m

theorem RefOptions.picked {i j : Nat} : ∀ {os : List N}, (∀ o ∈ os, ∃ m, Ref G B input o i m ∧ ∀ x, m = some x → x.1 ≤ j) →
    (∃ o ∈ os, ∃ ns, Ref G B input o i (some (j, ns))) → ∃ ns, RefOptions G B input os i (some (j, ns))
  | [], _, ⟨_, h, _⟩ => by cases h
  | o :: os, hall, ⟨o', ho', ns, hr⟩ => by
    obtain ⟨m, hm, hle⟩ := hall o (by simp)
    have hrest : ∃ ms, RefOptions G B input os i ms ∧ ∀ x, ms = some x → x.1 ≤ j := by
      have := fun o ho => hall o (List.mem_cons_of_mem _ ho)
      clear hall hm hle hr ho'
      induction os with
      | nil => exact ⟨_, .nil, by simp⟩
      | cons o os ih =>
        obtain ⟨m, h1, h2⟩ := this o (by simp)
        obtain ⟨ms, h3, h4⟩ := ih fun o ho => this o (List.mem_cons_of_mem _ ho)
        refine ⟨_, .cons h1 h3, fun x hx => ?_⟩
        rcases better_some hx with e | e
        · exact h2 x e
        · exact h4 x e
    by_cases hmj : ∃ ms, m = some (j, ms)
    · obtain ⟨ms, rfl⟩ := hmj
      obtain ⟨r, h1, h2⟩ := hrest
      refine ⟨ms, ?_⟩
      have : better (some (j, ms)) r = some (j, ms) := by
        cases r with
        | none => rfl
        | some x => simp [better, Nat.not_lt.2 (h2 x rfl)]
      rw [← this]
      exact .cons hm h1
    · rcases List.mem_cons.1 ho' with rfl | ho'
      · exact (hmj ⟨ns, hm.unique hr⟩).elim
      · obtain ⟨ms, h⟩ := RefOptions.picked (os := os) (fun o ho => hall o (List.mem_cons_of_mem _ ho)) ⟨o', ho', ns, hr⟩
        refine ⟨ms, ?_⟩
        have : better m (some (j, ms)) = some (j, ms) := by
          cases m with
          | none => rfl
          | some x =>
            have h1 := hle x rfl
            have h2 : x.1 ≠ j := fun e => hmj ⟨x.2, by rw [← e]⟩
            simp [better]
            omega
        rw [← this]
        exact .cons hm h

mutual
/-- The reference semantics matches the intended derivations. -/
theorem Picks.ref (hn : ∀ a s, ¬ Recurs G a s) {R : N → Prop} (W : Whole G B input R) : ∀ {n : N} {i j : Nat}, Picks G B input n i j →
    R n → ∃ ns, Ref G B input n i (some (j, ns))
  | _, _, _, .char h1 h2 h3 h4, _ => ⟨_, .char h1 h2 h3 h4⟩
  | _, i, j, .choice h1 h2 (o := o) h3 h4 h5, hR => by
    obtain ⟨ns, ho⟩ := h4.ref hn W (W.option hR h1 h2 h3)
    obtain ⟨ms, hr⟩ := RefOptions.picked (j := j) (fun o' ho' => by
      by_cases e : o' = o
      · subst e
        exact ⟨_, ho, fun x hx => by cases hx; exact Nat.le_refl _⟩
      · obtain ⟨m, hm⟩ := W.total (W.option hR h1 h2 ho') i
        exact ⟨m, hm, fun x hx => h5 o' ho' e _ (Ref.sound hn hm _ _ hx)⟩) ⟨o, h3, ns, ho⟩
    exact ⟨_, .choice h1 h2 (hn _) hr⟩
  | _, _, _, .seq h1 h2 h3 h4, hR => by
    obtain ⟨ns, h⟩ := h3.ref hn W fun x hx => W.item hR h1 h2 hx
    exact ⟨_, .seq h1 h2 h fun x hx => by cases hx; exact h4⟩

theorem PicksItems.ref (hn : ∀ a s, ¬ Recurs G a s) {R : N → Prop} (W : Whole G B input R) : ∀ {items : List (N × Int × Int)}
    {k i j : Nat}, PicksItems G B input items k i j → (∀ x ∈ items, R x.1) → ∃ ns, RefItems G B input items k i (some (j, ns))
  | _, _, _, _, .nil, _ => ⟨_, .nil⟩
  | _, _, i, _, .done (x := x) h1 h2 h3, hR => by
    obtain ⟨ns, h⟩ := h3.ref hn W fun x hx => hR x (List.mem_cons_of_mem _ hx)
    obtain ⟨m, hm⟩ := W.total (hR _ (List.mem_cons_self ..)) i
    cases m with
    | none => exact ⟨_, .done hm h2 h⟩
    | some y =>
      obtain ⟨c, ms⟩ := y
      have hd := Ref.sound hn hm _ _ rfl
      obtain rfl : c = i := Nat.le_antisymm (h1 _ hd) hd.bounds.1
      exact ⟨_, .empty hm h⟩
  | _, _, _, _, .empty h1 h2, hR => by
    obtain ⟨ns, h⟩ := h2.ref hn W fun x hx => hR x (List.mem_cons_of_mem _ hx)
    obtain ⟨ms, hm⟩ := h1.ref hn W (hR _ (List.mem_cons_self ..))
    exact ⟨_, .empty hm h⟩
  | _, _, _, _, .last h1 h2 h3 h4 h5, hR => by
    obtain ⟨ns, h⟩ := h5.ref hn W fun x hx => hR x (List.mem_cons_of_mem _ hx)
    obtain ⟨ms, hm⟩ := h1.ref hn W (hR _ (List.mem_cons_self ..))
    exact ⟨_, .last hm h2 h3 h4 h⟩
  | _, _, _, _, .more h1 h2 h3 h4, hR => by
    obtain ⟨ns, h⟩ := h4.ref hn W hR
    obtain ⟨ms, hm⟩ := h1.ref hn W (hR _ (List.mem_cons_self ..))
    exact ⟨_, .more hm h2 h3 h⟩
end

theorem Picks.unique (hn : ∀ a s, ¬ Recurs G a s) {R : N → Prop} (W : Whole G B input R) {n : N} {i j j' : Nat}
    (h : Picks G B input n i j) (h' : Picks G B input n i j') (hR : R n) : j = j' := by
  obtain ⟨ns, h1⟩ := h.ref hn W hR
  obtain ⟨ns', h2⟩ := h'.ref hn W hR
  exact congrArg Prod.fst (Option.some.inj (h1.unique h2))

/-! ### Decisive texts -/

theorem Spec.DerivesTimes.prepend {x : N} {b c : Nat} (h : Derives G input x b c) : ∀ {l e : Nat}, DerivesTimes G input x l c e →
    DerivesTimes G input x (l + 1) b e
  | _, _, .zero => .succ .zero h
  | _, _, .succ h1 h2 => .succ (Spec.DerivesTimes.prepend h h1) h2

theorem Spec.DerivesItems.snoc {y : N × Int × Int} : ∀ {items : List (N × Int × Int)} {i a b : Nat}, DerivesItems G input items i a →
    DerivesItems G input [y] a b → DerivesItems G input (items ++ [y]) i b
  | [], _, _, _, .nil, h => h
  | _ :: _, _, _, _, .cons h1 h2 h3, h => .cons h1 h2 (Spec.DerivesItems.snoc h3 h)

theorem Spec.Within.mem {R : N → Prop} (W : Whole G B input R) {root : N} (hr : R root) {n : N} {i j : Nat}
    (h : Within G input root n i j) : R n := by
  induction h with
  | root _ => exact hr
  | option _ h1 h2 h3 _ ih => exact W.option ih h1 h2 h3
  | item _ h1 h2 _ _ _ _ _ _ ih => exact W.item ih h1 h2 (x := (_, _, _)) (List.mem_append_right _ (List.mem_cons_self ..))

section
variable (hn : ∀ a s, ¬ Recurs G a s) {R : N → Prop} (W : Whole G B input R) {root : N} (hr : R root)
  (D : Decisive G input B root)

include hn W hr D

mutual
/-- The derivations of a decisive text are the intended ones. -/
theorem Spec.Derives.picks : ∀ {n : N} {i j : Nat}, Derives G input n i j → Within G input root n i j → Picks G B input n i j
  | _, _, _, .char h1 h2 h3 h4, _ => .char h1 h2 h3 h4
  | _, _, _, .choice h1 h2 h3 h4, ho =>
    .choice h1 h2 h3 (Spec.Derives.picks h4 (.option ho h1 h2 h3 h4)) fun _ h5 h6 _ h7 => D.options ho h1 h2 h3 h4 h5 h6 h7
  | _, _, _, .seq h1 h2 h3, ho =>
    .seq h1 h2 (Spec.DerivesItems.picks h3 (front := []) ho h1 h2 .nil) (D.allowed ho h1 h2)

theorem Spec.DerivesItems.picks : ∀ {items : List (N × Int × Int)} {a j : Nat}, DerivesItems G input items a j →
    ∀ {n : N} {d : GDef N} {front : List (N × Int × Int)} {i : Nat}, Within G input root n i j → G n = some d →
      d.expr = .seq (front ++ items) → DerivesItems G input front i a → PicksItems G B input items 0 a j
  | _, _, _, .nil, _, _, _, _, _, _, _, _ => .nil
  | _, a, j, .cons (n := x) (mn := mn) (mx := mx) (items := back) (k := k) (m := b) h1 h2 h3, n, d, front, i, ho, hd, he, hf => by
    have hback : PicksItems G B input back 0 b j :=
      Spec.DerivesItems.picks h3 (front := front ++ [(x, mn, mx)]) ho hd (by rw [he]; simp) (hf.snoc (.cons h1 h2 .nil))
    have hend : if 0 < mx ∧ (k : Int) = mx then PicksItems G B input back 0 b j
        else PicksItems G B input ((x, mn, mx) :: back) k b j := by
      split
      · exact hback
      · rename_i hmx
        refine .done (fun c hc => D.items ho hd he hf h1 h2 hmx h3 hc) ?_ hback
        rcases h2 with h2 | h2
        · exact h2.1
        · exact absurd ⟨h2.1, h2.2.2⟩ hmx
    have := Spec.DerivesTimes.picks h1 (l := 0) (e := b) .zero (by simpa using h2) h3 ho hd he hf hend
    by_cases hmx : 0 < mx ∧ ((0 : Nat) : Int) = mx
    · exact absurd hmx.1 (by rw [← hmx.2]; decide)
    · rwa [if_neg hmx] at this

theorem Spec.DerivesTimes.picks : ∀ {x : N} {k a b : Nat}, DerivesTimes G input x k a b →
    ∀ {l e : Nat}, DerivesTimes G input x l b e → ∀ {mn mx : Int}, InRange mn mx (k + l) →
    ∀ {back : List (N × Int × Int)} {j : Nat}, DerivesItems G input back e j →
    ∀ {n : N} {d : GDef N} {front : List (N × Int × Int)} {i : Nat}, Within G input root n i j → G n = some d →
      d.expr = .seq (front ++ (x, mn, mx) :: back) → DerivesItems G input front i a →
      (if 0 < mx ∧ (k : Int) = mx then PicksItems G B input back 0 b j else PicksItems G B input ((x, mn, mx) :: back) k b j) →
      if 0 < mx ∧ ((0 : Nat) : Int) = mx then PicksItems G B input back 0 a j else PicksItems G B input ((x, mn, mx) :: back) 0 a j
  | _, _, _, _, .zero, _, _, _, _, _, _, _, _, _, _, _, _, _, _, _, _, _, h => h
  | x, _, a, b, .succ (k := k) (m := m) h1 h2, l, e, hl, mn, mx, hin, back, j, hb, n, d, front, i, ho, hd, he, hf, h => by
    have hox : Within G input root x m b := .item ho hd he hf h1 h2 hl hin hb
    have hp : Picks G B input x m b := Spec.Derives.picks h2 hox
    have hR := hox.mem W hr
    refine Spec.DerivesTimes.picks h1 (hl.prepend h2) (by rw [show k + (l + 1) = k + 1 + l by omega]; exact hin) hb ho hd he hf ?_
    have hk : ¬ (0 < mx ∧ (k : Int) = mx) := by
      rintro ⟨h3, h4⟩
      rcases hin with h5 | h5
      · have := h5.2 h3
        omega
      · have := h5.2.2
        omega
    rw [if_neg hk]
    rcases Nat.lt_or_eq_of_le h2.bounds.1 with hlt | heq
    · split at h
      · rename_i hmx
        exact .last hp hlt hmx.1 hmx.2 h
      · rename_i hmx
        exact .more hp hlt hmx h
    · subst heq
      refine .empty hp ?_
      split at h
      · exact h
      · cases h with
        | done _ _ h => exact h
        | empty _ h => exact h
        | last h3 h4 => exact absurd (h3.unique hn W hp hR) (by omega)
        | more h3 h4 => exact absurd (h3.unique hn W hp hR) (by omega)
end

/-- A decisive text that is derived from the root is matched. -/
theorem Spec.Decisive.ref (h : Derives G input root 0 input.length) : ∃ ns, Ref G B input root 0 (some (input.length, ns)) :=
  (Spec.Derives.picks hn W hr D h (.root h)).ref hn W hr

end

/-! ### One character of lookahead -/

mutual
theorem Spec.Derives.first : ∀ {n : N} {i j : Nat}, Derives G input n i j → i < j → ∃ t, input[i]? = some t ∧ FirstChar G n t
  | _, _, _, .char h1 h2 h3 h4, _ => ⟨_, h3, .char h1 h2 h4⟩
  | _, _, _, .choice h1 h2 h3 h4, h => by
    obtain ⟨t, ht, hf⟩ := Spec.Derives.first h4 h
    exact ⟨t, ht, .choice h1 h2 h3 hf⟩
  | _, _, _, .seq h1 h2 h3, h => by
    obtain ⟨t, ht, hf⟩ := Spec.DerivesItems.first h3 h
    exact ⟨t, ht, .seq h1 h2 hf⟩

theorem Spec.DerivesItems.first : ∀ {items : List (N × Int × Int)} {i j : Nat}, DerivesItems G input items i j → i < j →
    ∃ t, input[i]? = some t ∧ FirstCharItems G items t
  | _, _, _, .nil, h => absurd h (Nat.lt_irrefl _)
  | _, i, j, .cons (n := x) (mn := mn) (k := k) (m := m) h1 h2 h3, h => by
    have ih1 := Spec.DerivesTimes.first h1
    have ih2 := Spec.DerivesItems.first h3
    have ih3 := Spec.DerivesTimes.null h1
    rcases Nat.lt_or_eq_of_le h1.bounds.1 with hlt | rfl
    · obtain ⟨t, ht, hf⟩ := ih1 hlt
      exact ⟨t, ht, .here hf⟩
    · obtain ⟨t, ht, hf⟩ := ih2 h
      refine ⟨t, ht, .next (fun hmn => ih3 rfl ?_) hf⟩
      rcases h2 with h2 | h2 <;> omega

theorem Spec.DerivesTimes.first : ∀ {x : N} {k i j : Nat}, DerivesTimes G input x k i j → i < j → ∃ t, input[i]? = some t ∧ FirstChar G x t
  | _, _, _, _, .zero, h => absurd h (Nat.lt_irrefl _)
  | _, _, i, j, .succ (m := m) h1 h2, h => by
    have ih1 := Spec.DerivesTimes.first h1
    have ih2 := Spec.Derives.first h2
    rcases Nat.lt_or_eq_of_le h1.bounds.1 with hlt | rfl
    · exact ih1 hlt
    · exact ih2 h

theorem Spec.Derives.null : ∀ {n : N} {i j : Nat}, Derives G input n i j → i = j → Nullable G n
  | _, _, _, .char _ _ _ _, h => by omega
  | _, _, _, .choice h1 h2 h3 h4, h => .choice h1 h2 h3 (Spec.Derives.null h4 h)
  | _, _, _, .seq h1 h2 h3, h => .seq h1 h2 (Spec.DerivesItems.null h3 h)

theorem Spec.DerivesItems.null : ∀ {items : List (N × Int × Int)} {i j : Nat}, DerivesItems G input items i j → i = j → NullItems G items
  | _, _, _, .nil, _ => by intro x hx; cases hx
  | _, i, j, .cons (n := x) (mn := mn) (k := k) (m := m) h1 h2 h3, h => by
    have ih1 := Spec.DerivesTimes.null h1
    have ih2 := Spec.DerivesItems.null h3
    have b1 := h1.bounds.1
    have b2 := h3.bounds.1
    intro y hy hpos
    rcases List.mem_cons.1 hy with rfl | hy
    · refine ih1 (by omega) ?_
      simp only at hpos
      rcases h2 with h2 | h2 <;> omega
    · exact ih2 (by omega) y hy hpos

theorem Spec.DerivesTimes.null : ∀ {x : N} {k i j : Nat}, DerivesTimes G input x k i j → i = j → 0 < k → Nullable G x
  | _, _, _, _, .zero, _, h => absurd h (Nat.lt_irrefl _)
  | _, _, _, _, .succ h1 h2, h, _ => by
    have ih := Spec.Derives.null h2
    have b1 := h1.bounds.1
    have b2 := h2.bounds.1
    exact ih (by omega)
end

/-- What comes behind a part of a text. -/
theorem Spec.Within.follow {root : N} {n : N} {i j : Nat} (h : Within G input root n i j) : Follow G root n input[j]? := by
  induction h with
  | root _ => rw [List.getElem?_eq_none (Nat.le_refl _)]; exact .root
  | option _ h1 h2 h3 _ ih => exact .option ih h1 h2 h3
  | @item n d front back x mn mx i j a k b c l e _ h1 h2 _ _ _ h6 h7 h8 ih =>
    rcases Nat.lt_or_eq_of_le h6.bounds.1 with hlt | rfl
    · obtain ⟨t, ht, hf⟩ := h6.first hlt
      rw [ht]
      refine .again h1 h2 ?_ hf
      rintro rfl
      have : l ≠ 0 := by
        rintro rfl
        cases h6
        exact Nat.lt_irrefl _ hlt
      rcases h7 with h7 | h7
      · have := h7.2 (by decide)
        omega
      · omega
    · rcases Nat.lt_or_eq_of_le h8.bounds.1 with hlt | rfl
      · obtain ⟨t, ht, hf⟩ := h8.first hlt
        rw [ht]
        exact .next h1 h2 hf
      · exact .last ih h1 h2 (h8.null rfl)

/-- With one character of lookahead, all texts are decisive. -/
theorem Spec.LL1.decisive {root : N} (L : LL1 G root) (hB : ∀ n i j, Within G input root n i j → ¬ B n i j) : Decisive G input B root where
  options := fun {n d os o o' i j j'} ho hd he h1 h2 h3 hne h4 => by
    rcases Nat.lt_or_ge j j' with hlt | hle
    · exfalso
      have b := h2.bounds.1
      obtain ⟨t, ht, hf⟩ := h4.first (by omega)
      rcases Nat.lt_or_eq_of_le b with hij | rfl
      · obtain ⟨t', ht', hf'⟩ := h2.first hij
        rw [ht] at ht'
        cases ht'
        exact L.options hd he h1 h3 hne hf' hf
      · have := ho.follow
        rw [ht] at this
        exact L.empty hd he h1 h3 hne (h2.null rfl) hf this
    · exact hle
  items := fun {n d front x mn mx back i a k b j c} ho hd he h1 h2 h3 h4 h5 h6 => by
    rcases Nat.lt_or_ge b c with hlt | hle
    · exfalso
      obtain ⟨t, ht, hf⟩ := h6.first hlt
      have hv : ¬ (0 < mx ∧ mx ≤ mn) := by
        rintro ⟨g1, g2⟩
        rcases h3 with h3 | h3
        · have := h3.2 g1
          omega
        · exact h4 ⟨g1, h3.2.2⟩
      rcases Nat.lt_or_eq_of_le h5.bounds.1 with hbj | rfl
      · obtain ⟨t', ht', hf'⟩ := h5.first hbj
        rw [ht] at ht'
        cases ht'
        exact L.items hd he hv hf hf'
      · have := ho.follow
        rw [ht] at this
        exact L.ends hd he hv hf (h5.null rfl) this
    · exact hle
  allowed := fun ho _ _ => hB _ _ _ ho

end Treerack
