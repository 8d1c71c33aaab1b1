import Verif.Proofs.SelfStraight
import Verif.Proofs.Reference

/-
Which characters the parsers of syntax documents may start with.
-/

namespace Treerack
open Spec

namespace Spec

/-- The first characters of the texts of a definition. -/
inductive First {N : Type} (G : Grammar N) : N → Rune → Prop
  | char {n : N} {d : GDef N} {neg : Bool} {chars : List Rune} {ranges : List (Rune × Rune)} {t : Rune} :
      G n = some d → d.expr = .char neg chars ranges → InClass neg chars ranges t → First G n t
  | option {n : N} {d : GDef N} {os : List N} {o : N} {t : Rune} : G n = some d → d.expr = .choice os → o ∈ os → First G o t → First G n t
  | item {n : N} {d : GDef N} {front rest : List (N × Int × Int)} {x : N × Int × Int} {t : Rune} :
      G n = some d → d.expr = .seq (front ++ x :: rest) → (∀ y ∈ front, 0 < y.2.1 → Nullable G y.1) → First G x.1 t → First G n t

variable {N : Type} {G : Grammar N} {B : N → Nat → Nat → Prop} {input : List Rune}

mutual

theorem Ref.first (hr : ∀ n s, ¬ Recurs G n s) : ∀ {n : N} {i : Nat} {m : Match}, Ref G B input n i m → ∀ j ns, m = some (j, ns) → i < j →
    ∃ t, input[i]? = some t ∧ First G n t
  | _, _, _, .char h1 h2 h3 h4, _, _, _, _ => ⟨_, h3, .char h1 h2 h4⟩
  | _, _, _, .noChar .., _, _, h, _ => by cases h
  | _, _, _, .choice (m := m) h1 h2 h3 h4, j, ns, h, hlt => by
    obtain ⟨x, hx, h'⟩ := Option.map_eq_some_iff.1 h
    have h' := (Prod.mk.inj h').1
    obtain ⟨o, ho, t, ht, hf⟩ := RefOptions.first hr h4 x.1 x.2 hx (by omega)
    exact ⟨t, ht, .option h1 h2 ho hf⟩
  | _, _, _, .noBase .., _, _, h, _ => by cases h
  | _, _, _, .grow _ _ h3 _ _ _, _, _, _, _ => absurd h3 (not_exists.2 (hr _))
  | _, _, _, .seq h1 h2 h3 h4, j, ns, h, hlt => by
    obtain ⟨x, hx, h'⟩ := Option.map_eq_some_iff.1 h
    have h' := (Prod.mk.inj h').1
    obtain ⟨front, y, rest, t, hi, hy, ht, hf⟩ := RefItems.first hr h3 x.1 x.2 hx (by omega) rfl
    exact ⟨t, ht, .item h1 (h2.trans (by rw [hi])) hy hf⟩
  | _, _, _, .blocked .., _, _, h, _ => by cases h

theorem RefOptions.first (hr : ∀ n s, ¬ Recurs G n s) : ∀ {os : List N} {i : Nat} {m : Match}, RefOptions G B input os i m → ∀ j ns, m = some (j, ns) →
    i < j → ∃ o ∈ os, ∃ t, input[i]? = some t ∧ First G o t
  | _, _, _, .nil, _, _, h, _ => by cases h
  | _, _, _, .cons (m := m) (ms := ms) h1 h2, j, ns, h, hlt => by
    have hc : m = some (j, ns) ∨ ms = some (j, ns) := by
      cases m with
      | none => exact Or.inr h
      | some x =>
        cases ms with
        | none => exact Or.inl h
        | some y =>
          simp only [better] at h
          split at h
          · exact Or.inr h
          · exact Or.inl h
    rcases hc with hc | hc
    · obtain ⟨t, ht, hf⟩ := Ref.first hr h1 j ns hc hlt
      exact ⟨_, List.mem_cons_self, t, ht, hf⟩
    · obtain ⟨o, ho, t, ht, hf⟩ := RefOptions.first hr h2 j ns hc hlt
      exact ⟨o, List.mem_cons_of_mem _ ho, t, ht, hf⟩

theorem RefItems.first (hr : ∀ n s, ¬ Recurs G n s) : ∀ {items : List (N × Int × Int)} {k i : Nat} {m : Match}, RefItems G B input items k i m →
    ∀ j ns, m = some (j, ns) → i < j → k = 0 → ∃ front x rest t, items = front ++ x :: rest ∧
      (∀ y ∈ front, 0 < y.2.1 → Nullable G y.1) ∧ input[i]? = some t ∧ First G x.1 t
  | _, _, _, _, .nil, _, _, h, hlt, _ => by cases h; omega
  | _, _, _, _, .fail .., _, _, h, _, _ => by cases h
  | _, _, _, _, .done (n := n) (mn := mn) (mx := mx) h1 h2 h3, j, ns, h, hlt, hk => by
    obtain ⟨front, x, rest, t, hi, hy, ht, hf⟩ := RefItems.first hr h3 j ns h hlt rfl
    refine ⟨(n, mn, mx) :: front, x, rest, t, by rw [hi]; rfl, ?_, ht, hf⟩
    intro y hm
    rcases List.mem_cons.1 hm with rfl | hm
    · intro h; simp only at h; omega
    · exact hy y hm
  | _, _, _, _, .empty (n := n) (mn := mn) (mx := mx) h1 h3, j, ns, h, hlt, hk => by
    obtain ⟨z, hz, h⟩ := Option.map_eq_some_iff.1 h
    simp only [Prod.mk.injEq] at h
    obtain ⟨front, x, rest, t, hi, hy, ht, hf⟩ := RefItems.first hr h3 z.1 z.2 hz (by omega) rfl
    refine ⟨(n, mn, mx) :: front, x, rest, t, by rw [hi]; rfl, ?_, ht, hf⟩
    intro y hm
    rcases List.mem_cons.1 hm with rfl | hm
    · exact fun _ => h1.nullable _ rfl
    · exact hy y hm
  | _, _, _, _, .last h1 h2 h3 h4 h5, j, ns, h, hlt, hk => by
    obtain ⟨t, ht, hf⟩ := Ref.first hr h1 _ _ rfl h2
    exact ⟨[], _, _, t, rfl, by simp, ht, hf⟩
  | _, _, _, _, .more h1 h2 h3 h4, j, ns, h, hlt, hk => by
    obtain ⟨t, ht, hf⟩ := Ref.first hr h1 _ _ rfl h2
    exact ⟨[], _, _, t, rfl, by simp, ht, hf⟩

end

end Spec

/-- The parsers that may match the empty text. -/
def selfNul (p : Ptr) : Bool := p == 195 || p == 196

/-- The items that may be tried at the position of the sequence. -/
def leading : List (Ptr × Int × Int) → List Ptr
  | [] => []
  | x :: xs => x.1 :: if decide (x.2.1 ≤ 0) || selfNul x.1 then leading xs else []

/-- May the parser start with the character?  The first argument limits the depth. -/
def mayStart : Nat → Ptr → Rune → Bool
  | 0, _, _ => false
  | n + 1, p, t => match selfEnv.grammar p with
    | none => false
    | some ⟨_, _, .char neg cs rs⟩ => matchChar cs rs neg t
    | some ⟨_, _, .choice os⟩ => os.any fun o => mayStart n o t
    | some ⟨_, _, .seq items⟩ => (leading items).any fun o => mayStart n o t

theorem self_nullable {p : Ptr} (h : Nullable selfEnv.grammar p) : selfNul p = true := by
  have key : (selfEnv.list.all fun x => match x.2.expr with
      | .char _ _ _ => true
      | .choice os => selfNul x.1 || os.all fun o => !selfNul o
      | .seq items => selfNul x.1 || items.any fun i => decide (0 < i.2.1) && !selfNul i.1) = true := by decide +kernel
  have key := List.all_eq_true.1 key
  induction h with
  | choice h1 h2 h3 _ ih =>
    have := key _ (Env.list_mem h1)
    simp only [h2, Bool.or_eq_true, List.all_eq_true] at this
    rcases this with h | h
    · exact h
    · have := h _ h3; rw [ih] at this; cases this
  | seq h1 h2 _ ih =>
    have := key _ (Env.list_mem h1)
    simp only [h2, Bool.and_eq_true, Bool.or_eq_true, List.any_eq_true, decide_eq_true_eq] at this
    rcases this with h | ⟨x, hx, hp, hq⟩
    · exact h
    · rw [ih x hx hp] at hq; cases hq

theorem leading_mem : ∀ {front rest : List (Ptr × Int × Int)} {x : Ptr × Int × Int},
    (∀ y ∈ front, 0 < y.2.1 → Nullable selfEnv.grammar y.1) → x.1 ∈ leading (front ++ x :: rest)
  | [], _, _, _ => by simp [leading]
  | y :: front, rest, x, h => by
    have hc : (decide (y.2.1 ≤ 0) || selfNul y.1) = true := by
      by_cases hy : 0 < y.2.1
      · simp [self_nullable (h y List.mem_cons_self hy)]
      · simp; left; omega
    simp only [List.cons_append, leading, hc, if_true]
    exact List.mem_cons_of_mem _ (leading_mem fun z hz => h z (List.mem_cons_of_mem _ hz))

theorem mayStart_of {p : Ptr} {t : Rune} (h : First selfEnv.grammar p t) : ∀ n, selfRanks.getD p 0 ≤ n → mayStart n p t = true := by
  have key : (selfEnv.list.all fun x => match x.2.expr with
      | .char _ _ _ => decide (0 < selfRanks.getD x.1 0)
      | .choice os => os.all fun o => decide (selfRanks.getD o 0 < selfRanks.getD x.1 0)
      | .seq items => (leading items).all fun o => decide (selfRanks.getD o 0 < selfRanks.getD x.1 0)) = true := by decide +kernel
  have key := List.all_eq_true.1 key
  induction h with
  | @char n d neg chars ranges t h1 h2 h3 =>
    intro k hk
    have := key _ (Env.list_mem h1)
    simp only [h2, decide_eq_true_eq] at this
    cases k with
    | zero => omega
    | succ k =>
      obtain ⟨_, _, e⟩ := d
      simp only at h2
      subst h2
      simp only [mayStart, h1]
      exact (matchChar_iff ..).2 h3
  | @option n d os o t h1 h2 h3 _ ih =>
    intro k hk
    have := key _ (Env.list_mem h1)
    simp only [h2, List.all_eq_true, decide_eq_true_eq] at this
    have := this o h3
    cases k with
    | zero => omega
    | succ k =>
      obtain ⟨_, _, e⟩ := d
      simp only at h2
      subst h2
      simp only [mayStart, h1]
      exact List.any_eq_true.2 ⟨o, h3, ih k (by omega)⟩
  | @item n d front rest x t h1 h2 h3 _ ih =>
    intro k hk
    have := key _ (Env.list_mem h1)
    simp only [h2, List.all_eq_true, decide_eq_true_eq] at this
    have := this x.1 (leading_mem h3)
    cases k with
    | zero => omega
    | succ k =>
      obtain ⟨_, _, e⟩ := d
      simp only at h2
      subst h2
      simp only [mayStart, h1]
      exact List.any_eq_true.2 ⟨_, leading_mem h3, ih k (by omega)⟩

/-- The parsers do not distinguish the characters from 128 on. -/
def cat (t : Rune) : Rune := if t < 128 then t else 128

theorem matchChar_cat {cs : List Rune} {rs : List (Rune × Rune)} {neg : Bool} {t : Rune} (hc : ∀ c ∈ cs, c < 128)
    (hr : ∀ r ∈ rs, r.1 < 128 ∧ r.2 < 128) : matchChar cs rs neg (cat t) = matchChar cs rs neg t := by
  unfold cat
  split
  · rfl
  · rename_i h
    have h1 : ∀ u : Rune, ¬ u < 128 → matchChar cs rs neg u = neg := by
      intro u hu
      unfold matchChar
      rw [if_neg, if_neg]
      · intro h
        obtain ⟨r, hm, h⟩ := List.any_eq_true.1 h
        have := hr r hm
        simp only [Bool.and_eq_true, decide_eq_true_eq] at h
        exact hu (Nat.lt_of_le_of_lt h.2 this.2)
      · intro h
        obtain ⟨c, hm, h⟩ := List.any_eq_true.1 h
        have := hc c hm
        simp only [beq_iff_eq] at h
        exact hu (h ▸ this)
    rw [h1 _ h, h1 128 (by decide)]

theorem mayStart_cat : ∀ (n : Nat) (p : Ptr) (t : Rune), mayStart n p (cat t) = mayStart n p t
  | 0, _, _ => rfl
  | n + 1, p, t => by
    have key : (selfEnv.list.all fun x => match x.2.expr with
        | .char _ cs rs => (cs.all fun c => decide (c < 128)) && rs.all fun r => decide (r.1 < 128 ∧ r.2 < 128)
        | _ => true) = true := by decide +kernel
    have key := List.all_eq_true.1 key
    unfold mayStart
    split
    · rfl
    · rename_i h
      have := key _ (Env.list_mem h)
      simp only [Bool.and_eq_true, List.all_eq_true, decide_eq_true_eq] at this
      exact matchChar_cat this.1 this.2
    · simp only [mayStart_cat n]
    · simp only [mayStart_cat n]

theorem cat_lt (t : Rune) : cat t < 129 := by
  unfold cat
  split
  · rename_i h; exact Nat.lt_succ_of_lt h
  · decide

end Treerack
