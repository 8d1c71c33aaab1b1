import Verif.Proofs.DocTrees

/-
Derivation trees: the conditions on the numbers of occurrences, and the syntaxes without whitespace.
-/

set_option linter.unusedSectionVars false

namespace Treerack
open Spec

/-! ### Numbers of occurrences -/

theorem bounds_ranged {mn mx : Int} (h : 0 < mx → mn ≤ mx) : 0 < (bounds mn mx).2 → (bounds mn mx).1 ≤ (bounds mn mx).2 := by
  unfold bounds
  split
  · simp
  · simp only
    split <;> split <;> omega

theorem ranged_grammar {cs : List Call} (h : RangedCalls cs) : Ranged (grammarOf cs) := by
  intro n d items x hd he hx hp
  have hm : (n, d) ∈ cs.flatMap Call.defs := by
    unfold grammarOf at hd
    have : ∀ l : List (Name × GDef Name), l.lookup n = some d → (n, d) ∈ l := by
      intro l
      induction l with
      | nil => intro h; cases h
      | cons y l ih =>
        intro h
        rw [List.lookup_cons] at h
        split at h
        · rename_i hy
          cases h
          have := beq_iff_eq.1 hy
          subst this
          exact List.mem_cons_self ..
        · exact List.mem_cons_of_mem _ (ih h)
    exact this _ hd
  obtain ⟨c, hc, hm⟩ := List.mem_flatMap.1 hm
  cases c with
  | anyChar m ct =>
    simp only [Call.defs, charDef, List.mem_cons, Prod.mk.injEq, List.not_mem_nil, or_false] at hm
    rcases hm with ⟨-, rfl⟩ | ⟨-, rfl⟩
    · cases he
    · cases he
      simp only [once, List.mem_singleton] at hx
      subst hx
      simp
  | class_ m ct neg chars ranges =>
    simp only [Call.defs, charDef, List.mem_cons, Prod.mk.injEq, List.not_mem_nil, or_false] at hm
    rcases hm with ⟨-, rfl⟩ | ⟨-, rfl⟩
    · cases he
    · cases he
      simp only [once, List.mem_singleton] at hx
      subst hx
      simp
  | charSequence m ct chars =>
    simp only [Call.defs, charDef, List.mem_append, List.mem_singleton, Prod.mk.injEq, List.mem_map] at hm
    rcases hm with ⟨y, -, -, rfl⟩ | ⟨-, rfl⟩
    · cases he
    · cases he
      obtain ⟨y, -, rfl⟩ := List.mem_map.1 hx
      simp [once]
  | sequence m ct its =>
    simp only [Call.defs, List.mem_singleton, Prod.mk.injEq] at hm
    obtain ⟨-, rfl⟩ := hm
    cases he
    obtain ⟨y, hy, rfl⟩ := List.mem_map.1 hx
    exact bounds_ranged (h m ct its hc y hy) hp
  | choice m ct os =>
    simp only [Call.defs, List.mem_singleton, Prod.mk.injEq] at hm
    obtain ⟨-, rfl⟩ := hm
    cases he

section
variable {N : Type} [DecidableEq N] {W : WGrammar N}

theorem lead_ranged {k : Nat} {x : Part N × Int × Int} (h : x ∈ lead k) : 0 < x.2.2 → x.2.1 ≤ x.2.2 := by
  unfold lead at h
  split at h
  · simp only [List.mem_singleton] at h; subst h; simp
  · cases h

theorem occurrences_ranged {n y : N} {k : Nat} {mn mx : Int} (hr : 0 < mx → mn ≤ mx) {x : Part N × Int × Int}
    (h : x ∈ occurrences n k y mn mx) : 0 < x.2.2 → x.2.1 ≤ x.2.2 := by
  unfold occurrences at h
  simp only [List.mem_cons, List.not_mem_nil, or_false] at h
  rcases h with rfl | rfl
  · simp
  · simp only
    split <;> split <;> omega

theorem spacedItems_ranged {n : N} : ∀ {items : List (N × Int × Int)} {k : Nat}, (∀ x ∈ items, 0 < x.2.2 → x.2.1 ≤ x.2.2) →
    ∀ x ∈ spacedItems n k items, 0 < x.2.2 → x.2.1 ≤ x.2.2
  | [], _, _, x, hx => by cases hx
  | (y, mn, mx) :: items, k, h, x, hx => by
    have hy := h _ (List.mem_cons_self ..)
    simp only at hy
    rw [spacedItems, List.mem_append] at hx
    rcases hx with hx | hx
    · unfold spacedItem at hx
      split at hx
      · rcases List.mem_append.1 hx with hx | hx
        · exact lead_ranged hx
        · simp only [List.mem_singleton] at hx; subst hx; exact hy
      · split at hx
        · rcases List.mem_append.1 hx with hx | hx
          · exact lead_ranged hx
          · exact occurrences_ranged hy hx
        · simp only [List.mem_singleton] at hx; subst hx; simp
    · exact spacedItems_ranged (fun x hx => h x (List.mem_cons_of_mem _ hx)) x hx

theorem inner_ranged {n : N} {e : Expr N} (h : ∀ items x, e = .seq items → x ∈ items → 0 < x.2.2 → x.2.1 ≤ x.2.2) {its : List (Part N × Int × Int)}
    (he : W.inner n e = .seq its) {x : Part N × Int × Int} (hx : x ∈ its) : 0 < x.2.2 → x.2.1 ≤ x.2.2 := by
  cases e with
  | char => cases he
  | choice => cases he
  | seq items =>
    cases ht : W.tight n with
    | true =>
      rw [inner_tight ht] at he
      cases he
      obtain ⟨y, hy, rfl⟩ := List.mem_map.1 hx
      exact h items y rfl hy
    | false =>
      rw [inner_loose ht] at he
      cases he
      exact spacedItems_ranged (fun x hx => h items x rfl hx) x hx

/-- The numbers of occurrences in the grammar with explicit whitespace. -/
theorem ranged_spaced (h : Ranged W.G) : Ranged (spaced W) := by
  intro q gd its x hg he hx
  cases q with
  | given n =>
    obtain ⟨d, h1, ⟨rfl, rfl⟩ | ⟨hn, rfl⟩⟩ := given_of hg
    · cases he
      simp only [List.mem_cons, List.not_mem_nil, or_false] at hx
      rcases hx with rfl | rfl | rfl <;> simp
    · exact inner_ranged (fun items x he hx => h n d items x h1 he hx) he hx
  | space => cases hg; cases he
  | body =>
    simp only [spaced] at hg
    obtain ⟨d, h1, rfl⟩ := Option.map_eq_some_iff.1 hg
    exact inner_ranged (fun items x he hx => h _ d items x h1 he hx) he hx
  | rest n k =>
    simp only [spaced] at hg
    obtain ⟨y, h1, rfl⟩ := Option.map_eq_some_iff.1 hg
    cases he
    simp only [List.mem_cons, List.not_mem_nil, or_false] at hx
    rcases hx with rfl | rfl <;> simp
  | several n k =>
    simp only [spaced] at hg
    obtain ⟨y, h1, rfl⟩ := Option.map_eq_some_iff.1 hg
    cases he
    have hy : 0 < y.2.2 → y.2.1 ≤ y.2.2 := by
      unfold WGrammar.item at h1
      split at h1
      · rename_i items hd
        exact h n _ items y hd rfl (List.mem_of_getElem? h1)
      · cases h1
    rcases List.mem_append.1 hx with hx | hx
    · exact lead_ranged hx
    · exact occurrences_ranged hy hx

end

theorem quantifier_ranged {q : Option Quantifier} (h : ∀ x, q = some x → x.Sound) :
    0 < (Spec.itemRange q).2 → (Spec.itemRange q).1 ≤ (Spec.itemRange q).2 := by
  cases q with
  | none => simp [Spec.itemRange]
  | some x =>
    have := h x rfl
    cases x <;> simp only [Quantifier.Sound] at this <;> simp only [Spec.itemRange, Quantifier.range] <;> omega

theorem refs_ranged : ∀ (items : DItems) {n : Name} {i : Nat}, items.Sound → ∀ it ∈ items.refs n i, 0 < it.max → it.min ≤ it.max
  | .nil, _, _, _, it, h => by cases h
  | .cons e q rest, n, i, hs, it, h => by
    simp only [DItems.Sound] at hs
    rcases List.mem_cons.1 h with rfl | h
    · exact quantifier_ranged hs.2.1
    · exact refs_ranged rest hs.2.2 it h

mutual

theorem calls_ranged : ∀ (e : DExpr) {n : Name} {ct : Commit}, e.Sound → RangedCalls (e.calls n ct)
  | .any, _, _, _, m, c, its, h => by simp [DExpr.calls] at h
  | .class_ .., _, _, _, m, c, its, h => by simp [DExpr.calls] at h
  | .chars .., _, _, _, m, c, its, h => by simp [DExpr.calls] at h
  | .symbol _, _, _, _, m, c, its, h => by
    simp only [DExpr.calls, List.mem_singleton, Call.sequence.injEq] at h
    obtain ⟨-, -, rfl⟩ := h
    simp
  | .seq items, n, ct, hs, m, c, its, h => by
    simp only [DExpr.Sound] at hs
    simp only [DExpr.calls, List.mem_append, List.mem_singleton, Call.sequence.injEq] at h
    rcases h with h | ⟨-, -, rfl⟩
    · exact itemsCalls_ranged items hs m c its h
    · exact refs_ranged items hs
  | .choice os, n, ct, hs, m, c, its, h => by
    simp only [DExpr.Sound] at hs
    simp only [DExpr.calls, List.mem_append, List.mem_singleton, reduceCtorEq, or_false] at h
    exact optionsCalls_ranged os hs m c its h

theorem itemsCalls_ranged : ∀ (items : DItems) {n : Name} {ct : Commit} {i : Nat}, items.Sound → RangedCalls (items.calls n ct i)
  | .nil, _, _, _, _, m, c, its, h => by simp [DItems.calls] at h
  | .cons e q rest, n, ct, i, hs, m, c, its, h => by
    simp only [DItems.Sound] at hs
    have key : .sequence m c its ∈ e.calls (charName n i) (memberFlags ct) ∨ .sequence m c its ∈ rest.calls n ct (i + 1) := by
      cases e <;> simp only [DItems.calls, List.mem_append] at h <;> first | exact h | exact Or.inr h
    rcases key with h | h
    · exact calls_ranged e hs.1 m c its h
    · exact itemsCalls_ranged rest hs.2.2 m c its h

theorem optionsCalls_ranged : ∀ (os : DOptions) {n : Name} {ct : Commit} {i : Nat}, os.Sound → RangedCalls (os.calls n ct i)
  | .nil, _, _, _, _, m, c, its, h => by simp [DOptions.calls] at h
  | .cons e rest, n, ct, i, hs, m, c, its, h => by
    simp only [DOptions.Sound] at hs
    have key : .sequence m c its ∈ e.calls (charName n i) (memberFlags ct) ∨ .sequence m c its ∈ rest.calls n ct (i + 1) := by
      cases e <;> simp only [DOptions.calls, List.mem_append] at h <;> first | exact h | exact Or.inr h
    rcases key with h | h
    · exact calls_ranged e hs.1 m c its h
    · exact optionsCalls_ranged rest hs.2 m c its h

end

theorem document_ranged {doc : Document} (hsound : ∀ d ∈ doc, d.expr.Sound) : RangedCalls (documentCalls doc) := by
  intro m c its h
  obtain ⟨d, hd, h⟩ := List.mem_flatMap.1 h
  exact calls_ranged d.expr (hsound d hd) m c its h

/-! ### Without whitespace -/

section
variable {N : Type} {W : WGrammar N} {input : List Rune} (hr : ∀ d, W.G W.root = some d → d.alias = false ∧ ∀ neg cs rs, d.expr ≠ .char neg cs rs)
  (hws : W.ws = [])
include hr hws

theorem wtree_wrap {n : N} {d : GDef N} (h : W.G n = some d) (hc : ∀ neg cs rs, d.expr ≠ .char neg cs rs) {i j : Nat} {ns : List Node}
    (hb : WTreeBody W input n i j ns) : WTree W input n i j (d.wrap input i j ns) := by
  unfold GDef.wrap
  by_cases hn : n = W.root
  · subst hn
    rw [if_neg (by rw [(hr d h).1]; decide)]
    simpa using WTree.root h .nil hb .nil
  · cases ha : d.alias with
    | true => exact .hidden hn h (fun hs => by rw [hs.1] at ha; cases ha) hb
    | false =>
      rw [if_neg (by decide)]
      exact .shown hn h ⟨ha, by rw [hws]; simp, hc⟩ hb

mutual

theorem Spec.Tree.wtree : ∀ {n : N} {i j : Nat} {ns : List Node}, Spec.Tree W.G input n i j ns → WTree W input n i j ns
  | n, _, _, _, .char h1 h2 h3 h4 =>
    .hidden (fun e => by subst e; exact (hr _ h1).2 _ _ _ h2) h1 (fun hs => hs.2.2 _ _ _ h2) (.char h1 h2 h3 h4)
  | _, _, _, _, .choice h1 h2 h3 h4 => wtree_wrap hr hws h1 (by rw [h2]; intro _ _ _ h; cases h) (.choice h1 h2 h3 (Spec.Tree.wtree h4))
  | n, _, _, _, .seq h1 h2 h3 => by
    have ih := Spec.TreeItems.wtree h3
    refine wtree_wrap hr hws h1 (by rw [h2]; intro _ _ _ h; cases h) ?_
    cases ht : W.tight n with
    | true => exact .tight h1 h2 ht ih.1
    | false => exact .loose h1 h2 ht (ih.2 true)

theorem Spec.TreeItems.wtree : ∀ {items : List (N × Int × Int)} {i j : Nat} {ns : List Node}, TreeItems W.G input items i j ns →
    WTreeTight W input items i j ns ∧ ∀ first, WTreeLoose W input first items i j ns
  | _, _, _, _, .nil => ⟨.nil, fun _ => .nil⟩
  | _, _, _, _, .cons h1 h2 h3 => by
    have i1 := Spec.TreeTimes.wtree h1
    have i2 := Spec.TreeItems.wtree h3
    exact ⟨.cons i1.1 h2 i2.1, fun first => .cons (i1.2 first) h2 (i2.2 false)⟩

theorem Spec.TreeTimes.wtree : ∀ {n : N} {k i j : Nat} {ns : List Node}, TreeTimes W.G input n k i j ns →
    WTreeTimes W input n k i j ns ∧ ∀ first, WTreeOcc W input first n k i j ns
  | _, _, _, _, _, .zero => ⟨.zero, fun _ => .zero⟩
  | _, k + 1, _, _, _, .succ h1 h2 => by
    have i1 := Spec.TreeTimes.wtree h1
    have i2 := Spec.Tree.wtree h2
    refine ⟨.succ i1.1 i2, fun first => ?_⟩
    by_cases hk : 0 < k
    · simpa using WTreeOcc.succ (i1.2 first) (fun _ => hk) .nil i2
    · obtain rfl : k = 0 := by omega
      cases h1
      cases first with
      | true => exact .first i2
      | false => simpa using WTreeOcc.succ (first := false) (k := 0) (ns := []) .zero nofun .nil i2

end

end

end Treerack
