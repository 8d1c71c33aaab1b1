import Verif.Spec.Grammar

/-
Renaming the definitions of a grammar does not change what it derives.
-/

namespace Treerack.Spec

variable {N M : Type}

/-- `f` maps the definitions of `G` in `R` to the definitions of `G'`. -/
structure Morphism (G : Grammar N) (G' : Grammar M) (R : N → Prop) (f : N → M) : Prop where
  def_ : ∀ p, R p → ∃ d, G p = some d ∧ G' (f p) = some (d.map f)
  refs : ∀ p d, R p → G p = some d → ∀ q ∈ d.expr.refs, R q

variable {G : Grammar N} {G' : Grammar M} {R : N → Prop} {f : N → M} {input : List Rune}

mutual

theorem Morphism.derives (m : Morphism G G' R f) : ∀ {p i j}, R p → Derives G input p i j →
    Derives G' input (f p) i j
  | _, _, _, hR, .char h1 h2 h3 h4 => by
    obtain ⟨d, e1, e2⟩ := m.def_ _ hR
    rw [h1] at e1; cases e1
    exact .char e2 (by simp [GDef.map, h2, Expr.map]) h3 h4
  | _, _, _, hR, .choice h1 h2 h3 h4 => by
    obtain ⟨d, e1, e2⟩ := m.def_ _ hR
    rw [h1] at e1; cases e1
    exact .choice e2 (by simp [GDef.map, h2, Expr.map]) (List.mem_map.2 ⟨_, h3, rfl⟩)
      (m.derives (m.refs _ _ hR h1 _ (by rw [h2]; exact h3)) h4)
  | _, _, _, hR, .seq h1 h2 h3 => by
    obtain ⟨d, e1, e2⟩ := m.def_ _ hR
    rw [h1] at e1; cases e1
    exact .seq e2 (by simp [GDef.map, h2, Expr.map])
      (m.derivesItems (fun x hx => m.refs _ _ hR h1 _ (by
        rw [h2]; exact List.mem_map.2 ⟨x, hx, rfl⟩)) h3)

theorem Morphism.derivesItems (m : Morphism G G' R f) : ∀ {items i j}, (∀ x ∈ items, R x.1) →
    DerivesItems G input items i j →
    DerivesItems G' input (items.map fun x => (f x.1, x.2.1, x.2.2)) i j
  | _, _, _, _, .nil => .nil
  | _, _, _, hR, .cons h1 h2 h3 =>
    .cons (m.derivesTimes (hR _ (by simp)) h1) h2 (m.derivesItems (fun x hx => hR x (by simp [hx])) h3)

theorem Morphism.derivesTimes (m : Morphism G G' R f) : ∀ {p k i j}, R p →
    DerivesTimes G input p k i j → DerivesTimes G' input (f p) k i j
  | _, _, _, _, _, .zero => .zero
  | _, _, _, _, hR, .succ h1 h2 => .succ (m.derivesTimes hR h1) (m.derives hR h2)

end

mutual

theorem Morphism.derives_inv (m : Morphism G G' R f) : ∀ {n i j}, Derives G' input n i j →
    ∀ p, R p → n = f p → Derives G input p i j
  | _, _, _, .char h1 h2 h3 h4, p, hR, e => by
    obtain ⟨d, e1, e2⟩ := m.def_ _ hR
    subst e
    rw [h1] at e2; cases e2
    cases hd : d.expr with
    | char => simp [GDef.map, hd, Expr.map] at h2; obtain ⟨rfl, rfl, rfl⟩ := h2; exact .char e1 hd h3 h4
    | choice => simp [GDef.map, hd, Expr.map] at h2
    | seq => simp [GDef.map, hd, Expr.map] at h2
  | _, _, _, .choice h1 h2 h3 h4, p, hR, e => by
    obtain ⟨d, e1, e2⟩ := m.def_ _ hR
    subst e
    rw [h1] at e2; cases e2
    cases hd : d.expr with
    | char => simp [GDef.map, hd, Expr.map] at h2
    | choice os =>
      simp [GDef.map, hd, Expr.map] at h2
      subst h2
      obtain ⟨o, g1, g2⟩ := List.mem_map.1 h3
      exact .choice e1 hd g1 (m.derives_inv h4 o (m.refs _ _ hR e1 _ (by rw [hd]; exact g1)) g2.symm)
    | seq => simp [GDef.map, hd, Expr.map] at h2
  | _, _, _, .seq h1 h2 h3, p, hR, e => by
    obtain ⟨d, e1, e2⟩ := m.def_ _ hR
    subst e
    rw [h1] at e2; cases e2
    cases hd : d.expr with
    | char => simp [GDef.map, hd, Expr.map] at h2
    | choice => simp [GDef.map, hd, Expr.map] at h2
    | seq items =>
      simp [GDef.map, hd, Expr.map] at h2
      exact .seq e1 hd (m.derivesItems_inv h3 items (fun x hx => m.refs _ _ hR e1 _ (by
        rw [hd]; exact List.mem_map.2 ⟨x, hx, rfl⟩)) h2.symm)

theorem Morphism.derivesItems_inv (m : Morphism G G' R f) : ∀ {items' i j},
    DerivesItems G' input items' i j → ∀ items : List (N × Int × Int), (∀ x ∈ items, R x.1) →
    items' = items.map (fun x => (f x.1, x.2.1, x.2.2)) → DerivesItems G input items i j
  | _, _, _, .nil, items, _, e => by
    cases items with
    | nil => exact .nil
    | cons => simp at e
  | _, _, _, .cons h1 h2 h3, items, hR, e => by
    cases items with
    | nil => simp at e
    | cons x items =>
      rcases x with ⟨n, mn, mx⟩
      simp only [List.map_cons, List.cons.injEq, Prod.mk.injEq] at e
      obtain ⟨⟨e1, rfl, rfl⟩, e2⟩ := e
      exact .cons (m.derivesTimes_inv h1 n (hR _ (List.mem_cons_self ..)) e1) h2
        (m.derivesItems_inv h3 items (fun x hx => hR x (by simp [hx])) e2)

theorem Morphism.derivesTimes_inv (m : Morphism G G' R f) : ∀ {n k i j},
    DerivesTimes G' input n k i j → ∀ p, R p → n = f p → DerivesTimes G input p k i j
  | _, _, _, _, .zero, _, _, _ => .zero
  | _, _, _, _, .succ h1 h2, p, hR, e => .succ (m.derivesTimes_inv h1 p hR e) (m.derives_inv h2 p hR e)

end

theorem Morphism.derives_iff (m : Morphism G G' R f) {p : N} {i j : Nat} (hR : R p) :
    Derives G' input (f p) i j ↔ Derives G input p i j :=
  ⟨fun h => m.derives_inv h p hR rfl, m.derives hR⟩

end Treerack.Spec
