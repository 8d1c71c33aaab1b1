import Verif.Spec.Generated

/-
The check of the declarations in the generated code, for the samples.
-/

namespace Treerack.Spec

open Treerack

/-- `WellDeclared` as a check. -/
def checkDeclared : List Nat → List Stmt → List Nat → Bool
  | ds, [], closing => closing.all ds.contains
  | ds, .declare n _ :: ss, closing => !ds.contains n && checkDeclared (n :: ds) ss closing
  | ds, .assign n f refs :: ss, closing => (n :: refs).all ds.contains && checkDeclared ds ss closing

theorem checkDeclared_iff (closing : List Nat) : ∀ (ss : List Stmt) (ds : List Nat), ds.Nodup →
    (checkDeclared ds ss closing = true ↔
      (ds.reverse ++ ss.flatMap declared).Nodup ∧
      (∀ pre st post, ss = pre ++ st :: post → ∀ n ∈ used st, n ∈ ds ++ pre.flatMap declared) ∧
      ∀ n ∈ closing, n ∈ ds ++ ss.flatMap declared)
  | [], ds, hds => by
    simp only [checkDeclared, List.all_eq_true, List.contains_iff_mem, List.flatMap_nil, List.append_nil]
    constructor
    · intro h
      refine ⟨by rw [List.Nodup, List.pairwise_reverse]; exact hds.imp fun h => h.symm, ?_, h⟩
      intro pre st post he
      cases pre <;> cases he
    · exact fun h => h.2.2
  | .declare n l :: ss, ds, hds => by
    simp only [checkDeclared, Bool.and_eq_true, Bool.not_eq_true']
    constructor
    · rintro ⟨h1, h2⟩
      have hn : n ∉ ds := fun hc => by rw [List.contains_iff_mem.2 hc] at h1; cases h1
      obtain ⟨g1, g2, g3⟩ := (checkDeclared_iff closing ss (n :: ds) (List.nodup_cons.2 ⟨hn, hds⟩)).1 h2
      refine ⟨by simpa [declared] using g1, ?_, fun m hm => ?_⟩
      · intro pre st post he m hm
        cases pre with
        | nil => simp only [List.nil_append, List.cons.injEq] at he; rw [← he.1] at hm; simp [used] at hm
        | cons a pre =>
          simp only [List.cons_append, List.cons.injEq] at he
          have := g2 pre st post he.2 m hm
          rw [← he.1]
          simp only [List.cons_append, List.mem_cons, List.mem_append, List.flatMap_cons, declared, List.nil_append] at this ⊢
          rcases this with h | h | h
          · exact Or.inr (Or.inl h)
          · exact Or.inl h
          · exact Or.inr (Or.inr h)
      · have := g3 m hm
        simp only [List.cons_append, List.mem_cons, List.mem_append, List.flatMap_cons, declared, List.nil_append] at this ⊢
        rcases this with h | h | h
        · exact Or.inr (Or.inl h)
        · exact Or.inl h
        · exact Or.inr (Or.inr h)
    · rintro ⟨g1, g2, g3⟩
      have hn : n ∉ ds := by
        intro hc
        have := (List.nodup_append.1 g1).2.2 n (List.mem_reverse.2 hc) n (by simp [declared])
        exact this rfl
      refine ⟨by
        cases hc : ds.contains n with
        | true => exact absurd (List.contains_iff_mem.1 hc) hn
        | false => rfl, (checkDeclared_iff closing ss (n :: ds) (List.nodup_cons.2 ⟨hn, hds⟩)).2 ⟨by simpa [declared] using g1, ?_, ?_⟩⟩
      · intro pre st post he m hm
        have := g2 (.declare n l :: pre) st post (by rw [he]; rfl) m hm
        simp only [List.cons_append, List.mem_cons, List.mem_append, List.flatMap_cons, declared, List.nil_append] at this ⊢
        rcases this with h | h | h
        · exact Or.inr (Or.inl h)
        · exact Or.inl h
        · exact Or.inr (Or.inr h)
      · intro m hm
        have := g3 m hm
        simp only [List.cons_append, List.mem_cons, List.mem_append, List.flatMap_cons, declared, List.nil_append] at this ⊢
        rcases this with h | h | h
        · exact Or.inr (Or.inl h)
        · exact Or.inl h
        · exact Or.inr (Or.inr h)
  | .assign n f refs :: ss, ds, hds => by
    simp only [checkDeclared, Bool.and_eq_true]
    rw [checkDeclared_iff closing ss ds hds]
    simp only [List.all_eq_true, List.contains_iff_mem, List.flatMap_cons, declared, List.nil_append]
    constructor
    · rintro ⟨h1, g1, g2, g3⟩
      refine ⟨g1, ?_, g3⟩
      intro pre st post he m hm
      cases pre with
      | nil =>
        simp only [List.nil_append, List.cons.injEq] at he
        rw [← he.1] at hm
        simpa using h1 m hm
      | cons a pre =>
        simp only [List.cons_append, List.cons.injEq] at he
        have := g2 pre st post he.2 m hm
        rw [← he.1]
        simpa [declared] using this
    · rintro ⟨g1, g2, g3⟩
      refine ⟨fun m hm => by simpa using g2 [] _ ss rfl m hm, g1, ?_, g3⟩
      intro pre st post he m hm
      simpa [declared] using g2 (.assign n f refs :: pre) st post (by rw [he]; rfl) m hm

theorem wellDeclared_iff (ss : List Stmt) (closing : List Nat) :
    WellDeclared ss closing ↔ checkDeclared [] ss closing = true := by
  rw [checkDeclared_iff closing ss [] List.nodup_nil]
  simp only [List.reverse_nil, List.nil_append]
  exact ⟨fun h => ⟨h.once, h.before, h.closing⟩, fun h => ⟨h.1, h.2.1, h.2.2⟩⟩

end Treerack.Spec
