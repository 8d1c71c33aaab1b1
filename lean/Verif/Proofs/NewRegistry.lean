import Verif.Proofs.Prepare

/-
Rebuilding the registry from a list of definitions with distinct names.
-/

namespace Treerack

/-- The definition objects with their ids. -/
structure RegInv (h : Heap) (done : List Ptr) (r : Registry) (h' : Heap) : Prop where
  defs : r.definitions = done
  seed : r.idSeed = done.length
  len : h'.length = h.length
  same : ∀ (q : Ptr) d, h[q]? = some d → ∃ i, h'[q]? = some { d with id := i }
  ids : ∀ (i : Nat) (p : Ptr), done[i]? = some p → ∃ d, h'[p]? = some d ∧ d.id = i + 1
  lookup : ∀ n p, r.lookup n = some p ↔ p ∈ done ∧ ∃ d, h[p]? = some d ∧ d.name = n

theorem RegInv.step {h : Heap} {done : List Ptr} {r : Registry} {h' : Heap} {p : Ptr} {d : Def}
    (hi : RegInv h done r h') (hd : h[p]? = some d) (hp : p ∉ done)
    (hn : ∀ q ∈ done, ∀ e, h[q]? = some e → e.name ≠ d.name) :
    RegInv h (done ++ [p]) (r.setDefinition h' p).1 (r.setDefinition h' p).2.1 := by
  obtain ⟨i0, hd'⟩ := hi.same p d hd
  have hnone : r.lookup d.name = none := by
    cases hl : r.lookup d.name with
    | none => rfl
    | some q =>
      obtain ⟨h1, e, h2, h3⟩ := (hi.lookup _ _).1 hl
      exact absurd h3 (hn q h1 e h2)
  unfold Registry.setDefinition
  simp only [hd', hnone]
  refine ⟨by simp [hi.defs], by simp [hi.seed], by simp [Heap.length_update, hi.len], ?_, ?_, ?_⟩
  · intro q e he
    obtain ⟨i, hq⟩ := hi.same q e he
    rw [Heap.getElem?_update]
    split
    · exact ⟨_, by rw [hq]; rfl⟩
    · exact ⟨i, hq⟩
  · intro i q hq
    rw [Heap.getElem?_update]
    rw [List.getElem?_append] at hq
    split at hq
    · have hne : p ≠ q := by
        rintro rfl
        exact hp (List.mem_of_getElem? hq)
      rw [if_neg hne]
      exact hi.ids i q hq
    · rw [List.getElem?_singleton] at hq
      split at hq
      · cases hq
        rw [if_pos rfl, hd']
        refine ⟨_, rfl, ?_⟩
        show r.idSeed + 1 = i + 1
        rw [hi.seed]; omega
      · cases hq
  · intro n q
    have hcons : (Registry.mk (r.idSeed + 1) ((d.name, p) :: r.definition) (r.definitions ++ [p])).lookup n =
        if n == d.name then some p else r.lookup n := by
      unfold Registry.lookup
      simp only [List.lookup_cons]
      cases n == d.name <;> rfl
    rw [hcons]
    by_cases hnn : n = d.name
    · subst hnn
      simp only [BEq.rfl, if_true, Option.some.injEq]
      constructor
      · rintro rfl; exact ⟨by simp, d, hd, rfl⟩
      · rintro ⟨hq, e, h1, h2⟩
        rcases List.mem_append.1 hq with hq | hq
        · exact absurd h2 (hn q hq e h1)
        · simp only [List.mem_singleton] at hq; exact hq.symm
    · have : (n == d.name) = false := by simpa using hnn
      rw [this]
      simp only [Bool.false_eq_true, if_false]
      rw [hi.lookup]
      constructor
      · rintro ⟨h1, h2⟩; exact ⟨by simp [h1], h2⟩
      · rintro ⟨h1, e, h2, h3⟩
        rcases List.mem_append.1 h1 with h1 | h1
        · exact ⟨h1, e, h2, h3⟩
        · simp only [List.mem_singleton] at h1; subst h1
          rw [hd] at h2; cases h2
          exact absurd h3.symm hnn

theorem newRegistry_spec {h : Heap} {defs : List Ptr} (hlt : ∀ p ∈ defs, p < h.length)
    (hnames : (defs.map fun p => (h[p]?).map Def.name).Nodup) :
    RegInv h defs (Registry.newRegistry h defs).1 (Registry.newRegistry h defs).2 := by
  have key : ∀ (ps done : List Ptr) (r : Registry) (h' : Heap),
      ((done ++ ps).map fun p => (h[p]?).map Def.name).Nodup → (∀ p ∈ ps, p < h.length) →
      RegInv h done r h' →
      RegInv h (done ++ ps)
        (ps.foldl (fun (rh : Registry × Heap) p =>
          let x := rh.1.setDefinition rh.2 p
          (x.1, x.2.1)) (r, h')).1
        (ps.foldl (fun (rh : Registry × Heap) p =>
          let x := rh.1.setDefinition rh.2 p
          (x.1, x.2.1)) (r, h')).2 := by
    intro ps
    induction ps with
    | nil => intro done r h' _ _ hi; simpa using hi
    | cons p ps ih =>
      intro done r h' hnd hl hi
      obtain ⟨d, hd⟩ : ∃ d, h[p]? = some d := ⟨_, List.getElem?_eq_getElem (hl p (by simp))⟩
      rw [List.map_append, List.nodup_append] at hnd
      obtain ⟨n1, n2, n3⟩ := hnd
      have hn : ∀ q ∈ done, ∀ e, h[q]? = some e → e.name ≠ d.name := by
        intro q hq e he hne
        refine n3 (some e.name) (List.mem_map.2 ⟨q, hq, by rw [he]; rfl⟩) (some d.name)
          (List.mem_map.2 ⟨p, by simp, by rw [hd]; rfl⟩) (by rw [hne])
      have hp : p ∉ done := fun hpd => hn p hpd d hd rfl
      have := ih (done ++ [p]) _ _ (by
        rw [List.append_assoc, List.singleton_append, List.map_append, List.nodup_append]
        exact ⟨n1, n2, n3⟩) (fun q hq => hl q (by simp [hq])) (hi.step hd hp hn)
      rw [List.append_assoc, List.singleton_append] at this
      exact this
  have := key defs [] {} h (by simpa using hnames) hlt
    ⟨rfl, rfl, rfl, fun q d hd => ⟨d.id, hd⟩, by simp, by simp [Registry.lookup]⟩
  simpa [Registry.newRegistry] using this

end Treerack
