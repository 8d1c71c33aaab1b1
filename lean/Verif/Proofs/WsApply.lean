import Verif.Proofs.NewRegistry

/-
The first part of `Init`, for syntaxes with whitespace definitions: the list of the definitions after
the whitespace was applied.
-/

namespace Treerack
open Whitespace

def Def.withAlias (d : Def) : Def := d.setCommitType { d.commitType with alias := true }

/-- Does applying the whitespace replace the definition? -/
def Def.replaced (d : Def) : Bool :=
  !d.commitType.noWhitespace && match d.kind with | .seq _ _ _ _ _ => true | _ => false

/-- The items of a sequence. -/
def Def.items (d : Def) : List SeqItem :=
  match d.kind with
  | .seq _ items _ _ _ => items
  | _ => []

/-- The definitions generated for a definition. -/
def Def.wsGen (d : Def) : List Def := if d.replaced then (applyToItems d.name 0 d.items).1 else []

/-- The definition that replaces a definition. -/
def Def.wsRepl (d : Def) : Def :=
  if d.replaced then newSequence d.name d.commitType (applyToItems d.name 0 d.items).2 else d

/-- All of them. -/
def wsBlock (h : Heap) (p : Ptr) : List Def :=
  match h[p]? with
  | none => []
  | some d => d.wsGen ++ [d.wsRepl]

theorem alloc_get (h : Heap) (ds : List Def) :
    (alloc h ds).2.map (fun q => (alloc h ds).1[q]?) = ds.map some := by
  unfold alloc
  simp only [List.map_map]
  apply List.ext_getElem?
  intro i
  simp only [List.getElem?_map]
  by_cases hi : i < ds.length
  · simp [hi, Function.comp_def]
  · simp [hi]

structure ApplyToDefs (ps : List Ptr) (h : Heap) (x : List Ptr × Heap) : Prop where
  ext : ∃ e, x.2 = h ++ e
  get : x.1.map (fun q => x.2[q]?) = (ps.flatMap (wsBlock h)).map some
  kept : ∀ p ∈ ps, ∀ d, h[p]? = some d → d.replaced = false → p ∈ x.1
  from_ : ∀ q ∈ x.1, q ∈ ps ∨ h.length ≤ q

theorem applyToDefs_spec : ∀ (ps : List Ptr) (h : Heap), (∀ p ∈ ps, p < h.length) →
    ApplyToDefs ps h (applyToDefs ps h)
  | [], h, _ => ⟨⟨[], by simp [applyToDefs]⟩, by simp [applyToDefs], by simp, by simp [applyToDefs]⟩
  | p :: ps, h, hl => by
    obtain ⟨d, hd⟩ : ∃ d, h[p]? = some d := ⟨_, List.getElem?_eq_getElem (hl p (by simp))⟩
    -- the first definition
    obtain ⟨new, h1, hstep, e1, hext1, hget1, hkept1, hfrom1⟩ : ∃ new h1,
        applyToDefs (p :: ps) h = (new ++ (applyToDefs ps h1).1, (applyToDefs ps h1).2) ∧
        ∃ e1, h1 = h ++ e1 ∧ new.map (fun q => h1[q]?) = (wsBlock h p).map some ∧
        (d.replaced = false → p ∈ new) ∧ ∀ q ∈ new, q = p ∨ h.length ≤ q := by
      rw [applyToDefs]
      simp only [hd]
      by_cases hw : d.commitType.noWhitespace = true
      · refine ⟨[p], h, by simp [hw], [], by simp, ?_, by simp, by simp⟩
        simp [wsBlock, hd, Def.wsGen, Def.wsRepl, Def.replaced, hw]
      · cases hk : d.kind with
        | char => exact ⟨[p], h, by simp [hw], [], by simp, by
            simp [wsBlock, hd, Def.wsGen, Def.wsRepl, Def.replaced, hk], by simp, by simp⟩
        | choice => exact ⟨[p], h, by simp [hw], [], by simp, by
            simp [wsBlock, hd, Def.wsGen, Def.wsRepl, Def.replaced, hk], by simp, by simp⟩
        | seq orig items ds rs ac =>
          refine ⟨(alloc h (applyToSeq d.name d.commitType items)).2,
            (alloc h (applyToSeq d.name d.commitType items)).1, by simp [hw], _, rfl, ?_, ?_, ?_⟩
          · rw [alloc_get]
            simp [wsBlock, hd, Def.wsGen, Def.wsRepl, Def.replaced, hk, hw, applyToSeq, Def.items]
          · simp [Def.replaced, hk, hw]
          · intro q hq
            simp only [alloc, List.mem_map] at hq
            obtain ⟨i, -, rfl⟩ := hq
            exact Or.inr (Nat.le_add_right _ _)
    have hl1 : ∀ q ∈ ps, q < h1.length := by
      intro q hq
      rw [hext1, List.length_append]
      exact Nat.lt_of_lt_of_le (hl q (by simp [hq])) (Nat.le_add_right _ _)
    obtain ⟨⟨e2, i1⟩, i2, i3, i4⟩ := applyToDefs_spec ps h1 hl1
    have hold : ∀ q : Ptr, q < h.length → h1[q]? = h[q]? := by
      intro q hq; rw [hext1]; exact List.getElem?_append_left hq
    rw [hstep]
    refine ⟨⟨e1 ++ e2, by simp only; rw [i1, hext1, List.append_assoc]⟩, ?_, ?_, ?_⟩
    · simp only [List.map_append, List.flatMap_cons]
      rw [i2]
      congr 1
      · rw [← hget1]
        apply List.map_congr_left
        intro q hq
        have hsome : h1[q]? ∈ (wsBlock h p).map some := by
          rw [← hget1]; exact List.mem_map.2 ⟨q, hq, rfl⟩
        obtain ⟨dq, -, hdq⟩ := List.mem_map.1 hsome
        have hlq := (List.getElem?_eq_some_iff.1 hdq.symm).1
        rw [i1]; exact List.getElem?_append_left hlq
      · congr 1
        have : ∀ q ∈ ps, wsBlock h1 q = wsBlock h q := by
          intro q hq
          unfold wsBlock
          rw [hold q (hl q (by simp [hq]))]
        rw [List.flatMap_def, List.flatMap_def, List.map_congr_left this]
    · intro q hq dq hdq hr
      rcases List.mem_cons.1 hq with rfl | hq
      · rw [hd] at hdq; cases hdq
        exact List.mem_append_left _ (hkept1 hr)
      · exact List.mem_append_right _ (i3 q hq dq (by rw [hold q (hl q (by simp [hq]))]; exact hdq) hr)
    · intro q hq
      rcases List.mem_append.1 hq with hq | hq
      · rcases hfrom1 q hq with rfl | hq
        · exact Or.inl (by simp)
        · exact Or.inr hq
      · rcases i4 q hq with hq | hq
        · exact Or.inl (by simp [hq])
        · refine Or.inr (Nat.le_trans ?_ hq)
          rw [hext1, List.length_append]; exact Nat.le_add_right _ _

end Treerack
