import Verif.Proofs.Weak

/-
The root definition after any calls: never an alias.
-/

namespace Treerack
open Spec Whitespace

/-- A property preserved by registering raw definitions is preserved by every definition call. -/
theorem call_preserves {P : Syntax → Prop} (hreg : ∀ s d, RawDef d → P s → P (s.register d).1)
    (s : Syntax) (c : Call) (h : P s) : P (s.call c).1 := by
  have hclass : ∀ n ct neg cs rs, P (s.class_ n ct neg cs rs).1 := by
    intro n ct neg cs rs
    unfold Syntax.class_
    simp only
    have h1 := hreg s _ (.char (childName n 0) neg cs rs) h
    generalize s.register (newChar (childName n 0) neg cs rs) = x at h1
    obtain ⟨s1, e⟩ := x
    cases e with
    | some e => exact h1
    | none => exact hreg _ _ (.seq ..) h1
  have hloop : ∀ n (cs : List Rune) (i : Nat) (refs : List Name) (s : Syntax), P s →
      P (Syntax.charSequenceLoop n i cs refs s).1 := by
    intro n cs
    induction cs with
    | nil => intro i refs s h; exact h
    | cons c cs ih =>
      intro i refs s h
      unfold Syntax.charSequenceLoop
      simp only
      have h1 := hreg s _ (.char (childName n i) false [c] []) h
      generalize s.register (newChar (childName n i) false [c] []) = x at h1
      obtain ⟨s1, e⟩ := x
      cases e with
      | some e => exact h1
      | none => exact ih _ _ _ h1
  cases c with
  | anyChar n ct =>
    simp only [Syntax.call, Syntax.AnyChar]
    split
    · exact h
    · exact hclass ..
  | class_ n ct neg cs rs =>
    simp only [Syntax.call, Syntax.Class]
    split
    · exact h
    · exact hclass ..
  | charSequence n ct cs =>
    simp only [Syntax.call, Syntax.CharSequence]
    split
    · exact h
    · unfold Syntax.charSequence_
      have h1 := hloop n cs 0 [] s h
      generalize Syntax.charSequenceLoop n 0 cs [] s = x at h1
      obtain ⟨s1, e, refs⟩ := x
      cases e with
      | some e => exact h1
      | none => exact hreg _ _ (.seq ..) h1
  | sequence n ct items =>
    simp only [Syntax.call, Syntax.Sequence]
    split
    · exact h
    · exact hreg _ _ (.seq ..) h
  | choice n ct os =>
    simp only [Syntax.call, Syntax.Choice]
    split
    · exact h
    · exact hreg _ _ (.choice ..) h

/-- The root object has the Root bit, unless it is a character. -/
def RootInv (s : Syntax) : Prop :=
  ∀ r, s.root = some r → ∃ d, s.heap[r]? = some d ∧ (d.kind.isChar = true ∨ d.commitType.root = true)

theorem setRoot_root {d : Def} : d.kind.isChar = true ∨
    (d.setCommitType { d.commitType with root := true }).commitType.root = true := by
  unfold Def.setCommitType Def.commitType
  cases hk : d.kind <;> simp [hk, DKind.isChar]

theorem setCommitType_kind (d : Def) (ct : Commit) : (d.setCommitType ct).kind = d.kind := by
  unfold Def.setCommitType
  cases hk : d.kind <;> simp [hk]

theorem RootInv.register {s : Syntax} {d : Def} (h : RootInv s) : RootInv (s.register d).1 := by
  unfold Syntax.register
  split
  · exact h
  · simp only
    have h0 : RootInv { s with heap := s.heap ++ [d] } := by
      intro r hr
      obtain ⟨e, h1, h2⟩ := h r hr
      refine ⟨e, ?_, h2⟩
      simp only
      rw [List.getElem?_append_left (by
        by_cases hl : r < s.heap.length
        · exact hl
        · rw [List.getElem?_eq_none (Nat.le_of_not_lt hl)] at h1; cases h1)]
      exact h1
    split
    · exact h0
    · have h1 : RootInv (Syntax.applyRoot { s with heap := s.heap ++ [d] } s.heap.length).1 := by
        have hp : ({ s with heap := s.heap ++ [d] } : Syntax).heap[s.heap.length]? = some d := by simp
        generalize ({ s with heap := s.heap ++ [d] } : Syntax) = t at h0 hp ⊢
        generalize s.heap.length = p at hp ⊢
        have key : ∀ (g : Heap), (∃ e, g[p]? = some e) →
            ∃ e, (g.update p fun d => d.setCommitType { d.commitType with root := true })[p]? = some e ∧
              (e.kind.isChar = true ∨ e.commitType.root = true) := by
          intro g ⟨e, he⟩
          refine ⟨_, by simp [Heap.update, he]; rfl, ?_⟩
          rw [setCommitType_kind]
          exact setRoot_root
        have key' : ∀ (g : Heap) (r : Ptr) (f : Def → Def), (∃ e, g[p]? = some e) →
            ∃ e, (g.update r f)[p]? = some e := by
          intro g r f ⟨e, he⟩
          simp only [Heap.update, List.getElem?_modify, he]
          exact ⟨_, rfl⟩
        rcases t with ⟨heap, registry, initialized, initFailed, explicitRoot, keywords, root⟩
        unfold Syntax.applyRoot
        simp only at hp ⊢
        generalize (Syntax.commitOf heap p).root = ct
        cases ct <;> cases explicitRoot <;> cases root <;> simp only [Bool.and_true, Bool.and_false,
          Bool.or_true, Bool.or_false, Bool.not_true, Bool.not_false, if_true, if_false, Bool.false_eq_true] <;>
          first
          | exact h0
          | (intro r hr
             simp only [Option.some.injEq] at hr
             subst hr
             first
             | exact key _ ⟨d, hp⟩
             | exact key _ (key' _ _ _ ⟨d, hp⟩))
      generalize hx : Syntax.applyRoot { s with heap := s.heap ++ [d] } s.heap.length = x at h1
      obtain ⟨s1, e⟩ := x
      cases e with
      | some e => exact h1
      | none =>
        simp only
        generalize hs2 : (if (Syntax.commitOf s1.heap s.heap.length).keyword = true then
          { s1 with keywords := s1.keywords ++ [s.heap.length] } else s1) = s2
        have b1 : s2.heap = s1.heap := by rw [← hs2]; split <;> rfl
        have b3 : s2.root = s1.root := by rw [← hs2]; split <;> rfl
        unfold Registry.setDefinition
        rw [b1]
        cases hg : s1.heap[s.heap.length]? with
        | none => intro r hr; simp only [b3] at hr ⊢; exact h1 r hr
        | some e =>
          simp only
          split
          · intro r hr; simp only [b3] at hr ⊢; exact h1 r hr
          · intro r hr
            simp only [b3] at hr ⊢
            obtain ⟨e', g1, g2⟩ := h1 r hr
            simp only at g1
            simp only [Heap.update, List.getElem?_modify, g1]
            split
            · refine ⟨_, rfl, ?_⟩
              simpa [Def.commitType] using g2
            · exact ⟨_, rfl, g2⟩

/-- The root after `Init`: a character (only after failed calls), or not an alias. -/
def RootDone (s : Syntax) : Prop :=
  ∃ r d, s.root = some r ∧ s.heap[r]? = some d ∧ (d.kind.isChar = true ∨ d.commitType.alias = false)

structure HistRoot (s : Syntax) : Prop where
  open_ : s.initialized = false → s.initFailed = false → RootInv s
  init : s.initialized = true → RootDone s

theorem Def.sk_commitType {d e : Def} (h : d.sk = e.sk) : d.commitType = e.commitType := by
  have h1 := Def.sk_isChar h
  have h2 := Def.sk_commit h
  unfold Def.commitType
  cases hd : d.kind <;> cases he : e.kind <;> simp_all [DKind.isChar]

theorem prepare_root {s s1 : Syntax} {root r1 : Ptr} {d : Def} (hs : WeakInv s) (hd : s.heap[root]? = some d)
    (hr : d.kind.isChar = true ∨ d.commitType.alias = false) (h : s.prepare root = .ok (s1, r1)) :
    ∃ d1, s1.heap[r1]? = some d1 ∧ (d1.kind.isChar = true ∨ d1.commitType.alias = false) := by
  have hlen : s.preHeap.length = s.heap.length := foldl_update_length ..
  unfold Syntax.prepare at h
  simp only at h
  rw [show s.registry.definitions.foldl (fun h p => h.update p Def.initRanges) s.heap = s.preHeap from rfl] at h
  split at h
  · obtain ⟨⟨h4, defs, r⟩, ha, h⟩ := Res.bind_eq_ok h
    obtain ⟨h1, defs2, h3, r0, d, A⟩ := (apply_spec hs.nodup (fun p hp => by rw [hlen]; exact hs.defs_lt p hp)).of_eq ha
    have hheap := A.heap; have hdefs := A.defs_; have hr := A.root_
    simp only at hheap hdefs hr
    simp only [Res.ok.injEq, Prod.mk.injEq] at h
    obtain ⟨rfl, rfl⟩ := h
    simp only
    rw [hheap, hr]
    have W := newRegistry_weak (h3.update r0 (Def.wsBody d.name) ++ [wsRootDef d.name]) defs
    generalize Registry.newRegistry (h3.update r0 (Def.wsBody d.name) ++ [wsRootDef d.name]) defs = x at W
    obtain ⟨reg, h5⟩ := x
    have hl5 : h5.length = h3.length + 1 := by
      have := W.len
      simpa [Heap.length_update] using this
    have hlt : h3.length < h5.length := by rw [hl5]; exact Nat.lt_succ_self _
    refine ⟨h5[h3.length], List.getElem?_eq_getElem hlt, ?_⟩
    obtain ⟨e, i, g1, g2⟩ := W.same _ _ (List.getElem?_eq_getElem hlt)
    rw [g2]
    have : e = wsRootDef d.name := by
      rw [List.getElem?_append_right (by rw [Heap.length_update]; exact Nat.le_refl _)] at g1
      simp [Heap.length_update] at g1
      exact g1.symm
    subst this
    right; rfl
  · simp only [Res.ok.injEq, Prod.mk.injEq] at h
    obtain ⟨rfl, rfl⟩ := h
    simp only [Syntax.preHeap]
    rw [foldl_update _ _ _ hs.nodup root]
    split
    · rw [hd]
      refine ⟨_, rfl, ?_⟩
      rw [initRanges_commitType, initRanges_isChar]
      exact hr
    · exact ⟨d, hd, hr⟩

theorem Init_root {s s' : Syntax} {e : Option SynErr} (hs : HistInv s) (hr : HistRoot s)
    (h : s.Init = .ok (s', e)) : HistRoot s' := by
  rw [Syntax.Init_eq] at h
  by_cases hf : s.initFailed = true
  · rw [if_pos hf] at h; cases h; exact hr
  · rw [if_neg hf] at h
    by_cases hi : s.initialized = true
    · rw [if_pos hi] at h; cases h; exact hr
    · rw [if_neg hi] at h
      have hw := hs.weak (by simpa using hi) (by simpa using hf)
      have hro := hr.open_ (by simpa using hi) (by simpa using hf)
      cases hroot : s.root with
      | none => rw [hroot] at h; cases h; exact hr
      | some root =>
        rw [hroot] at h
        simp only at h
        cases hd : s.heap[root]? with
        | none => rw [hd] at h; cases h
        | some d =>
          rw [hd] at h
          simp only at h
          split at h
          · cases h; exact hr
          · rename_i hinc
            obtain ⟨⟨s1, r1⟩, hp, h⟩ := Res.bind_eq_ok h
            simp only at h
            obtain ⟨d', k1, k2⟩ := hro root hroot
            rw [hd] at k1
            obtain rfl := Option.some.inj k1
            have hal : d.kind.isChar = true ∨ d.commitType.alias = false := by
              rcases k2 with k2 | k2
              · exact Or.inl k2
              · right
                cases ha : d.commitType.alias
                · rfl
                · simp [Commit.incompatible, ha, k2] at hinc
            obtain ⟨d1, g1, g2⟩ := prepare_root hw hd hal hp
            have hpw := (prepare_weak hw hroot).of_eq hp
            have hfi := finishInit_spec hpw.1
            generalize hx' : s1.finishInit r1 = x at hfi h
            cases h
            simp only [Res.Spec] at hfi
            cases e with
            | some e =>
              obtain ⟨k1, k2⟩ := finishInit_error hx'
              have := hpw.2.2.2.1
              simp only at this
              exact ⟨fun _ h => by simp_all, fun h => by simp_all⟩
            | none =>
              have hx : InitOK s1 r1 s' := hfi
              refine ⟨fun h => by rw [hx.same] at h; simp at h, fun _ => ?_⟩
              obtain ⟨d2, j1, j2⟩ := hx.sk.to g1
              refine ⟨r1, d2, by rw [hx.same]; exact hpw.2.1, j1, ?_⟩
              rw [Def.sk_isChar j2, Def.sk_commitType j2]
              exact g2

theorem History.root {s : Syntax} (h : History s) : HistRoot s := by
  induction h with
  | empty => exact ⟨fun _ _ r hr => by simp at hr, fun h => by simp at h⟩
  | call c h ih =>
    rename_i s
    obtain ⟨k1, k2, k3, k4⟩ := call_keeps s c
    refine ⟨fun a b => ?_, fun a => by rw [k1] at a; rw [k4 a]; exact ih.init a⟩
    exact call_preserves (P := RootInv) (fun _ _ _ h => h.register) s c
      (ih.open_ (by rw [← k1]; exact a) (by rw [← k2]; exact b))
  | define c h ih =>
    rename_i s
    obtain ⟨k1, k2, k3, k4⟩ := keeps_registers.internalCall s c
    refine ⟨fun a b => ?_, fun a => by rw [k1] at a; rw [k4 a]; exact ih.init a⟩
    have hK : Registers fun s s' => RootInv s → RootInv s' := ⟨fun _ h => h, fun h1 h2 h => h2 (h1 h), fun _ _ _ h => h.register⟩
    exact hK.internalCall s c (ih.open_ (by rw [← k1]; exact a) (by rw [← k2]; exact b))
  | init h hi ih => exact Init_root h.inv ih hi
  | parse h hp ih =>
    obtain ⟨e, hi⟩ := Parse_state hp
    exact Init_root h.inv ih hi
  | read h hr ih =>
    obtain ⟨k1, k2, k3, k4⟩ := keeps_registers.readSyntax hr
    refine ⟨fun a b => ?_, fun a => by rw [k1] at a; rw [k4 a]; exact ih.init a⟩
    have hK : Registers fun s s' => RootInv s → RootInv s' := ⟨fun _ h => h, fun h1 h2 h => h2 (h1 h), fun _ _ _ h => h.register⟩
    exact hK.readSyntax hr (ih.open_ (by rw [← k1]; exact a) (by rw [← k2]; exact b))

end Treerack
