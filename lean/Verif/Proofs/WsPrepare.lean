import Verif.Proofs.WsApply

/-
The first part of `Init`, for syntaxes with whitespace definitions.
-/

namespace Treerack
open Whitespace Spec

theorem withAlias_name (d : Def) : d.withAlias.name = d.name := by
  unfold Def.withAlias Def.setCommitType; split <;> rfl
theorem withAlias_kind (d : Def) : d.withAlias.kind = d.kind := by
  unfold Def.withAlias Def.setCommitType; split <;> rfl
theorem withAlias_commitType (d : Def) : d.withAlias.commitType = { d.commitType with alias := true } := by
  unfold Def.withAlias Def.setCommitType Def.commitType; cases hk : d.kind <;> simp [hk]

theorem splitHeap_get : ∀ (ps : List Ptr) (h : Heap), ps.Nodup → ∀ q : Ptr,
    (ps.foldl (fun h p => if (Syntax.commitOf h p).whitespace then
       h.update p fun d => d.setCommitType { d.commitType with alias := true } else h) h)[q]? =
    if q ∈ ps ∧ (Syntax.commitOf h q).whitespace = true then (h[q]?).map Def.withAlias else h[q]?
  | [], h, _, q => by simp
  | p :: ps, h, hn, q => by
    rw [List.nodup_cons] at hn
    rw [List.foldl_cons, splitHeap_get ps _ hn.2]
    by_cases hw : (Syntax.commitOf h p).whitespace = true
    · rw [if_pos hw]
      have hget : ∀ q : Ptr, (h.update p fun d => d.setCommitType { d.commitType with alias := true })[q]? =
          if p = q then (h[q]?).map Def.withAlias else h[q]? := fun q => Heap.getElem?_update ..
      by_cases hq : p = q
      · subst hq
        simp [hn.1, hw, hget]
      · have hc : Syntax.commitOf (h.update p fun d => d.setCommitType { d.commitType with alias := true }) q =
            Syntax.commitOf h q := by unfold Syntax.commitOf; rw [hget, if_neg hq]
        rw [hc, hget, if_neg hq]
        simp [Ne.symm hq]
    · rw [if_neg hw]
      by_cases hq : p = q
      · subst hq; simp [hn.1, hw]
      · simp [Ne.symm hq]

theorem splitHeap_length : ∀ (ps : List Ptr) (h : Heap),
    (ps.foldl (fun h p => if (Syntax.commitOf h p).whitespace then
       h.update p fun d => d.setCommitType { d.commitType with alias := true } else h) h).length = h.length
  | [], _ => rfl
  | p :: ps, h => by
    rw [List.foldl_cons, splitHeap_length ps]
    split
    · rw [Heap.length_update]
    · rfl

/-- The definitions with and without the Whitespace flag. -/
def wsPart (h : Heap) (defs : List Ptr) : List Ptr := defs.filter fun p => (Syntax.commitOf h p).whitespace
def nonWsPart (h : Heap) (defs : List Ptr) : List Ptr :=
  defs.filter fun p => !(Syntax.commitOf h p).whitespace

/-- The renamed root. -/
def Def.wsBody (n : Name) (d : Def) : Def :=
  let d := { d with name := patchName [n, runes "wsroot"] }
  let d := d.setCommitType { d.commitType with root := false }
  d.setCommitType { d.commitType with alias := true }

theorem wsBody_commitType (n : Name) (d : Def) :
    (d.wsBody n).commitType = if d.kind.isChar then { alias := true }
      else { d.commitType with root := false, alias := true } := by
  unfold Def.wsBody Def.setCommitType Def.commitType
  cases hk : d.kind <;> simp [hk, DKind.isChar]

/-- The new root. -/
def wsRootDef (n : Name) : Def :=
  newSequence n { root := true } [wsItem, { name := patchName [n, runes "wsroot"], min := 1, max := 1 }, wsItem]

/-- The steps of `apply`. -/
structure Applied (h : Heap) (defs : List Ptr) (h1 : Heap) (defs2 : List Ptr) (h3 : Heap) (r : Ptr) (d : Def)
    (x : Heap × List Ptr × Ptr) : Prop where
  len1 : h1.length = h.length
  get1 : ∀ q : Ptr, h1[q]? = if q ∈ defs ∧ (Syntax.commitOf h q).whitespace = true then
    (h[q]?).map Def.withAlias else h[q]?
  applied : ApplyToDefs (nonWsPart h defs) (h1 ++ [mergeDefs h1 (wsPart h defs)]) (defs2, h3)
  run : applyToDefs (nonWsPart h defs) (h1 ++ [mergeDefs h1 (wsPart h defs)]) = (defs2, h3)
  rootEq : (defs2.filter fun p => (Syntax.commitOf h3 p).root).getLast? = some r
  rootDef : h3[r]? = some d
  heap : x.1 = h3.update r (Def.wsBody d.name) ++ [wsRootDef d.name]
  defs_ : x.2.1 = (defs2.filter fun p => !(Syntax.commitOf h3 p).root) ++ wsPart h defs ++ [h.length, r, h3.length]
  root_ : x.2.2 = h3.length

theorem apply_spec {h : Heap} {defs : List Ptr} (hn : defs.Nodup) (hl : ∀ p ∈ defs, p < h.length) :
    (apply h defs).Spec (∀ q ∈ (applyToDefs (nonWsPart h defs) ((splitDefs h defs).2.2 ++
        [mergeDefs (splitDefs h defs).2.2 (wsPart h defs)])).1,
        (Syntax.commitOf (applyToDefs (nonWsPart h defs) ((splitDefs h defs).2.2 ++
        [mergeDefs (splitDefs h defs).2.2 (wsPart h defs)])).2 q).root = false) False
      (fun x => ∃ h1 defs2 h3 r d, Applied h defs h1 defs2 h3 r d x) := by
  have hlen : (splitDefs h defs).2.2.length = h.length := splitHeap_length defs h
  have happ := applyToDefs_spec (nonWsPart h defs) ((splitDefs h defs).2.2 ++
        [mergeDefs (splitDefs h defs).2.2 (wsPart h defs)]) (by
      intro p hp
      rw [List.length_append, hlen]
      exact Nat.lt_of_lt_of_le (hl p (List.mem_filter.1 hp).1) (Nat.le_add_right _ _))
  unfold apply
  simp only
  rw [show (splitDefs h defs).2.1 = nonWsPart h defs from rfl,
    show (splitDefs h defs).1 = wsPart h defs from rfl]
  generalize hx : applyToDefs (nonWsPart h defs) ((splitDefs h defs).2.2 ++
        [mergeDefs (splitDefs h defs).2.2 (wsPart h defs)]) = y at happ
  obtain ⟨defs2, h3⟩ := y
  simp only [splitRoot]
  cases hr : (defs2.filter fun p => (Syntax.commitOf h3 p).root).getLast? with
  | none =>
    simp only [Res.Spec]
    intro q hq
    rw [List.getLast?_eq_none_iff, List.filter_eq_nil_iff] at hr
    simpa using hr q hq
  | some r =>
    have hrm := List.mem_of_getLast? hr
    have hr2 : (Syntax.commitOf h3 r).root = true := by simpa using (List.mem_filter.1 hrm).2
    obtain ⟨d, hd⟩ : ∃ d, h3[r]? = some d := by
      cases hd : h3[r]? with
      | none => simp [Syntax.commitOf, hd] at hr2
      | some d => exact ⟨d, rfl⟩
    simp only [hd, Res.Spec.ok_iff, applyToRoot]
    refine ⟨_, defs2, h3, r, d, hlen, fun q => splitHeap_get defs h hn q, happ, hx, hr, hd, rfl, ?_, ?_⟩
    · simp only [Heap.length_update, hlen]
    · simp only [Heap.length_update]

/-! ### All histories -/

/-- What holds after any definition calls. -/
structure WeakInv (s : Syntax) : Prop where
  raw : ∀ (p : Ptr) d, s.heap[p]? = some d →
    d.validated = false ∧ d.initialized = false ∧ d.gens = [] ∧ d.kind.Raw
  nodup : s.registry.definitions.Nodup
  defs_lt : ∀ p ∈ s.registry.definitions, p < s.heap.length
  lookup_mem : ∀ n p, s.registry.lookup n = some p → p ∈ s.registry.definitions
  keywords_lt : ∀ k ∈ s.keywords, k < s.heap.length
  root_lt : ∀ r, s.root = some r → r < s.heap.length
  kwflags : ∀ (k : Ptr) d, k ∈ s.keywords → s.heap[k]? = some d → d.commitType.noKeyword = false

theorem SInv.weak {s : Syntax} (hs : SInv s) : WeakInv s :=
  ⟨hs.raw, hs.nodup, fun _ => hs.mem_lt, fun n p h => ((hs.lookup n p).1 h).1,
    fun k h => hs.mem_lt ((hs.keywords k).1 h).1, hs.root_lt, fun k d hk hd => by
      obtain ⟨h1, d', h2, h3, h4⟩ := (hs.keywords k).1 hk
      rw [hd] at h2
      obtain rfl := Option.some.inj h2
      rw [commitType_notChar h3]
      exact Commit.keyword_noKeyword (hs.compat k d h1 hd h3) h4⟩

def Def.IsFresh (d : Def) : Prop :=
  d.validated = false ∧ d.initialized = false ∧ d.gens = [] ∧ d.kind.Fresh

theorem Def.IsFresh.setCommitType {d : Def} (h : d.IsFresh) (ct : Commit) : (d.setCommitType ct).IsFresh := by
  unfold Def.setCommitType; split <;> exact h

theorem Def.IsFresh.newSequence (n : Name) (ct : Commit) (items : List SeqItem) :
    (newSequence n ct items).IsFresh := ⟨rfl, rfl, rfl, rfl, Or.inl rfl⟩

theorem Def.IsFresh.newChoice (n : Name) (ct : Commit) (os : List Name) :
    (newChoice n ct os).IsFresh := ⟨rfl, rfl, rfl, rfl⟩

theorem applyToItems_fresh (n : Name) : ∀ (items : List SeqItem) (i : Nat) (d : Def),
    d ∈ (applyToItems n i items).1 → d.IsFresh
  | [], _, _, h => by simp [applyToItems] at h
  | item :: items, i, d, h => by
    simp only [applyToItems, List.mem_append] at h
    rcases h with h | h
    · unfold applyToItem at h
      simp only at h
      split at h
      · simp at h
      · split at h
        · simp only [List.mem_singleton] at h
          subst h; exact .newSequence ..
        · simp only [List.mem_cons, List.not_mem_nil, or_false] at h
          rcases h with rfl | rfl <;> exact .newSequence ..
    · exact applyToItems_fresh n items (i + 1) d h

theorem alloc_fresh {h : Heap} {ds : List Def} (hf : ∀ (p : Ptr) d, h[p]? = some d → d.IsFresh)
    (hd : ∀ d ∈ ds, d.IsFresh) : ∀ (p : Ptr) d, (h ++ ds)[p]? = some d → d.IsFresh := by
  intro p d h1
  rw [List.getElem?_append] at h1
  split at h1
  · exact hf p d h1
  · exact hd d (List.mem_of_getElem? h1)

theorem applyToDefs_fresh : ∀ (ps : List Ptr) (h : Heap), (∀ (p : Ptr) d, h[p]? = some d → d.IsFresh) →
    ∀ (p : Ptr) d, (applyToDefs ps h).2[p]? = some d → d.IsFresh
  | [], h, hf, p, d, hd => hf p d hd
  | q :: ps, h, hf, p, d, hd => by
    rw [applyToDefs] at hd
    simp only at hd
    cases hq : h[q]? with
    | none => rw [hq] at hd; exact applyToDefs_fresh ps h hf p d hd
    | some e =>
      rw [hq] at hd
      simp only at hd
      split at hd
      · exact applyToDefs_fresh ps h hf p d hd
      · split at hd
        · refine applyToDefs_fresh ps _ (alloc_fresh hf ?_) p d hd
          intro d' hd'
          simp only [applyToSeq, List.mem_append, List.mem_singleton] at hd'
          rcases hd' with hd' | rfl
          · exact applyToItems_fresh _ _ _ _ hd'
          · exact .newSequence ..
        · exact applyToDefs_fresh ps h hf p d hd

theorem Def.IsFresh.rename {d : Def} (h : d.IsFresh) (n : Name) : ({ d with name := n } : Def).IsFresh := h

/-- Rebuilding the registry, without any condition on the names. -/
structure RegWeak (h : Heap) (defs : List Ptr) (x : Registry × Heap) : Prop where
  len : x.2.length = h.length
  same : ∀ (q : Ptr) d, x.2[q]? = some d → ∃ e i, h[q]? = some e ∧ d = { e with id := i }
  lookup : ∀ n p, x.1.lookup n = some p → p ∈ defs

theorem newRegistry_weak (h : Heap) (defs : List Ptr) : RegWeak h defs (Registry.newRegistry h defs) := by
  unfold Registry.newRegistry
  have key : ∀ (ps : List Ptr) (rh : Registry × Heap), (∀ p ∈ ps, p ∈ defs) → RegWeak h defs rh →
      RegWeak h defs (ps.foldl (fun (rh : Registry × Heap) p =>
        ((rh.1.setDefinition rh.2 p).1, (rh.1.setDefinition rh.2 p).2.1)) rh) := by
    intro ps
    induction ps with
    | nil => intro rh _ h; exact h
    | cons p ps ih =>
      intro rh hm hw
      rw [List.foldl_cons]
      refine ih _ (fun q hq => hm q (by simp [hq])) ?_
      unfold Registry.setDefinition
      cases hp : rh.2[p]? with
      | none => exact hw
      | some d =>
        simp only
        cases hl : rh.1.lookup d.name with
        | some _ => exact hw
        | none =>
          simp only
          refine ⟨by simp [Heap.length_update, hw.len], ?_, ?_⟩
          · intro q e he
            rw [Heap.getElem?_update] at he
            split at he
            · obtain ⟨e0, h1, rfl⟩ := Option.map_eq_some_iff.1 he
              obtain ⟨e1, i, h2, rfl⟩ := hw.same q e0 h1
              exact ⟨e1, _, h2, rfl⟩
            · exact hw.same q e he
          · intro n q hq
            unfold Registry.lookup at hq
            simp only [List.lookup_cons] at hq
            split at hq
            · cases hq; exact hm p (by simp)
            · exact hw.lookup n q hq
  exact key defs ({}, h) (fun _ h => h) ⟨rfl, fun q d hd => ⟨d, d.id, hd, rfl⟩, fun n p h => by
    simp [Registry.lookup] at h⟩

theorem WeakInv.preFresh {s : Syntax} (hs : WeakInv s) (q : Ptr) (d : Def) (h : s.preHeap[q]? = some d) :
    d.IsFresh := by
  unfold Syntax.preHeap at h
  rw [foldl_update _ _ _ hs.nodup q] at h
  split at h
  · obtain ⟨e, h1, rfl⟩ := Option.map_eq_some_iff.1 h
    obtain ⟨r1, r2, r3, r4⟩ := hs.raw q e h1
    unfold Def.IsFresh
    rw [initRanges_validated, initRanges_initialized, initRanges_gens]
    exact ⟨r1, r2, r3, initRanges_fresh r4⟩
  · obtain ⟨r1, r2, r3, r4⟩ := hs.raw q d h
    exact ⟨r1, r2, r3, raw_fresh r4⟩

theorem prepare_weak {s : Syntax} {root : Ptr} (hs : WeakInv s) (hroot : s.root = some root) :
    (s.prepare root).Spec (s.root = some root) False (fun x => PrepBase x.1 x.2 ∧ x.1.root = some x.2 ∧
      x.1.initFailed = s.initFailed ∧ x.1.initialized = s.initialized ∧
      ∀ (k : Ptr) d, k ∈ x.1.keywords → x.1.heap[k]? = some d → d.commitType.noKeyword = false) := by
  have hkwpre : ∀ (k : Ptr) d, k ∈ s.keywords → s.preHeap[k]? = some d → d.commitType.noKeyword = false := by
    intro k d hk hd
    unfold Syntax.preHeap at hd
    rw [foldl_update _ _ _ hs.nodup k] at hd
    split at hd
    · obtain ⟨e, h1, rfl⟩ := Option.map_eq_some_iff.1 hd
      rw [initRanges_commitType]
      exact hs.kwflags k e hk h1
    · exact hs.kwflags k d hk hd
  have hlen : s.preHeap.length = s.heap.length := foldl_update_length ..
  unfold Syntax.prepare
  simp only
  change Res.Spec (if hasWhitespace s.preHeap s.registry.definitions = true then _ else _) _ _ _
  split
  · rw [show s.registry.definitions.foldl (fun h p => h.update p Def.initRanges) s.heap = s.preHeap from rfl]
    refine Res.Spec.bind ((apply_spec hs.nodup (fun p hp => by rw [hlen]; exact hs.defs_lt p hp)).mono
      (fun _ => hroot) id (fun _ h => h)) ?_
    rintro ⟨h4, defs, r⟩ ⟨h1, defs2, h3, r0, d, A⟩
    have hheap := A.heap; have hdefs := A.defs_; have hr := A.root_
    simp only at hheap hdefs hr
    subst hheap hdefs hr
    simp only [Res.Spec.ok_iff]
    have W := newRegistry_weak (h3.update r0 (Def.wsBody d.name) ++ [wsRootDef d.name])
      ((defs2.filter fun p => !(Syntax.commitOf h3 p).root) ++ wsPart s.preHeap s.registry.definitions ++
        [s.preHeap.length, r0, h3.length])
    generalize Registry.newRegistry (h3.update r0 (Def.wsBody d.name) ++ [wsRootDef d.name])
      ((defs2.filter fun p => !(Syntax.commitOf h3 p).root) ++ wsPart s.preHeap s.registry.definitions ++
        [s.preHeap.length, r0, h3.length]) = x at W
    obtain ⟨reg, h5⟩ := x
    obtain ⟨e, hext⟩ := A.applied.ext
    simp only at hext
    have hl3 : s.heap.length < h3.length := by
      rw [hext]; simp only [List.length_append, A.len1, hlen, List.length_singleton]; omega
    have hl5 : h5.length = h3.length + 1 := by
      have := W.len
      simpa [Heap.length_update] using this
    have hfr1 : ∀ (p : Ptr) d, h1[p]? = some d → d.IsFresh := by
      intro p d hd
      rw [A.get1] at hd
      split at hd
      · obtain ⟨e, h1, rfl⟩ := Option.map_eq_some_iff.1 hd
        exact Def.IsFresh.setCommitType (hs.preFresh p e h1) _
      · exact hs.preFresh p d hd
    have hfr3 : ∀ (p : Ptr) d, h3[p]? = some d → d.IsFresh := by
      have := applyToDefs_fresh (nonWsPart s.preHeap s.registry.definitions)
        (h1 ++ [mergeDefs h1 (wsPart s.preHeap s.registry.definitions)])
        (alloc_fresh hfr1 (by intro d hd; rw [List.mem_singleton] at hd; subst hd; exact .newChoice ..))
      rw [A.run] at this
      exact this
    refine ⟨⟨?_, ?_, ?_, ?_⟩, trivial, trivial, trivial, ?_⟩
    · intro n p h
      have hm := W.lookup n p h
      show p < h5.length
      rw [hl5]
      simp only [List.append_assoc, List.mem_append, List.mem_filter, List.mem_cons, List.not_mem_nil,
        or_false, wsPart] at hm
      rcases hm with ⟨hm, -⟩ | ⟨hm, -⟩ | hm | hm | hm
      · have h2 : h3[p]? ∈ defs2.map (fun q => h3[q]?) := List.mem_map.2 ⟨p, hm, rfl⟩
        have := A.applied.get
        simp only at this
        rw [this] at h2
        obtain ⟨d', -, hd'⟩ := List.mem_map.1 h2
        have := (List.getElem?_eq_some_iff.1 hd'.symm).1
        exact Nat.lt_succ_of_lt this
      · exact Nat.lt_succ_of_lt (Nat.lt_trans (hs.defs_lt p hm) hl3)
      · rw [hm, hlen]; exact Nat.lt_succ_of_lt hl3
      · rw [hm]; exact Nat.lt_succ_of_lt (List.getElem?_eq_some_iff.1 A.rootDef).1
      · rw [hm]; exact Nat.lt_succ_self _
    · intro k h
      show k < h5.length
      rw [hl5]
      exact Nat.lt_succ_of_lt (Nat.lt_trans (hs.keywords_lt k h) hl3)
    · show h3.length < h5.length
      rw [hl5]; exact Nat.lt_succ_self _
    · intro p d' hd'
      obtain ⟨e, i, h6, rfl⟩ := W.same p d' hd'
      rw [List.getElem?_append] at h6
      have : e.IsFresh := by
        split at h6
        · rw [Heap.getElem?_update] at h6
          split at h6
          · obtain ⟨e0, h7, rfl⟩ := Option.map_eq_some_iff.1 h6
            exact (((hfr3 p e0 h7).rename _).setCommitType _).setCommitType _
          · exact hfr3 p e h6
        · have := List.mem_of_getElem? h6
          rw [List.mem_singleton] at this
          subst this; exact .newSequence ..
      exact this
    · intro k d' hk hd'
      have hkl := hs.keywords_lt k hk
      obtain ⟨e', i, h6, rfl⟩ := W.same k d' hd'
      show e'.commitType.noKeyword = false
      have h3l : k < h3.length := Nat.lt_trans hkl hl3
      rw [List.getElem?_append_left (by rw [Heap.length_update]; exact h3l)] at h6
      have hold : ∀ e0, h3[k]? = some e0 → e0.commitType.noKeyword = false := by
        intro e0 he0
        rw [hext, List.getElem?_append_left (by
          simp only [List.length_append, A.len1, hlen, List.length_singleton]
          exact Nat.lt_succ_of_lt hkl), List.getElem?_append_left (by
          rw [A.len1, hlen]; exact hkl), A.get1] at he0
        split at he0
        · obtain ⟨e1, h8, rfl⟩ := Option.map_eq_some_iff.1 he0
          rw [withAlias_commitType]
          exact hkwpre k e1 hk h8
        · exact hkwpre k e0 hk he0
      rw [Heap.getElem?_update] at h6
      split at h6
      · obtain ⟨e0, h7, rfl⟩ := Option.map_eq_some_iff.1 h6
        rw [wsBody_commitType]
        split
        · rfl
        · exact hold e0 h7
      · exact hold e' h6
  · simp only [Res.Spec.ok_iff]
    refine ⟨⟨?_, ?_, ?_, ?_⟩, hroot, trivial, trivial, hkwpre⟩
    · intro n p h
      exact Nat.lt_of_lt_of_eq (hs.defs_lt p (hs.lookup_mem n p h)) hlen.symm
    · intro k h
      exact Nat.lt_of_lt_of_eq (hs.keywords_lt k h) hlen.symm
    · exact Nat.lt_of_lt_of_eq (hs.root_lt root hroot) hlen.symm
    · exact hs.preFresh

end Treerack
