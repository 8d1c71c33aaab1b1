import Verif.Proofs.GoNames
import Verif.Proofs.Root
import Verif.Proofs.Language

/-
The names of the nodes: those of the definitions that are neither aliases nor whitespace, for every sequence of calls.
-/

namespace Treerack
open Spec Whitespace

/-! ### The nodes that are built -/

/-- The names of the node and of the nodes below are fine. -/
def NodesFine (P : Name → Prop) (n : Node) : Prop := ∀ m, Sub m n → P m.name

theorem NodesFine.mk {P : Name → Prop} {name : Name} {i j : Nat} {toks : List Rune} {ns : List Node} (h : P name)
    (hns : ∀ n ∈ ns, NodesFine P n) : NodesFine P (Node.mk name i j toks ns) := by
  intro m hm
  cases hm with
  | refl => exact h
  | child hk hs => exact hns _ hk _ hs

section
variable {env : Env} {P : Name → Prop}

theorem seqBuildLoop_fine {rec : Ptr → Ctx → Res (Option (List Node) × Ctx)}
    (hrec : ∀ p c ns c', rec p c = .ok (some ns, c') → ∀ n ∈ ns, NodesFine P n) :
    ∀ (k : Nat) (items : List (Ptr × (Int × Int))) (count : Nat) (nodes : List Node) (c : Ctx) (ns : List Node) (c' : Ctx),
      (∀ n ∈ nodes, NodesFine P n) → seqBuildLoop rec k items count nodes c = .ok (ns, c') → ∀ n ∈ ns, NodesFine P n
  | 0, _, _, _, _, _, _, _, h => by cases h
  | k + 1, [], _, nodes, c, ns, c', hn, h => by
    cases h
    exact hn
  | k + 1, (item, (mn, mx)) :: rest, count, nodes, c, ns, c', hn, h => by
    simp only [seqBuildLoop] at h
    obtain ⟨⟨x, c1⟩, h1, h⟩ := Res.bind_eq_ok h
    cases x with
    | none => exact seqBuildLoop_fine hrec k _ _ _ _ _ _ hn h
    | some x =>
      have hx := hrec _ _ _ _ h1
      simp only at h
      split at h
      · have hn' : ∀ n ∈ nodes ++ x, NodesFine P n := by
          intro n hm
          rcases List.mem_append.1 hm with hm | hm
          · exact hn n hm
          · exact hx n hm
        split at h
        · exact seqBuildLoop_fine hrec k _ _ _ _ _ _ hn' h
        · exact seqBuildLoop_fine hrec k _ _ _ _ _ _ hn' h
      · refine seqBuildLoop_fine hrec k _ _ _ _ _ _ ?_ h
        intro n hm
        rcases List.mem_append.1 hm with hm | hm
        · exact hn n hm
        · obtain ⟨l, h2, h3⟩ := List.mem_flatten.1 hm
          rw [List.eq_of_mem_replicate h2] at h3
          exact hx n h3

theorem build_fine (hP : ∀ d ∈ env.defs, d.kind.isChar = false → d.commit.alias = false → P d.name) :
    ∀ (k : Nat) (p : Ptr) (c : Ctx) (ns : List Node) (c' : Ctx), build env k p c = .ok (some ns, c') →
      ∀ n ∈ ns, NodesFine P n
  | 0, _, _, _, _, h => by cases h
  | k + 1, p, c, ns, c', h => by
    unfold build at h
    cases hd : env.defs[p]? with
    | none => rw [hd] at h; cases h
    | some d =>
      rw [hd] at h
      simp only at h
      have hm := hP d (List.mem_of_getElem? hd)
      cases hk : d.kind with
      | char neg cs rs => rw [hk] at h; cases h
      | choice options =>
        rw [hk] at h
        have hm := hm (by rw [hk]; rfl)
        simp only [choiceBuild] at h
        split at h
        · cases h
        · split at h
          · cases h
          · obtain ⟨r, -, h⟩ := Res.bind_eq_ok h
            obtain ⟨o, -, h⟩ := Res.bind_eq_ok h
            cases o with
            | none => cases h
            | some o =>
              simp only at h
              obtain ⟨⟨x, c1⟩, h1, h⟩ := Res.bind_eq_ok h
              obtain ⟨r2, -, h⟩ := Res.bind_eq_ok h
              have hx : ∀ n ∈ x.getD [], NodesFine P n := by
                cases x with
                | none => intro n hn; cases hn
                | some x => exact build_fine hP k _ _ _ _ h1
              simp only at h
              split at h
              · cases h
                exact hx
              · rename_i ha
                cases h
                intro n hn
                rw [List.mem_singleton.1 hn]
                exact .mk (hm (by simpa using ha)) hx
      | seq items ranges allChars =>
        rw [hk] at h
        have hm := hm (by rw [hk]; rfl)
        simp only [seqBuild] at h
        split at h
        · cases h
        · split at h
          · split at h
            · cases h
              intro n hn
              cases hn
            · rename_i ha
              cases h
              intro n hn
              rw [List.mem_singleton.1 hn]
              exact .mk (hm (by simpa using ha)) (by intro n hn; cases hn)
          · split at h
            · cases h
            · obtain ⟨r, -, h⟩ := Res.bind_eq_ok h
              obtain ⟨⟨x, c1⟩, h1, h⟩ := Res.bind_eq_ok h
              obtain ⟨r2, -, h⟩ := Res.bind_eq_ok h
              have hx := seqBuildLoop_fine (build_fine hP k) _ _ _ _ _ _ _ (by intro n hn; cases hn) h1
              simp only at h
              split at h
              · cases h
                exact hx
              · rename_i ha
                cases h
                intro n hn
                rw [List.mem_singleton.1 hn]
                exact .mk (hm (by simpa using ha)) hx

/-- Every node has the name of a definition that is not an alias. -/
theorem parseInput_fine (hP : ∀ d ∈ env.defs, d.kind.isChar = false → d.commit.alias = false → P d.name)
    {fuel : Nat} {root : Ptr} {input : List Rune} {rend : Option Nat} {t : Node}
    (h : parseInput env fuel root input rend = .ok (.ok t)) : NodesFine P t := by
  unfold parseInput at h
  obtain ⟨c, -, h⟩ := Res.bind_eq_ok h
  split at h
  · cases h
  · obtain ⟨⟨e, c1⟩, -, h⟩ := Res.bind_eq_ok h
    cases e with
    | some e => cases h
    | none =>
      simp only at h
      obtain ⟨⟨x, c2⟩, h1, h⟩ := Res.bind_eq_ok h
      cases x with
      | none => cases h
      | some x =>
        cases x with
        | nil => cases h
        | cons n ns =>
          cases h
          exact build_fine hP _ _ _ _ _ h1 _ (by simp)

end

/-! ### The definitions of accepted calls -/

/-- All the objects are registered. -/
def Syntax.AllIn (s : Syntax) : Prop := ∀ p : Ptr, p < s.heap.length → p ∈ s.registry.definitions

theorem register_allIn {s s' : Syntax} {d : Def} (hb : Built s) (hs : s.AllIn) (h : s.register d = (s', none)) : s'.AllIn := by
  have hr := register_spec hb.inv.root_lt h
  intro p hp
  rw [hr.registry]
  simp only [List.mem_append, List.mem_singleton]
  rw [hr.len] at hp
  rcases Nat.lt_or_eq_of_le (Nat.le_of_lt_succ hp) with hp | hp
  · exact .inl (hs p hp)
  · exact .inr hp

theorem class_allIn {s s' : Syntax} {name : Name} {ct : Commit} {neg : Bool} {cs : List Rune}
    {rs : List (Rune × Rune)} (hb : Built s) (hs : s.AllIn) (h : s.class_ name ct neg cs rs = (s', none)) : s'.AllIn := by
  unfold Syntax.class_ at h
  simp only at h
  split at h
  · simp at h
  · rename_i s1 hreg
    exact register_allIn (Registered.addsChars hb hreg).built (register_allIn hb hs hreg) h

theorem charSequenceLoop_allIn {name : Name} : ∀ (cs : List Rune) (i : Nat) (refs refs' : List Name)
    (s s' : Syntax), Built s → s.AllIn → Syntax.charSequenceLoop name i cs refs s = (s', none, refs') → s'.AllIn
  | [], i, refs, refs', s, s', hb, hs, h => by
    simp only [Syntax.charSequenceLoop, Prod.mk.injEq] at h
    obtain ⟨rfl, -, rfl⟩ := h
    exact hs
  | c :: cs, i, refs, refs', s, s', hb, hs, h => by
    simp only [Syntax.charSequenceLoop] at h
    split at h
    · simp at h
    · rename_i s1 hreg
      exact charSequenceLoop_allIn cs (i + 1) _ _ _ _ (Registered.addsChars hb hreg).built (register_allIn hb hs hreg) h

theorem internalCall_allIn {s s' : Syntax} {c : Call} (hb : Built s) (hs : s.AllIn) (h : s.internalCall c = (s', none)) :
    s'.AllIn := by
  cases c with
  | anyChar n ct => exact class_allIn hb hs h
  | class_ n ct neg cs rs => exact class_allIn hb hs h
  | charSequence n ct cs =>
    simp only [Syntax.internalCall, Syntax.charSequence_] at h
    split at h
    · simp at h
    · rename_i s1 refs hl
      exact register_allIn (charSequenceLoop_spec cs 0 _ _ _ _ hb hl).1.built (charSequenceLoop_allIn _ _ _ _ _ _ hb hs hl) h
  | sequence n ct items => exact register_allIn hb hs h
  | choice n ct os => exact register_allIn hb hs h

theorem made_allIn {cs : List Call} {s : Syntax} (h : Made cs s) : s.AllIn := by
  induction h with
  | empty => intro p hp; simp at hp
  | @call cs s s' c hm hc ih =>
    rw [call_marked] at hc
    split at hc
    · cases hc
    · exact internalCall_allIn (made_called hm).built ih hc
  | document hm hc ih => exact internalCall_allIn (made_called hm).built ih hc

/-! ### The definitions after the initialization -/

/-- The definition makes no node, or it has the name of a call that makes nodes. -/
def NodeFine (cs : List Call) (d : Def) : Prop :=
  d.kind.isChar = true ∨ (d.commitType.alias = true ∧ d.commitType.root = false) ∨ Visible cs d.name

section
variable {cs : List Call} {s s' : Syntax}

theorem NodeFine.sk {d e : Def} (h : d.sk = e.sk) (hd : NodeFine cs e) : NodeFine cs d := by
  rcases hd with hd | hd | hd
  · exact .inl ((Def.sk_isChar h).trans hd)
  · exact .inr (.inl (by rw [Def.sk_commitType h]; exact hd))
  · exact .inr (.inr (by rw [Def.sk_name h]; exact hd))

theorem withAlias_flags {d : Def} (hk : d.kind.isChar = false) : d.withAlias.commitType = { d.commitType with alias := true } := by
  unfold Def.withAlias Def.setCommitType Def.commitType
  cases h : d.kind <;> rw [h] at hk <;> simp_all [DKind.isChar]

/-- Before the whitespace is applied. -/
theorem pre_fine (h : Made cs s) {root : Ptr} {d0 : Def} (hroot : s.root = some root) (hd0 : s.heap[root]? = some d0)
    (hc : d0.commitType.incompatible = false) {p : Ptr} {d : Def} (hd : s.preHeap[p]? = some d) :
    d.kind.isChar = true ∨ (d.commitType.alias = true ∧ d.commitType.root = false) ∨
      (d.commitType.whitespace = true ∧ d.commitType.root = false) ∨ Visible cs d.name := by
  have hs := (made_called h).built.inv
  have hlen : s.preHeap.length = s.heap.length := foldl_update_length ..
  have hp : p ∈ s.registry.definitions := made_allIn h p (by rw [← hlen]; exact (List.getElem?_eq_some_iff.1 hd).1)
  have hh : s.Has p d := ⟨hp, hd⟩
  cases hk : d.kind.isChar with
  | true => exact .inl rfl
  | false =>
    refine .inr ?_
    obtain ⟨e, he, rfl⟩ := hs.has_heap hh
    have hke : e.kind.isChar = false := by rw [← initRanges_isChar]; exact hk
    have hroot' : e.commitType.root = true → e.commitType.incompatible = false := by
      intro hr
      rw [commitType_notChar hke] at hr
      have := (hs.rootFlag p e hp he hke).1 hr
      rw [hroot] at this
      cases this
      rw [hd0] at he
      cases he
      exact hc
    have hv := has_visible h hh
    rw [initRanges_commitType] at hv ⊢
    generalize e.commitType = ct at hv hroot'
    cases ha : ct.alias with
    | true =>
      refine .inl ⟨rfl, ?_⟩
      cases hr : ct.root with
      | false => rfl
      | true => have := hroot' hr; simp [Commit.incompatible, ha, hr] at this
    | false =>
      refine .inr ?_
      cases hw : ct.whitespace with
      | false => exact .inr (hv ha hw)
      | true =>
        refine .inl ⟨rfl, ?_⟩
        cases hr : ct.root with
        | false => rfl
        | true => have := hroot' hr; simp [Commit.incompatible, hw, hr] at this

theorem applyToItem_fine (n : Name) (i : Nat) (item : SeqItem) : ∀ d ∈ (applyToItem n i item).1, NodeFine cs d := by
  intro d hd
  rcases applyToItem_alias (Q := fun _ => False) n i item d hd with (h | h) | h
  · exact .inl h
  · exact h.elim
  · exact .inr (.inl ⟨h.1, h.2.2⟩)

theorem applyToItems_fine (n : Name) (items : List SeqItem) (i : Nat) : ∀ d ∈ (applyToItems n i items).1, NodeFine cs d := by
  intro d hd
  rcases applyToItems_alias (Q := fun _ => False) n items i d hd with (h | h) | h
  · exact .inl h
  · exact h.elim
  · exact .inr (.inl ⟨h.1, h.2.2⟩)

theorem applyToDefs_fine : ∀ (ps : List Ptr) (h : Heap), h.Each (NodeFine cs) → (applyToDefs ps h).2.Each (NodeFine cs)
  | [], _, hh => hh
  | p :: ps, h, hh => by
    unfold applyToDefs
    simp only
    apply applyToDefs_fine ps
    cases hp : h[p]? with
    | none => exact hh
    | some d =>
      simp only
      split
      · exact hh
      · cases hk : d.kind with
        | char neg cs rs => exact hh
        | choice os ds => exact hh
        | seq a items b c e =>
          simp only [alloc]
          refine hh.append fun x hx => ?_
          unfold applyToSeq at hx
          simp only [List.mem_append, List.mem_singleton] at hx
          rcases hx with hx | rfl
          · exact applyToItems_fine d.name items 0 x hx
          · rcases hh p d hp with h1 | h1
            · rw [hk] at h1; cases h1
            · exact .inr h1

theorem prepare_fine (h : Made cs s) {root r1 : Ptr} {d0 : Def} {s1 : Syntax} (hroot : s.root = some root)
    (hd0 : s.heap[root]? = some d0) (hc : d0.commitType.incompatible = false) (hp : s.prepare root = .ok (s1, r1)) :
    s1.heap.Each (NodeFine cs) := by
  have hs := (made_called h).built.inv
  have hpre := fun p d => pre_fine h hroot hd0 hc (p := p) (d := d)
  have hin : ∀ (p : Ptr) d, s.preHeap[p]? = some d → p ∈ s.registry.definitions := by
    intro p d hd
    have hlen : s.preHeap.length = s.heap.length := foldl_update_length ..
    exact made_allIn h p (by rw [← hlen]; exact (List.getElem?_eq_some_iff.1 hd).1)
  unfold Syntax.prepare at hp
  simp only at hp
  rw [show s.registry.definitions.foldl (fun h p => h.update p Def.initRanges) s.heap = s.preHeap from rfl] at hp
  generalize s.preHeap = h0 at hpre hin hp
  split at hp
  · obtain ⟨⟨h4, defs, r⟩, ha, hp⟩ := Res.bind_eq_ok hp
    simp only at hp
    have hreg := newRegistry_weak h4 defs
    generalize Registry.newRegistry h4 defs = x at hreg hp
    cases hp
    have h4e : h4.Each (NodeFine cs) := by
      unfold apply at ha
      have hsplit : (splitDefs h0 s.registry.definitions).2.2.Each (NodeFine cs) := by
        intro p d hd
        unfold splitDefs at hd
        simp only at hd
        rw [splitHeap_get _ _ hs.nodup] at hd
        split at hd
        · obtain ⟨e, h1, rfl⟩ := Option.map_eq_some_iff.1 hd
          cases hk : e.kind.isChar with
          | true => exact .inl (by unfold Def.withAlias; rw [setCommitType_kind]; exact hk)
          | false =>
            rcases hpre p e h1 with h2 | h2 | h2 | h2
            · rw [hk] at h2; cases h2
            · exact .inr (.inl (by rw [withAlias_flags hk]; exact ⟨rfl, h2.2⟩))
            · exact .inr (.inl (by rw [withAlias_flags hk]; exact ⟨rfl, h2.2⟩))
            · exact .inr (.inr (by unfold Def.withAlias; rw [setCommitType_name]; exact h2))
        · rename_i hn
          rcases hpre p d hd with h2 | h2 | h2 | h2
          · exact .inl h2
          · exact .inr (.inl h2)
          · exact absurd ⟨hin p d hd, by unfold Syntax.commitOf; rw [hd]; exact h2.1⟩ hn
          · exact .inr (.inr h2)
      generalize splitDefs h0 s.registry.definitions = y at hsplit ha
      obtain ⟨wsDefs, defs1, h1⟩ := y
      simp only at hsplit ha
      have h3 : Heap.Each (NodeFine cs) (applyToDefs defs1 (h1 ++ [mergeDefs h1 wsDefs])).2 :=
        applyToDefs_fine _ _ (hsplit.append fun d hd => by
          rw [List.mem_singleton.1 hd]
          exact .inr (.inl ⟨rfl, rfl⟩))
      generalize applyToDefs defs1 (h1 ++ [mergeDefs h1 wsDefs]) = z at h3 ha
      obtain ⟨defs3, h3'⟩ := z
      simp only at h3 ha
      split at ha
      · cases ha
      · rename_i r' hr
        split at ha
        · cases ha
        · rename_i d hd
          cases ha
          have hflag : d.commitType.root = true := by
            have := List.mem_of_getLast? hr
            rw [List.mem_filter] at this
            have h2 := this.2
            unfold Syntax.commitOf at h2
            rw [hd] at h2
            exact h2
          have hnc : d.kind.isChar = false := by
            cases hc : d.kind.isChar with
            | false => rfl
            | true =>
              rw [commitType_eq, hc] at hflag
              cases hflag
          have hname : Visible cs d.name := by
            rcases h3 _ d hd with h4 | h4 | h4
            · rw [hnc] at h4; cases h4
            · rw [hflag] at h4
              exact absurd h4.2 (by simp)
            · exact h4
          refine Heap.Each.append ?_ ?_
          · unfold applyToRoot
            simp only
            refine h3.update _ fun e _ => ?_
            cases hk : e.kind.isChar with
            | true => exact .inl (by rw [setCommitType_kind, setCommitType_kind]; exact hk)
            | false =>
              refine .inr (.inl ?_)
              unfold Def.setCommitType Def.commitType
              cases hk' : e.kind <;> rw [hk'] at hk <;> simp_all [DKind.isChar]
          · intro e he
            rw [List.mem_singleton.1 he]
            exact .inr (.inr hname)
    intro p d hd
    obtain ⟨e, i, h1, rfl⟩ := hreg.same p d hd
    exact h4e p e h1
  · rename_i hw
    cases hp
    intro p d hd
    rcases hpre p d hd with h2 | h2 | h2 | h2
    · exact .inl h2
    · exact .inr (.inl h2)
    · refine absurd ?_ hw
      unfold hasWhitespace
      rw [List.any_eq_true]
      exact ⟨p, hin p d hd, by unfold Syntax.commitOf; rw [hd]; exact h2.1⟩
    · exact .inr (.inr h2)

theorem init_fine (h : Made cs s) (hi : s.Init = .ok (s', none)) : s'.heap.Each (NodeFine cs) := by
  have hs : SInv s := (made_called h).built.inv
  rw [Syntax.Init_eq, if_neg (by simp [hs.initFailed]), if_neg (by simp [hs.initialized])] at hi
  cases hroot : s.root with
  | none => rw [hroot] at hi; simp at hi
  | some root =>
    rw [hroot] at hi
    simp only at hi
    cases hd : s.heap[root]? with
    | none => rw [hd] at hi; cases hi
    | some d =>
      rw [hd] at hi
      simp only at hi
      split at hi
      · simp at hi
      · rename_i hc
        obtain ⟨⟨s1, r1⟩, hp, hi⟩ := Res.bind_eq_ok hi
        have hprep := (prepare_weak hs.weak hroot).of_eq hp
        have hspec := (finishInit_spec hprep.1).of_eq hi
        simp only at hspec
        intro p e he
        obtain ⟨e0, h1, h2⟩ := hspec.sk.symm.to he
        exact (prepare_fine h hroot hd (by simpa using hc) hp p e0 h1).sk h2.symm

/-- The nodes have the names of the visible definitions. -/
theorem Parse_visible (h : Made cs s) {fuel : Nat} {input : List Rune} {rend : Option Nat} {t : Node}
    (hp : s.Parse fuel input rend = .ok (s', .node t)) (m : Node) (hm : Sub m t) : Visible cs m.name := by
  obtain ⟨hi, root, y, -, hy, hxy⟩ := Parse_init hp (by simp)
  have he := init_fine h hi
  cases y with
  | error e => simp at hxy
  | ok t' =>
    simp only [Syntax.ParseResult.node.injEq] at hxy
    subst hxy
    refine parseInput_fine (P := Visible cs) ?_ hy m hm
    intro d hd hk ha
    obtain ⟨p, hp⟩ := List.getElem?_of_mem hd
    obtain ⟨e, h1, rfl⟩ := Syntax.env_get hp
    rcases he p e h1 with h2 | h2 | h2
    · exfalso
      unfold Def.toPDef at hk
      cases hk' : e.kind <;> simp_all [DKind.isChar, PKind.isChar]
    · exact absurd h2.1 (by rw [show e.commitType.alias = false from ha]; simp)
    · exact h2

end

end Treerack
