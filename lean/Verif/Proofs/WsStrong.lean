import Verif.Proofs.WsPrepare

/-
The grammar after the whitespace was applied.
-/

namespace Treerack
open Whitespace Spec

theorem wsRepl_name (d : Def) : d.wsRepl.name = d.name := by
  unfold Def.wsRepl; split <;> rfl

theorem replaced_isChar {d : Def} (h : d.replaced = true) : d.kind.isChar = false := by
  unfold Def.replaced at h
  cases hk : d.kind <;> simp [hk, DKind.isChar] at h ⊢

theorem wsRepl_commitType (d : Def) : d.wsRepl.commitType = d.commitType := by
  unfold Def.wsRepl; split
  · rfl
  · rfl

theorem wsRepl_isChar (d : Def) : d.wsRepl.kind.isChar = d.kind.isChar := by
  unfold Def.wsRepl; split
  · rename_i h; rw [replaced_isChar h]; rfl
  · rfl

/-- The generated definitions are aliases without other flags. -/
theorem applyToItems_commit (n : Name) : ∀ (items : List SeqItem) (i : Nat) (d : Def),
    d ∈ (applyToItems n i items).1 → d.commitType = { alias := true } ∧ d.kind.isChar = false
  | [], _, _, h => by simp [applyToItems] at h
  | item :: items, i, d, h => by
    simp only [applyToItems, List.mem_append] at h
    rcases h with h | h
    · unfold applyToItem at h
      simp only at h
      split at h
      · simp at h
      · split at h
        · simp only [List.mem_singleton] at h
          subst h; exact ⟨rfl, rfl⟩
        · simp only [List.mem_cons, List.not_mem_nil, or_false] at h
          rcases h with rfl | rfl <;> exact ⟨rfl, rfl⟩
    · exact applyToItems_commit n items (i + 1) d h

theorem wsGen_commit {d e : Def} (h : e ∈ d.wsGen) : e.commitType = { alias := true } := by
  unfold Def.wsGen at h
  split at h
  · exact (applyToItems_commit _ _ _ _ h).1
  · simp at h

/-- The Root flag of the object at an address, if there is an object. -/
def optRoot (o : Option Def) : Bool := o.any fun d => d.commitType.root

theorem commitOf_root (h : Heap) (p : Ptr) : (Syntax.commitOf h p).root = optRoot h[p]? := by
  unfold Syntax.commitOf optRoot
  cases h[p]? <;> rfl

theorem flatMap_single {α β : Type} [DecidableEq α] {r : α} {x : List β} : ∀ {l : List α}, l.Nodup → r ∈ l →
    (l.flatMap fun p => if p = r then x else []) = x
  | [], _, h => by simp at h
  | a :: l, hn, h => by
    rw [List.nodup_cons] at hn
    rw [List.flatMap_cons]
    by_cases ha : a = r
    · subst ha
      rw [if_pos rfl]
      have : (l.flatMap fun p => if p = a then x else []) = [] := by
        rw [List.flatMap_eq_nil_iff]
        intro b hb
        rw [if_neg]
        rintro rfl; exact hn.1 hb
      rw [this]; simp
    · rw [if_neg ha]
      have : r ∈ l := by simpa [Ne.symm ha] using h
      simpa using flatMap_single hn.2 this

theorem filter_map_comm {α β : Type} (g : α → β) (f : β → Bool) (l : List α) :
    (l.filter fun a => f (g a)).map g = (l.map g).filter f := by
  induction l with
  | nil => rfl
  | cons a l ih =>
    simp only [List.filter_cons, List.map_cons]
    split <;> simp [ih]

theorem perm_aux {α : Type} (l1 l2 : List α) (a b c : α) :
    (l1 ++ l2 ++ [a, b, c]).Perm (([c] ++ l1) ++ l2 ++ [a, b]) := by
  have : l1 ++ l2 ++ [a, b, c] = (l1 ++ l2 ++ [a, b]) ++ [c] := by simp
  rw [this, List.append_assoc [c], List.append_assoc [c]]
  exact List.perm_append_comm

/-- The names of the definitions with the whitespace applied. -/
def Syntax.wsNames (s : Syntax) : List Name :=
  ((nonWsPart s.preHeap s.registry.definitions).flatMap (wsBlock s.preHeap)).map Def.name ++
  (wsPart s.preHeap s.registry.definitions).filterMap (fun p => (s.preHeap[p]?).map Def.name) ++
  [whitespaceName, patchName [s.rootName, runes "wsroot"]]

/-- The keyword definitions are kept as they are: choices or without whitespace. -/
def Syntax.KeywordsKept (s : Syntax) : Prop :=
  ∀ k ∈ s.keywords, ∀ d, s.heap[k]? = some d → d.replaced = false

/-- A registered definition. -/
def Syntax.Has (s : Syntax) (p : Ptr) (d : Def) : Prop := p ∈ s.registry.definitions ∧ s.preHeap[p]? = some d

/-- The grammar after the whitespace was applied. -/
structure WsGrammar (s : Syntax) (root : Ptr) (G : Grammar Name) : Prop where
  gen : ∀ p d, s.Has p d → d.commitType.whitespace = false → ∀ e ∈ d.wsGen, G e.name = some e.gdef
  repl : ∀ p d, s.Has p d → d.commitType.whitespace = false → p ≠ root → G d.name = some d.wsRepl.gdef
  body : ∀ d, s.Has root d → G (patchName [d.name, runes "wsroot"]) =
    some { name := patchName [d.name, runes "wsroot"], alias := true, expr := d.wsRepl.gdef.expr }
  root_ : ∀ d, s.Has root d → G d.name = some (wsRootDef d.name).gdef
  ws : ∀ p d, s.Has p d → d.commitType.whitespace = true → G d.name =
    some { name := d.name, alias := true, expr := d.gdef.expr }
  merged : G whitespaceName = some (GDef.mk whitespaceName true (.choice
    ((wsPart s.preHeap s.registry.definitions).filterMap fun p => (s.preHeap[p]?).map Def.name)))
  visible : ∀ n gd, G n = some gd → gd.alias = false → ∃ p d, s.Has p d ∧ d.name = n ∧
    d.commitType.whitespace = false ∧ d.commitType.alias = false
  names : ∀ n gd, G n = some gd → n ∈ s.wsNames

theorem wsBody_name (n : Name) (d : Def) : (d.wsBody n).name = patchName [n, runes "wsroot"] := by
  unfold Def.wsBody Def.setCommitType
  cases hk : d.kind <;> simp

theorem wsBody_kind (n : Name) (d : Def) : (d.wsBody n).kind = d.kind := by
  unfold Def.wsBody Def.setCommitType
  cases hk : d.kind <;> simp [hk]

theorem gdef_expr_kind {d e : Def} (h : d.kind = e.kind) : d.gdef.expr = e.gdef.expr := by
  unfold Def.gdef; simp only [h]

/-- The NoKeyword flag of a definition. -/
def Syntax.noKw (s : Syntax) (n : Name) : Bool :=
  ((s.registry.lookup n).bind fun p => s.heap[p]?).any fun d => d.commitType.noKeyword

/-- The NoKeyword flags after the whitespace was applied. -/
structure WsFlags (s : Syntax) (root : Ptr) (F : Name → Bool) : Prop where
  gen : ∀ p d, s.Has p d → d.commitType.whitespace = false → ∀ e ∈ d.wsGen, F e.name = false
  repl : ∀ p d, s.Has p d → d.commitType.whitespace = false → p ≠ root → F d.name = d.commitType.noKeyword
  body : ∀ d, s.Has root d → F (patchName [d.name, runes "wsroot"]) = d.commitType.noKeyword
  root_ : ∀ d, s.Has root d → F d.name = false
  ws : ∀ p d, s.Has p d → d.commitType.whitespace = true → F d.name = d.commitType.noKeyword
  merged : F whitespaceName = false

/-- A definition without its id. -/
def Def.noId (d : Def) : Def := { d with id := 0 }

/-- The object of a name, without its id. -/
def Syntax.shape (s : Syntax) (n : Name) : Option Def :=
  (s.registry.lookup n).bind fun p => (s.heap[p]?).map Def.noId

/-- The objects after the whitespace was applied, without their ids. -/
structure WsObjects (s : Syntax) (root : Ptr) (F : Name → Option Def) : Prop where
  gen : ∀ p d, s.Has p d → d.commitType.whitespace = false → ∀ e ∈ d.wsGen, F e.name = some e.noId
  repl : ∀ p d, s.Has p d → d.commitType.whitespace = false → p ≠ root → F d.name = some d.wsRepl.noId
  body : ∀ d, s.Has root d → F (patchName [d.name, runes "wsroot"]) = some (d.wsRepl.wsBody d.name).noId
  root_ : ∀ d, s.Has root d → F d.name = some (wsRootDef d.name).noId
  ws : ∀ p d, s.Has p d → d.commitType.whitespace = true → F d.name = some d.withAlias.noId
  merged : F whitespaceName = some (mergeDefs s.preHeap (wsPart s.preHeap s.registry.definitions)).noId

/-- The syntax after the whitespace was applied.  The keywords are the original objects, which may be replaced by
others in the registry. -/
structure WsPrepared (s s1 : Syntax) (r1 : Ptr) : Prop where
  base : PrepBase s1 r1
  lookup_name : ∀ (p : Ptr) d, p ∈ s1.registry.definitions → s1.heap[p]? = some d →
    s1.registry.lookup d.name = some p
  root_mem : r1 ∈ s1.registry.definitions
  stale : ∀ k ∈ s1.keywords, ∀ e, s1.heap[k]? = some e → ∃ d, s.Has k d ∧ e.kind = d.kind ∧ e.name = d.name
  flags : ∀ p d, s.Has p d → d.commitType.whitespace = false → s.root ≠ some p →
    ∃ q e, s1.registry.lookup d.name = some q ∧ s1.heap[q]? = some e ∧ e.commitType = d.commitType
  noKw : ∀ r0, s.root = some r0 → WsFlags s r0 s1.noKw
  objects : ∀ r0, s.root = some r0 → WsObjects s r0 s1.shape

theorem Applied.strong {s : Syntax} (hs : SInv s) {root : Ptr} (hroot : s.root = some root)
    (hnc : s.RootNotChar) {d0 : Def} (hd0 : s.heap[root]? = some d0)
    (hc : d0.commitType.incompatible = false) (hnames : s.wsNames.Nodup)
    {h1 : Heap} {defs2 : List Ptr} {h3 : Heap} {r : Ptr} {d : Def} {x : Heap × List Ptr × Ptr}
    (A : Applied s.preHeap s.registry.definitions h1 defs2 h3 r d x) :
    let s1 : Syntax := { s with heap := (Registry.newRegistry x.1 x.2.1).2,
                                registry := (Registry.newRegistry x.1 x.2.1).1, root := some x.2.2 }
    PrepBase s1 x.2.2 →
    (∀ (k : Ptr) d, k ∈ s1.keywords → s1.heap[k]? = some d → d.commitType.noKeyword = false) →
    WsPrepared s s1 x.2.2 ∧ (s.KeywordsKept → Prepared s1 x.2.2) ∧ WsGrammar s root s1.grammar ∧
      s1.nameAt x.2.2 = s.rootName := by
  intro s1 hpb hkf
  have hlen : s.preHeap.length = s.heap.length := foldl_update_length ..
  have hrm := hs.rootIn root hroot
  have hk0 := hnc root d0 hroot hd0
  have hflag := (hs.rootFlag root d0 hrm hd0 hk0).2 hroot
  -- the registered definitions
  have hpre : ∀ p ∈ s.registry.definitions, ∃ e, s.heap[p]? = some e ∧ s.preHeap[p]? = some e.initRanges := by
    intro p hp
    obtain ⟨e, he⟩ : ∃ e, s.heap[p]? = some e := ⟨_, List.getElem?_eq_getElem (hs.mem_lt hp)⟩
    exact ⟨e, he, by rw [hs.preHeap_get, if_pos hp, he]; rfl⟩
  have hcommit : ∀ (p : Ptr) e, s.preHeap[p]? = some e → Syntax.commitOf s.preHeap p = e.commitType := by
    intro p e he; simp [Syntax.commitOf, he]
  have hpre0 : s.preHeap[root]? = some d0.initRanges := by
    rw [hs.preHeap_get, if_pos hrm, hd0]; rfl
  have hct0 : d0.initRanges.commitType = d0.commit := by
    rw [initRanges_commitType, commitType_notChar hk0]
  have hws0 : d0.commit.whitespace = false := by
    rw [commitType_notChar hk0] at hc
    cases hw : d0.commit.whitespace
    · rfl
    · simp [Commit.incompatible, hw, hflag] at hc
  have hrootNonWs : root ∈ nonWsPart s.preHeap s.registry.definitions := by
    unfold nonWsPart
    rw [List.mem_filter, hcommit _ _ hpre0, hct0, hws0]
    exact ⟨hrm, rfl⟩
  -- the objects before `applyToDefs`
  have hl1 : h1.length = s.preHeap.length := A.len1
  have hget2 : ∀ p ∈ nonWsPart s.preHeap s.registry.definitions,
      (h1 ++ [mergeDefs h1 (wsPart s.preHeap s.registry.definitions)])[p]? = s.preHeap[p]? := by
    intro p hp
    have hp' := List.mem_filter.1 hp
    rw [List.getElem?_append_left (by rw [hl1, hlen]; exact hs.mem_lt hp'.1), A.get1, if_neg]
    rintro ⟨-, h2⟩
    have := hp'.2
    simp [h2] at this
  have hblocks : (nonWsPart s.preHeap s.registry.definitions).flatMap
      (wsBlock (h1 ++ [mergeDefs h1 (wsPart s.preHeap s.registry.definitions)])) =
      (nonWsPart s.preHeap s.registry.definitions).flatMap (wsBlock s.preHeap) := by
    rw [List.flatMap_def, List.flatMap_def, List.map_congr_left]
    intro p hp
    unfold wsBlock
    rw [hget2 p hp]
  have hnonNodup : (nonWsPart s.preHeap s.registry.definitions).Nodup := hs.nodup.filter _
  have hgetAll := A.applied.get
  simp only at hgetAll
  rw [hblocks] at hgetAll
  -- the root among them
  have hfilterBlocks : ((nonWsPart s.preHeap s.registry.definitions).flatMap (wsBlock s.preHeap)).filter
      (fun d => d.commitType.root) = [d0.initRanges.wsRepl] := by
    rw [List.filter_flatMap]
    rw [← flatMap_single (r := root) (x := [d0.initRanges.wsRepl]) hnonNodup hrootNonWs]
    rw [List.flatMap_def, List.flatMap_def, List.map_congr_left]
    intro p hp
    have hpm := (List.mem_filter.1 hp).1
    obtain ⟨e, he1, he2⟩ := hpre p hpm
    unfold wsBlock
    rw [he2]
    simp only [List.filter_append]
    have hgen : e.initRanges.wsGen.filter (fun d => d.commitType.root) = [] := by
      rw [List.filter_eq_nil_iff]
      intro d hd; rw [wsGen_commit hd]; simp
    rw [hgen, List.nil_append, List.filter_cons, wsRepl_commitType, initRanges_commitType]
    by_cases hpr : p = root
    · subst hpr
      rw [hd0] at he1
      obtain rfl := Option.some.inj he1
      rw [commitType_notChar hk0, hflag]
      simp
    · rw [if_neg hpr]
      cases hce : e.kind.isChar
      · rw [commitType_notChar hce]
        have : e.commit.root = false := by
          cases hh : e.commit.root
          · rfl
          · have := (hs.rootFlag p e hpm he1 hce).1 hh
            rw [hroot] at this
            exact absurd (Option.some.inj this).symm hpr
        simp [this]
      · rw [commitType_char hce]; simp
  have hrootPtr : (defs2.filter fun p => (Syntax.commitOf h3 p).root) = [r] ∧ d = d0.initRanges.wsRepl := by
    have h2 : (defs2.filter fun p => optRoot h3[p]?).map (fun q => h3[q]?) = [some d0.initRanges.wsRepl] := by
      rw [filter_map_comm (fun q : Ptr => h3[q]?) optRoot, hgetAll,
        ← filter_map_comm some optRoot]
      have : (fun d : Def => optRoot (some d)) = fun d => d.commitType.root := by funext d; rfl
      rw [this, hfilterBlocks]; rfl
    have h3' : (fun p => (Syntax.commitOf h3 p).root) = fun p : Ptr => optRoot h3[p]? := by
      funext p; exact commitOf_root h3 p
    have h4 := A.rootEq
    rw [h3'] at h4 ⊢
    match hl : defs2.filter fun p => optRoot h3[p]? with
    | [] => rw [hl] at h2; simp at h2
    | [a] =>
      rw [hl] at h2 h4
      simp only [List.getLast?_singleton, Option.some.injEq] at h4
      subst h4
      refine ⟨rfl, ?_⟩
      simp only [List.map_cons, List.map_nil, List.cons.injEq, and_true] at h2
      rw [A.rootDef] at h2
      exact Option.some.inj h2
    | a :: b :: l => rw [hl] at h2; simp at h2
  obtain ⟨hroot1, rfl⟩ := hrootPtr
  have hr2 : r ∈ defs2 := (List.mem_filter.1 (by rw [hroot1]; exact List.mem_singleton_self r)).1
  obtain ⟨e, hext⟩ := A.applied.ext
  simp only at hext
  have hl2 : (h1 ++ [mergeDefs h1 (wsPart s.preHeap s.registry.definitions)]).length = s.heap.length + 1 := by
    simp [hl1, hlen]
  have hl3 : s.heap.length < h3.length := by
    rw [hext, List.length_append, hl2]; omega
  have hrfrom := A.applied.from_ r hr2
  rw [hl2] at hrfrom
  have hname0 : (d0.initRanges.wsRepl).name = d0.name := by rw [wsRepl_name, initRanges_name]
  have hrootName : s.rootName = d0.name := by simp [Syntax.rootName, Syntax.nameAt, hroot, hd0]
  -- the final objects
  have hheap := A.heap
  have hdefs := A.defs_
  have hrootx := A.root_
  obtain ⟨hF, D, rF⟩ := x
  simp only at hheap hdefs hrootx
  have hFrest : ∀ q ∈ defs2, (Syntax.commitOf h3 q).root = false → hF[q]? = h3[q]? ∧ ∃ e, h3[q]? = some e ∧
      e ∈ (nonWsPart s.preHeap s.registry.definitions).flatMap (wsBlock s.preHeap) := by
    intro q hq hqr
    have h2 : h3[q]? ∈ defs2.map (fun q => h3[q]?) := List.mem_map.2 ⟨q, hq, rfl⟩
    rw [hgetAll] at h2
    obtain ⟨e, he1, he2⟩ := List.mem_map.1 h2
    have hql := (List.getElem?_eq_some_iff.1 he2.symm).1
    refine ⟨?_, e, he2.symm, he1⟩
    have hne : r ≠ q := by
      rintro rfl
      have := (List.mem_filter.1 (show r ∈ defs2.filter fun p => (Syntax.commitOf h3 p).root by
        rw [hroot1]; exact List.mem_singleton_self r)).2
      simp [hqr] at this
    rw [hheap, List.getElem?_append_left (by rw [Heap.length_update]; exact hql), Heap.getElem?_update, if_neg hne]
  have hFws : ∀ q ∈ wsPart s.preHeap s.registry.definitions, ∃ e, s.preHeap[q]? = some e ∧
      e.commitType.whitespace = true ∧ hF[q]? = some e.withAlias := by
    intro q hq
    have hq' := List.mem_filter.1 hq
    obtain ⟨e', he1, he2⟩ := hpre q hq'.1
    have hql := hs.mem_lt hq'.1
    have hqw : (Syntax.commitOf s.preHeap q).whitespace = true := by simpa using hq'.2
    refine ⟨_, he2, by rw [hcommit _ _ he2] at hqw; exact hqw, ?_⟩
    have hne : r ≠ q := by
      rintro rfl
      rcases hrfrom with h | h
      · have := (List.mem_filter.1 h).2
        simp [hqw] at this
      · exact absurd (Nat.lt_of_lt_of_le hql (Nat.le_of_succ_le h)) (Nat.lt_irrefl _)
    rw [hheap, List.getElem?_append_left (by rw [Heap.length_update]; exact Nat.lt_trans hql hl3),
      Heap.getElem?_update, if_neg hne, hext, List.getElem?_append_left (by rw [hl2]; exact Nat.lt_succ_of_lt hql),
      List.getElem?_append_left (by rw [hl1, hlen]; exact hql), A.get1, if_pos ⟨hq'.1, hqw⟩, he2]
    rfl
  have hFmerged : hF[s.preHeap.length]? = some (mergeDefs h1 (wsPart s.preHeap s.registry.definitions)) := by
    have hne : r ≠ s.preHeap.length := by
      rintro rfl
      rcases hrfrom with h | h
      · have := hs.mem_lt (List.mem_filter.1 h).1
        rw [hlen] at this
        exact absurd this (Nat.lt_irrefl _)
      · rw [hlen] at h; exact absurd h (Nat.not_succ_le_self _)
    rw [hheap, List.getElem?_append_left (by rw [Heap.length_update, hlen]; exact hl3),
      Heap.getElem?_update, if_neg hne, hext, List.getElem?_append_left (by rw [hl2, hlen]; exact Nat.lt_succ_self _),
      List.getElem?_append_right (by rw [hl1]; exact Nat.le_refl _), hl1]
    simp
  have hrl : r < h3.length := (List.getElem?_eq_some_iff.1 A.rootDef).1
  have hFbody : hF[r]? = some (d0.initRanges.wsRepl.wsBody d0.name) := by
    rw [hheap, List.getElem?_append_left (by rw [Heap.length_update]; exact hrl), Heap.getElem?_update,
      if_pos rfl, A.rootDef, hname0]
    rfl
  have hFroot : hF[h3.length]? = some (wsRootDef d0.name) := by
    rw [hheap, List.getElem?_append_right (by rw [Heap.length_update]; exact Nat.le_refl _), Heap.length_update, hname0]
    simp
  -- the names
  have hmergedName : (mergeDefs h1 (wsPart s.preHeap s.registry.definitions)).name = whitespaceName := rfl
  have hDnames : (D.map fun p => (hF[p]?).map Def.name).Perm (s.wsNames.map some) := by
    rw [hdefs]
    simp only [List.map_append, List.map_cons, List.map_nil]
    rw [hFmerged, hFbody, hFroot]
    simp only [Option.map_some, wsBody_name, hmergedName, wsRootDef, newSequence]
    have hrest : ((defs2.filter fun p => !(Syntax.commitOf h3 p).root).map fun p => (hF[p]?).map Def.name) =
        (((nonWsPart s.preHeap s.registry.definitions).flatMap (wsBlock s.preHeap)).filter
          (fun d => !d.commitType.root)).map fun d => some d.name := by
      have e1 : ((defs2.filter fun p => !(Syntax.commitOf h3 p).root).map fun p => (hF[p]?).map Def.name) =
          ((defs2.filter fun p => !(Syntax.commitOf h3 p).root).map fun p => h3[p]?).map (Option.map Def.name) := by
        rw [List.map_map]
        apply List.map_congr_left
        intro q hq
        have hq' := List.mem_filter.1 hq
        simp only [Function.comp]
        rw [(hFrest q hq'.1 (by simpa using hq'.2)).1]
      have h3' : (fun p => !(Syntax.commitOf h3 p).root) = fun p : Ptr => (fun o => !optRoot o) h3[p]? := by
        funext p; rw [commitOf_root h3 p]
      rw [e1, h3', filter_map_comm (fun q : Ptr => h3[q]?) (fun o => !optRoot o), hgetAll,
        ← filter_map_comm some (fun o => !optRoot o), List.map_map]
      rfl
    have hwsn : ((wsPart s.preHeap s.registry.definitions).map fun p => (hF[p]?).map Def.name) =
        ((wsPart s.preHeap s.registry.definitions).filterMap (fun p => (s.preHeap[p]?).map Def.name)).map some := by
      have : ∀ l : List Ptr, (∀ q ∈ l, ∃ e, s.preHeap[q]? = some e ∧ hF[q]? = some e.withAlias) →
          (l.map fun p => (hF[p]?).map Def.name) =
            (l.filterMap (fun p => (s.preHeap[p]?).map Def.name)).map some := by
        intro l
        induction l with
        | nil => intro _; rfl
        | cons a l ih =>
          intro h
          obtain ⟨e, g1, g2⟩ := h a (by simp)
          simp [List.filterMap_cons, g1, g2, withAlias_name, ih (fun q hq => h q (by simp [hq]))]
      apply this
      intro q hq
      obtain ⟨e, g1, -, g2⟩ := hFws q hq
      exact ⟨e, g1, g2⟩
    rw [hrest, hwsn]
    unfold Syntax.wsNames
    simp only [List.map_append, List.map_cons, List.map_nil, List.map_map, hrootName]
    have hperm := (List.filter_append_perm (fun d : Def => d.commitType.root)
      ((nonWsPart s.preHeap s.registry.definitions).flatMap (wsBlock s.preHeap))).map (fun d => some d.name)
    rw [hfilterBlocks] at hperm
    simp only [List.map_append, List.map_cons, List.map_nil, hname0] at hperm
    refine List.Perm.trans ?_ ((hperm.append_right _).append_right _)
    exact perm_aux _ _ _ _ _
  have hDnodup : (D.map fun p => (hF[p]?).map Def.name).Nodup :=
    hDnames.nodup_iff.2 (List.Pairwise.map some (fun a b h => by simpa using h) hnames)
  have hDlt : ∀ p ∈ D, p < hF.length := by
    intro p hp
    have hget : ∀ {e : Def}, hF[p]? = some e → p < hF.length := fun h => (List.getElem?_eq_some_iff.1 h).1
    rw [hdefs] at hp
    simp only [List.append_assoc, List.mem_append, List.mem_cons, List.not_mem_nil, or_false] at hp
    rcases hp with hp | hp | hp | hp | hp
    · have hq' := List.mem_filter.1 hp
      obtain ⟨h1, e, h2, -⟩ := hFrest p hq'.1 (by simpa using hq'.2)
      exact hget (h1.trans h2)
    · obtain ⟨e, -, -, h2⟩ := hFws p hp; exact hget h2
    · rw [hp] at hget ⊢; exact hget hFmerged
    · rw [hp] at hget ⊢; exact hget hFbody
    · rw [hp] at hget ⊢; exact hget hFroot
  have R := newRegistry_spec hDlt hDnodup
  have hlenR : (Registry.newRegistry hF D).2.length = hF.length := R.len
  have hbackR : ∀ (p : Ptr) e, (Registry.newRegistry hF D).2[p]? = some e →
      ∃ e0 i, hF[p]? = some e0 ∧ e = { e0 with id := i } := by
    intro p e he
    have hl := (List.getElem?_eq_some_iff.1 he).1
    obtain ⟨e0, he0⟩ : ∃ e0, hF[p]? = some e0 := ⟨_, List.getElem?_eq_getElem (hlenR ▸ hl)⟩
    obtain ⟨i, hi⟩ := R.same p e0 he0
    rw [he] at hi
    exact ⟨e0, i, he0, Option.some.inj hi⟩
  -- membership
  have hDmem : ∀ p, p ∈ D ↔ (p ∈ defs2 ∧ (Syntax.commitOf h3 p).root = false) ∨
      p ∈ wsPart s.preHeap s.registry.definitions ∨ p = s.preHeap.length ∨ p = r ∨ p = h3.length := by
    intro p
    rw [hdefs]
    simp [List.append_assoc]
  have hG : ∀ p e, p ∈ D → hF[p]? = some e → s1.grammar e.name = some e.gdef := by
    intro p e hp he
    have hl : s1.registry.lookup e.name = some p := (R.lookup e.name p).2 ⟨hp, e, he, rfl⟩
    obtain ⟨i, hi⟩ := R.same p e he
    unfold Syntax.grammar
    rw [hl]
    simp only [Option.bind_some]
    rw [show s1.heap[p]? = some { e with id := i } from hi]
    rfl
  have hN : ∀ p e, p ∈ D → hF[p]? = some e → s1.noKw e.name = e.commitType.noKeyword := by
    intro p e hp he
    have hl : s1.registry.lookup e.name = some p := (R.lookup e.name p).2 ⟨hp, e, he, rfl⟩
    obtain ⟨i, hi⟩ := R.same p e he
    unfold Syntax.noKw
    rw [hl]
    simp only [Option.bind_some]
    rw [show s1.heap[p]? = some { e with id := i } from hi]
    rfl
  have hS : ∀ p e, p ∈ D → hF[p]? = some e → s1.shape e.name = some e.noId := by
    intro p e hp he
    have hl : s1.registry.lookup e.name = some p := (R.lookup e.name p).2 ⟨hp, e, he, rfl⟩
    obtain ⟨i, hi⟩ := R.same p e he
    unfold Syntax.shape
    rw [hl]
    simp only [Option.bind_some]
    rw [show s1.heap[p]? = some { e with id := i } from hi]
    rfl
  have hfind : ∀ g ∈ (nonWsPart s.preHeap s.registry.definitions).flatMap (wsBlock s.preHeap),
      g.commitType.root = false → ∃ q, q ∈ D ∧ hF[q]? = some g ∧ q ∈ defs2 := by
    intro g hg hgr
    have h2 : some g ∈ defs2.map (fun q => h3[q]?) := by
      rw [hgetAll]; exact List.mem_map.2 ⟨g, hg, rfl⟩
    obtain ⟨q, hq1, hq2⟩ := List.mem_map.1 h2
    have hqr : (Syntax.commitOf h3 q).root = false := by
      unfold Syntax.commitOf; rw [hq2]; exact hgr
    exact ⟨q, (hDmem q).2 (Or.inl ⟨hq1, hqr⟩), by rw [(hFrest q hq1 hqr).1, hq2], hq1⟩
  have hnotRoot : ∀ p e, p ∈ s.registry.definitions → s.preHeap[p]? = some e → p ≠ root →
      e.commitType.root = false := by
    intro p e hp he hpr
    obtain ⟨e', he1, he2⟩ := hpre p hp
    rw [he] at he2
    obtain rfl := Option.some.inj he2
    rw [initRanges_commitType]
    cases hce : e'.kind.isChar
    · rw [commitType_notChar hce]
      cases hh : e'.commit.root
      · rfl
      · have := (hs.rootFlag p e' hp he1 hce).1 hh
        rw [hroot] at this
        exact absurd (Option.some.inj this).symm hpr
    · rw [commitType_char hce]
  have hkwNon : ∀ k ∈ s.keywords, ∃ e, s.heap[k]? = some e ∧ s.preHeap[k]? = some e.initRanges ∧
      k ∈ nonWsPart s.preHeap s.registry.definitions ∧ k ∈ s.registry.definitions ∧
      e.initRanges.commitType = e.commit ∧ e.commit.root = false ∧ k ≠ root := by
    intro k hk
    obtain ⟨hkm, e, he, hec, hek⟩ := (hs.keywords k).1 hk
    obtain ⟨e', he1, he2⟩ := hpre k hkm
    rw [he] at he1
    obtain rfl := Option.some.inj he1
    have hcomp := hs.compat k e hkm he hec
    have hkws : e.commit.whitespace = false := by
      cases hw : e.commit.whitespace
      · rfl
      · simp [Commit.incompatible, hw, hek] at hcomp
    have hct : e.initRanges.commitType = e.commit := by
      rw [initRanges_commitType, commitType_notChar hec]
    have hkr : k ≠ root := by
      rintro rfl
      rw [hd0] at he
      obtain rfl := Option.some.inj he
      rw [commitType_notChar hec] at hc
      simp [Commit.incompatible, hek, hflag] at hc
    refine ⟨e, he, he2, ?_, hkm, hct, ?_, hkr⟩
    · unfold nonWsPart
      rw [List.mem_filter, hcommit _ _ he2, hct, hkws]
      exact ⟨hkm, rfl⟩
    · cases hh : e.commit.root
      · rfl
      · have := (hs.rootFlag k e hkm he hec).1 hh
        rw [hroot] at this
        exact absurd (Option.some.inj this).symm hkr
  have hWP : WsPrepared s s1 rF := by
    refine ⟨hpb, ?_, ?_, ?_, ?_, ?_, ?_⟩
    · intro p e hp he
      rw [show s1.registry.definitions = D from R.defs] at hp
      obtain ⟨e0, i, h4, rfl⟩ := hbackR p e he
      exact (R.lookup e0.name p).2 ⟨hp, e0, h4, rfl⟩
    · rw [show s1.registry.definitions = D from R.defs, hDmem, hrootx]
      simp
    · intro k hk e he
      obtain ⟨e0, k1, k2, k3, k4, k5, k6, k7⟩ := hkwNon k hk
      refine ⟨e0.initRanges, ⟨k4, k2⟩, ?_⟩
      obtain ⟨e1, i, h4, rfl⟩ := hbackR k e he
      have hkl := hs.mem_lt k4
      have h3k : h3[k]? = some e0.initRanges := by
        rw [hext, List.getElem?_append_left (by rw [hl2]; exact Nat.lt_succ_of_lt hkl), hget2 k k3, k2]
      have hkr : r ≠ k := by
        rintro rfl
        have := A.rootDef
        rw [h3k] at this
        have := congrArg (fun o => (o.map fun d : Def => d.commitType.root).getD false) this
        simp only [Option.map_some, Option.getD_some, k5, k6, wsRepl_commitType] at this
        rw [hct0, hflag] at this
        cases this
      rw [hheap, List.getElem?_append_left (by rw [Heap.length_update]; exact Nat.lt_trans hkl hl3),
        Heap.getElem?_update_ne _ _ hkr, h3k] at h4
      obtain rfl := Option.some.inj h4
      exact ⟨rfl, rfl⟩
    · rintro p e ⟨hp, he⟩ hw hpr
      have hnon : p ∈ nonWsPart s.preHeap s.registry.definitions := by
        unfold nonWsPart
        rw [List.mem_filter, hcommit _ _ he, hw]
        exact ⟨hp, rfl⟩
      have hgb : e.wsRepl ∈ (nonWsPart s.preHeap s.registry.definitions).flatMap (wsBlock s.preHeap) := by
        rw [List.mem_flatMap]
        exact ⟨p, hnon, by unfold wsBlock; rw [he]; exact List.mem_append_right _ (by simp)⟩
      obtain ⟨q, hq1, hq2, hq3⟩ := hfind e.wsRepl hgb (by
        rw [wsRepl_commitType]; exact hnotRoot p e hp he (fun h => hpr (by rw [hroot, h])))
      obtain ⟨i, hi⟩ := R.same q _ hq2
      refine ⟨q, _, (R.lookup e.name q).2 ⟨hq1, _, hq2, wsRepl_name e⟩, hi, ?_⟩
      rw [← wsRepl_commitType e]
      rfl
    · intro r0 hr0
      rw [hroot] at hr0
      obtain rfl := Option.some.inj hr0
      have hnonOf : ∀ {p : Ptr} {e : Def}, s.Has p e → e.commitType.whitespace = false →
          p ∈ nonWsPart s.preHeap s.registry.definitions := by
        rintro p e ⟨hp, he⟩ hw
        unfold nonWsPart
        rw [List.mem_filter, hcommit _ _ he, hw]
        exact ⟨hp, rfl⟩
      refine ⟨?_, ?_, ?_, ?_, ?_, ?_⟩
      · intro p e hpe hw g hg
        have hgb : g ∈ (nonWsPart s.preHeap s.registry.definitions).flatMap (wsBlock s.preHeap) := by
          rw [List.mem_flatMap]
          exact ⟨p, hnonOf hpe hw, by unfold wsBlock; rw [hpe.2]; exact List.mem_append_left _ hg⟩
        obtain ⟨q, hq1, hq2, -⟩ := hfind g hgb (by rw [wsGen_commit hg])
        rw [hN q g hq1 hq2, wsGen_commit hg]
      · intro p e hpe hw hpr
        have hgb : e.wsRepl ∈ (nonWsPart s.preHeap s.registry.definitions).flatMap (wsBlock s.preHeap) := by
          rw [List.mem_flatMap]
          exact ⟨p, hnonOf hpe hw, by unfold wsBlock; rw [hpe.2]; exact List.mem_append_right _ (by simp)⟩
        obtain ⟨q, hq1, hq2, -⟩ := hfind e.wsRepl hgb (by rw [wsRepl_commitType]; exact hnotRoot p e hpe.1 hpe.2 hpr)
        have := hN q _ hq1 hq2
        rw [wsRepl_name, wsRepl_commitType] at this
        exact this
      · rintro e ⟨hp, he⟩
        rw [hpre0] at he
        obtain rfl := Option.some.inj he
        have := hN r _ ((hDmem r).2 (by simp)) hFbody
        rw [wsBody_name, wsBody_commitType] at this
        rw [initRanges_name, this]
        rw [wsRepl_isChar, initRanges_isChar, hk0, wsRepl_commitType]
        rfl
      · rintro e ⟨hp, he⟩
        rw [hpre0] at he
        obtain rfl := Option.some.inj he
        rw [initRanges_name]
        exact hN _ _ ((hDmem _).2 (by simp)) hFroot
      · rintro p e ⟨hp, he⟩ hw
        have hwp : p ∈ wsPart s.preHeap s.registry.definitions := by
          unfold wsPart
          rw [List.mem_filter, hcommit _ _ he, hw]
          exact ⟨hp, rfl⟩
        obtain ⟨e', h1, h2, h3⟩ := hFws p hwp
        rw [he] at h1
        obtain rfl := Option.some.inj h1
        have := hN p _ ((hDmem p).2 (by simp [hwp])) h3
        rw [withAlias_name] at this
        rw [this, withAlias_commitType]
      · exact hN _ _ ((hDmem _).2 (by simp)) hFmerged
    · intro r0 hr0
      rw [hroot] at hr0
      obtain rfl := Option.some.inj hr0
      have hnonOf : ∀ {p : Ptr} {e : Def}, s.Has p e → e.commitType.whitespace = false →
          p ∈ nonWsPart s.preHeap s.registry.definitions := by
        rintro p e ⟨hp, he⟩ hw
        unfold nonWsPart
        rw [List.mem_filter, hcommit _ _ he, hw]
        exact ⟨hp, rfl⟩
      refine ⟨?_, ?_, ?_, ?_, ?_, ?_⟩
      · intro p e hpe hw g hg
        have hgb : g ∈ (nonWsPart s.preHeap s.registry.definitions).flatMap (wsBlock s.preHeap) := by
          rw [List.mem_flatMap]
          exact ⟨p, hnonOf hpe hw, by unfold wsBlock; rw [hpe.2]; exact List.mem_append_left _ hg⟩
        obtain ⟨q, hq1, hq2, -⟩ := hfind g hgb (by rw [wsGen_commit hg])
        exact hS q g hq1 hq2
      · intro p e hpe hw hpr
        have hgb : e.wsRepl ∈ (nonWsPart s.preHeap s.registry.definitions).flatMap (wsBlock s.preHeap) := by
          rw [List.mem_flatMap]
          exact ⟨p, hnonOf hpe hw, by unfold wsBlock; rw [hpe.2]; exact List.mem_append_right _ (by simp)⟩
        obtain ⟨q, hq1, hq2, -⟩ := hfind e.wsRepl hgb (by rw [wsRepl_commitType]; exact hnotRoot p e hpe.1 hpe.2 hpr)
        have := hS q _ hq1 hq2
        rw [wsRepl_name] at this
        exact this
      · rintro e ⟨hp, he⟩
        rw [hpre0] at he
        obtain rfl := Option.some.inj he
        have := hS r _ ((hDmem r).2 (by simp)) hFbody
        rw [wsBody_name] at this
        rw [initRanges_name, this]
      · rintro e ⟨hp, he⟩
        rw [hpre0] at he
        obtain rfl := Option.some.inj he
        rw [initRanges_name]
        exact hS _ _ ((hDmem _).2 (by simp)) hFroot
      · rintro p e ⟨hp, he⟩ hw
        have hwp : p ∈ wsPart s.preHeap s.registry.definitions := by
          unfold wsPart
          rw [List.mem_filter, hcommit _ _ he, hw]
          exact ⟨hp, rfl⟩
        obtain ⟨e', h1, h2, h3⟩ := hFws p hwp
        rw [he] at h1
        obtain rfl := Option.some.inj h1
        have := hS p _ ((hDmem p).2 (by simp [hwp])) h3
        rw [withAlias_name] at this
        exact this
      · have := hS _ _ ((hDmem _).2 (by simp)) hFmerged
        rw [hmergedName] at this
        rw [this]
        unfold mergeDefs
        have : ∀ l : List Ptr, (∀ q ∈ l, q ∈ wsPart s.preHeap s.registry.definitions) →
            l.filterMap (fun p => (h1[p]?).map Def.name) = l.filterMap (fun p => (s.preHeap[p]?).map Def.name) := by
          intro l hl
          induction l with
          | nil => rfl
          | cons a l ih =>
            have hq' := List.mem_filter.1 (hl a (by simp))
            obtain ⟨e', he1, he2⟩ := hpre a hq'.1
            have hh : h1[a]? = some e'.initRanges.withAlias := by
              rw [A.get1, if_pos ⟨hq'.1, by simpa using hq'.2⟩, he2]; rfl
            simp only [List.filterMap_cons, he2, hh, Option.map_some, withAlias_name]
            rw [ih (fun q hq => hl q (by simp [hq]))]
        rw [this _ (fun _ h => h)]
  refine ⟨hWP, fun hkw => ⟨hpb, ?_, ?_, ?_, ?_, ?_, ?_, ?_, ?_⟩, ⟨?_, ?_, ?_, ?_, ?_, ?_, ?_, ?_⟩, ?_⟩
  · intro n p h
    rw [show s1.registry.definitions = D from R.defs]
    exact ((R.lookup n p).1 h).1
  · intro n p e h he
    obtain ⟨-, e', h2, h3⟩ := (R.lookup n p).1 h
    obtain ⟨e0, i, h4, rfl⟩ := hbackR p e he
    rw [h2] at h4
    obtain rfl := Option.some.inj h4
    exact h3
  · intro p e hp he
    rw [show s1.registry.definitions = D from R.defs] at hp
    obtain ⟨e0, i, h4, rfl⟩ := hbackR p e he
    exact (R.lookup e0.name p).2 ⟨hp, e0, h4, rfl⟩
  · intro p q d1 d2 hp hq h1 h2 hid
    rw [show s1.registry.definitions = D from R.defs] at hp hq
    obtain ⟨i, hi⟩ := List.getElem?_of_mem hp
    obtain ⟨j, hj⟩ := List.getElem?_of_mem hq
    obtain ⟨d1', g1, g2⟩ := R.ids i p hi
    obtain ⟨d2', g3, g4⟩ := R.ids j q hj
    rw [show (Registry.newRegistry hF D).2[p]? = some d1 from h1] at g1
    rw [show (Registry.newRegistry hF D).2[q]? = some d2 from h2] at g3
    obtain rfl := Option.some.inj g1
    obtain rfl := Option.some.inj g3
    have : i = j := by omega
    subst this
    rw [hi] at hj; exact Option.some.inj hj
  · intro k hk
    rw [show s1.registry.definitions = D from R.defs]
    obtain ⟨hkm, e, he, hec, hek⟩ := (hs.keywords k).1 hk
    obtain ⟨e', he1, he2⟩ := hpre k hkm
    rw [he] at he1
    obtain rfl := Option.some.inj he1
    have hcomp := hs.compat k e hkm he hec
    have hkws : e.commit.whitespace = false := by
      cases hw : e.commit.whitespace
      · rfl
      · simp [Commit.incompatible, hw, hek] at hcomp
    have hct : e.initRanges.commitType = e.commit := by
      rw [initRanges_commitType, commitType_notChar hec]
    have hnon : k ∈ nonWsPart s.preHeap s.registry.definitions := by
      unfold nonWsPart
      rw [List.mem_filter, hcommit _ _ he2, hct, hkws]
      exact ⟨hkm, rfl⟩
    have hkept : e.initRanges.replaced = false := by
      have := hkw k hk e he
      unfold Def.replaced at this ⊢
      rw [initRanges_commitType]
      unfold Def.initRanges
      cases hkd : e.kind <;> rw [hkd] at this <;> simpa [hkd] using this
    have hk2 := A.applied.kept k hnon e.initRanges (by rw [hget2 k hnon]; exact he2) hkept
    rw [hDmem]
    left
    refine ⟨hk2, ?_⟩
    have hkl := hs.mem_lt hkm
    unfold Syntax.commitOf
    rw [hext, List.getElem?_append_left (by rw [hl2]; exact Nat.lt_succ_of_lt hkl), hget2 k hnon, he2]
    simp only [hct]
    cases hh : e.commit.root
    · rfl
    · have := (hs.rootFlag k e hkm he hec).1 hh
      rw [hroot] at this
      obtain rfl := Option.some.inj this
      rw [hd0] at he
      obtain rfl := Option.some.inj he
      rw [commitType_notChar hec] at hc
      simp [Commit.incompatible, hek, hh] at hc
  · exact hkf
  · rw [show s1.registry.definitions = D from R.defs, hDmem, hrootx]
    simp
  · obtain ⟨i, hi⟩ := R.same _ _ hFroot
    rw [hrootx]
    exact ⟨_, hi, rfl, rfl⟩
  · -- gen
    rintro p e ⟨hp, he⟩ hw g hg
    have hnon : p ∈ nonWsPart s.preHeap s.registry.definitions := by
      unfold nonWsPart
      rw [List.mem_filter, hcommit _ _ he, hw]
      exact ⟨hp, rfl⟩
    have hgb : g ∈ (nonWsPart s.preHeap s.registry.definitions).flatMap (wsBlock s.preHeap) := by
      rw [List.mem_flatMap]
      exact ⟨p, hnon, by unfold wsBlock; rw [he]; exact List.mem_append_left _ hg⟩
    obtain ⟨q, hq1, hq2, hq3⟩ := hfind g hgb (by rw [wsGen_commit hg])
    exact hG q g hq1 hq2
  · -- repl
    rintro p e ⟨hp, he⟩ hw hpr
    have hnon : p ∈ nonWsPart s.preHeap s.registry.definitions := by
      unfold nonWsPart
      rw [List.mem_filter, hcommit _ _ he, hw]
      exact ⟨hp, rfl⟩
    have hgb : e.wsRepl ∈ (nonWsPart s.preHeap s.registry.definitions).flatMap (wsBlock s.preHeap) := by
      rw [List.mem_flatMap]
      exact ⟨p, hnon, by unfold wsBlock; rw [he]; exact List.mem_append_right _ (by simp)⟩
    obtain ⟨q, hq1, hq2, hq3⟩ := hfind e.wsRepl hgb (by rw [wsRepl_commitType]; exact hnotRoot p e hp he hpr)
    rw [← wsRepl_name e]
    exact hG q _ hq1 hq2
  · -- body
    rintro e ⟨hp, he⟩
    rw [hpre0] at he
    obtain rfl := Option.some.inj he
    have := hG r _ ((hDmem r).2 (by simp)) hFbody
    rw [wsBody_name] at this
    rw [initRanges_name, this]
    congr 1
    have hbc := wsBody_commitType d0.name d0.initRanges.wsRepl
    have hbe := gdef_expr_kind (wsBody_kind d0.name d0.initRanges.wsRepl)
    unfold Def.gdef
    simp only [GDef.mk.injEq]
    refine ⟨wsBody_name .., ?_, hbe⟩
    rw [hbc]; split <;> rfl
  · -- root
    rintro e ⟨hp, he⟩
    rw [hpre0] at he
    obtain rfl := Option.some.inj he
    rw [initRanges_name]
    exact hG _ _ ((hDmem _).2 (by simp)) hFroot
  · -- ws
    rintro p e ⟨hp, he⟩ hw
    have hwp : p ∈ wsPart s.preHeap s.registry.definitions := by
      unfold wsPart
      rw [List.mem_filter, hcommit _ _ he, hw]
      exact ⟨hp, rfl⟩
    obtain ⟨e', h1, h2, h3⟩ := hFws p hwp
    rw [he] at h1
    obtain rfl := Option.some.inj h1
    have := hG p _ ((hDmem p).2 (by simp [hwp])) h3
    rw [withAlias_name] at this
    rw [this]
    congr 1
    unfold Def.gdef
    simp only [GDef.mk.injEq]
    refine ⟨withAlias_name e, by rw [withAlias_commitType], ?_⟩
    rw [withAlias_kind]
  · -- merged
    have := hG _ _ ((hDmem _).2 (by simp)) hFmerged
    rw [hmergedName] at this
    rw [this]
    congr 1
    unfold mergeDefs newChoice Def.gdef
    simp only [GDef.mk.injEq, true_and, Def.commitType]
    congr 1
    have : ∀ l : List Ptr, (∀ q ∈ l, q ∈ wsPart s.preHeap s.registry.definitions) →
        l.filterMap (fun p => (h1[p]?).map Def.name) = l.filterMap (fun p => (s.preHeap[p]?).map Def.name) := by
      intro l hl
      induction l with
      | nil => rfl
      | cons a l ih =>
        have hq' := List.mem_filter.1 (hl a (by simp))
        obtain ⟨e', he1, he2⟩ := hpre a hq'.1
        have hh : h1[a]? = some e'.initRanges.withAlias := by
          rw [A.get1, if_pos ⟨hq'.1, by simpa using hq'.2⟩, he2]; rfl
        simp only [List.filterMap_cons, he2, hh, Option.map_some, withAlias_name]
        rw [ih (fun q hq => hl q (by simp [hq]))]
    exact this _ (fun _ h => h)
  · -- visible
    intro n gd hgd hal
    unfold Syntax.grammar at hgd
    cases hl : s1.registry.lookup n with
    | none => rw [hl] at hgd; simp at hgd
    | some p =>
      rw [hl] at hgd
      simp only [Option.bind_some] at hgd
      obtain ⟨e, h1', rfl⟩ := Option.map_eq_some_iff.1 hgd
      obtain ⟨hpD, e', h2, h3'⟩ := (R.lookup n p).1 hl
      obtain ⟨e0, i, h4, rfl⟩ := hbackR p e h1'
      rw [h2] at h4
      obtain rfl := Option.some.inj h4
      have hal : e'.commitType.alias = false := hal
      rcases (hDmem p).1 hpD with ⟨ha, hb⟩ | ha | ha | ha | ha
      · obtain ⟨k1, e2, k2, k3⟩ := hFrest p ha hb
        rw [k1, k2] at h2
        obtain rfl := Option.some.inj h2
        obtain ⟨q, hq, hq2⟩ := List.mem_flatMap.1 k3
        have hq' := List.mem_filter.1 hq
        obtain ⟨e3, he1, he2⟩ := hpre q hq'.1
        unfold wsBlock at hq2
        rw [he2] at hq2
        simp only [List.mem_append, List.mem_singleton] at hq2
        rcases hq2 with hq2 | rfl
        · rw [wsGen_commit hq2] at hal; simp at hal
        · refine ⟨q, _, ⟨hq'.1, he2⟩, ?_, ?_, ?_⟩
          · rw [← h3', wsRepl_name]
          · have := hq'.2
            rw [hcommit _ _ he2] at this
            simpa using this
          · rw [wsRepl_commitType] at hal; exact hal
      · obtain ⟨e2, -, -, k3⟩ := hFws p ha
        rw [h2] at k3
        obtain rfl := Option.some.inj k3
        rw [withAlias_commitType] at hal; simp at hal
      · rw [ha, hFmerged] at h2
        obtain rfl := Option.some.inj h2
        simp [mergeDefs, newChoice, Def.commitType] at hal
      · rw [ha, hFbody] at h2
        obtain rfl := Option.some.inj h2
        rw [wsBody_commitType] at hal
        split at hal <;> simp at hal
      · rw [ha, hFroot] at h2
        obtain rfl := Option.some.inj h2
        refine ⟨root, _, ⟨hrm, hpre0⟩, ?_, ?_, ?_⟩
        · rw [← h3', initRanges_name]; rfl
        · rw [hct0]; exact hws0
        · rw [hct0]
          rw [commitType_notChar hk0] at hc
          exact Commit.root_alias hc hflag
  · -- names
    intro n gd hgd
    unfold Syntax.grammar at hgd
    cases hl : s1.registry.lookup n with
    | none => rw [hl] at hgd; simp at hgd
    | some p =>
      obtain ⟨hpD, e', h2, rfl⟩ := (R.lookup n p).1 hl
      have hm : some e'.name ∈ D.map fun p => (hF[p]?).map Def.name :=
        List.mem_map.2 ⟨p, hpD, by rw [h2]; rfl⟩
      have := (hDnames.mem_iff).1 hm
      obtain ⟨m, hm1, hm2⟩ := List.mem_map.1 this
      obtain rfl := Option.some.inj hm2
      exact hm1
  · unfold Syntax.nameAt
    obtain ⟨i, hi⟩ := R.same _ _ hFroot
    rw [hrootx, show s1.heap[h3.length]? = _ from hi, hrootName]
    rfl

/-- `Init`, with whitespace: the syntax before its last part. -/
theorem Init_ws_ok {s s' : Syntax} (hs : SInv s) (hw : s.HasWhitespace) (hnc : s.RootNotChar)
    (hnames : s.wsNames.Nodup) (hkw : s.KeywordsKept) (h : s.Init = .ok (s', none)) :
    ∃ r0 root s1, s.root = some r0 ∧ WsGrammar s r0 s1.grammar ∧ WsPrepared s s1 root ∧ Prepared s1 root ∧
      InitOK s1 root s' ∧ s1.root = some root ∧ s1.initFailed = false ∧ s1.nameAt root = s.rootName ∧
      s1.keywords = s.keywords := by
  rw [Syntax.Init_eq, if_neg (by simp [hs.initFailed]), if_neg (by simp [hs.initialized])] at h
  cases hroot : s.root with
  | none => rw [hroot] at h; simp at h
  | some r0 =>
    rw [hroot] at h
    simp only at h
    cases hd : s.heap[r0]? with
    | none => rw [hd] at h; cases h
    | some d =>
      rw [hd] at h
      simp only at h
      split at h
      · simp at h
      · rename_i hc
        obtain ⟨⟨s1, r1⟩, hprep, h⟩ := Res.bind_eq_ok h
        obtain ⟨hpb, hr1, hf1, hi1, hkf⟩ := (prepare_weak hs.weak hroot).of_eq hprep
        simp only at hpb hr1 hf1 hi1 hkf h
        unfold Syntax.prepare at hprep
        simp only at hprep
        rw [show s.registry.definitions.foldl (fun h p => h.update p Def.initRanges) s.heap = s.preHeap from rfl,
          if_pos ((hasWhitespace_iff hs).2 hw)] at hprep
        obtain ⟨x, hx, hprep⟩ := Res.bind_eq_ok hprep
        obtain ⟨h1, defs2, h3, r, d', A⟩ := (apply_spec hs.nodup (fun p hp => by
          rw [show s.preHeap.length = s.heap.length from foldl_update_length ..]
          exact hs.mem_lt hp)).of_eq hx
        simp only [Res.ok.injEq, Prod.mk.injEq] at hprep
        obtain ⟨rfl, rfl⟩ := hprep
        obtain ⟨WP, P, W, hn⟩ := A.strong hs hroot hnc hd (by simpa using hc) hnames hpb hkf
        have hspec := (finishInit_spec hpb).of_eq h
        exact ⟨r0, x.2.2, _, rfl, W, WP, P hkw, hspec, rfl, hs.initFailed, hn, rfl⟩

/-- `Init`, with whitespace. -/
theorem Init_ws {s s' : Syntax} (hs : SInv s) (hw : s.HasWhitespace) (hnc : s.RootNotChar)
    (hnames : s.wsNames.Nodup) (hkw : s.KeywordsKept) (h : s.Init = .ok (s', none)) :
    ∃ r0 root G, s.root = some r0 ∧ WsGrammar s r0 G ∧ Ready G s.rootName s' root := by
  obtain ⟨r0, root, s1, hroot, W, -, P, hspec, hr1, hf1, hn, -⟩ := Init_ws_ok hs hw hnc hnames hkw h
  refine ⟨r0, root, _, hroot, W, ?_⟩
  refine ⟨by rw [hspec.same], by rw [hspec.same]; exact hf1, by rw [hspec.same]; exact hr1,
    hspec.linked P, hspec.morphism P, ?_, hspec.allChars, hspec.ranges⟩
  rw [← hn]
  obtain ⟨d1, g1, -⟩ := P.rootDef
  obtain ⟨d2, g2, g3⟩ := hspec.sk.to g1
  simp only [Syntax.nameAt, g2, Option.map_some, Option.getD_some]
  simp only [g1, Option.map_some, Option.getD_some]
  exact Def.sk_name g3

end Treerack
