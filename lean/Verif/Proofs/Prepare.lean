import Verif.Proofs.History

/-
The first part of `Init`, for syntaxes without whitespace definitions.
-/

namespace Treerack
open Spec

theorem initRanges_name (d : Def) : d.initRanges.name = d.name := by unfold Def.initRanges; split <;> rfl
theorem initRanges_id (d : Def) : d.initRanges.id = d.id := by unfold Def.initRanges; split <;> rfl
theorem initRanges_gens (d : Def) : d.initRanges.gens = d.gens := by unfold Def.initRanges; split <;> rfl
theorem initRanges_commit (d : Def) : d.initRanges.commit = d.commit := by
  unfold Def.initRanges; split <;> rfl
theorem initRanges_validated (d : Def) : d.initRanges.validated = d.validated := by
  unfold Def.initRanges; split <;> rfl
theorem initRanges_initialized (d : Def) : d.initRanges.initialized = d.initialized := by
  unfold Def.initRanges; split <;> rfl
theorem initRanges_isChar (d : Def) : d.initRanges.kind.isChar = d.kind.isChar :=
  Def.sk_isChar d.initRanges_sk
theorem initRanges_commitType (d : Def) : d.initRanges.commitType = d.commitType := by
  cases h : d.kind.isChar
  · rw [commitType_notChar h, commitType_notChar (by rw [initRanges_isChar]; exact h), initRanges_commit]
  · rw [commitType_char h, commitType_char (by rw [initRanges_isChar]; exact h)]

theorem initRanges_fresh {d : Def} (h : d.kind.Raw) : d.initRanges.kind.Fresh := by
  unfold Def.initRanges
  split
  · rename_i orig items ds rs ac hk
    rw [hk] at h
    obtain ⟨rfl, rfl, rfl, rfl⟩ := h
    refine ⟨rfl, Or.inr ⟨(normalize_map_idem _).symm, ?_⟩⟩
    simp [itemRange]
  · rename_i hk
    cases hk' : d.kind with
    | char => simp [DKind.Fresh]
    | choice os ds => rw [hk'] at h; exact h
    | seq orig items ds rs ac => exact absurd hk' (hk _ _ _ _ _)

theorem raw_fresh {k : DKind} (h : k.Raw) : k.Fresh := by
  cases k with
  | char => trivial
  | choice os ds => exact h
  | seq orig items ds rs ac => exact ⟨h.2.1, Or.inl h.2.2.1⟩

/-- Applying a method to several objects. -/
theorem foldl_update (f : Def → Def) : ∀ (ps : List Ptr) (h : Heap), ps.Nodup → ∀ q : Ptr,
    (ps.foldl (fun h p => h.update p f) h)[q]? = if q ∈ ps then (h[q]?).map f else h[q]?
  | [], h, _, q => by simp
  | p :: ps, h, hn, q => by
    rw [List.nodup_cons] at hn
    rw [List.foldl_cons, foldl_update f ps _ hn.2, Heap.getElem?_update]
    by_cases hq : p = q
    · subst hq; simp [hn.1]
    · simp [hq, Ne.symm hq]

theorem foldl_update_length (f : Def → Def) : ∀ (ps : List Ptr) (h : Heap),
    (ps.foldl (fun h p => h.update p f) h).length = h.length
  | [], _ => rfl
  | p :: ps, h => by rw [List.foldl_cons, foldl_update_length f ps, Heap.length_update]

/-- The objects after `preinit`. -/
def Syntax.preHeap (s : Syntax) : Heap :=
  s.registry.definitions.foldl (fun h p => h.update p Def.initRanges) s.heap

theorem SInv.preHeap_get {s : Syntax} (hs : SInv s) (q : Ptr) : s.preHeap[q]? =
    if q ∈ s.registry.definitions then (s.heap[q]?).map Def.initRanges else s.heap[q]? :=
  foldl_update _ _ _ hs.nodup q

theorem SInv.pre_back {s : Syntax} (hs : SInv s) {q : Ptr} {d' : Def} (h : s.preHeap[q]? = some d') :
    ∃ d, s.heap[q]? = some d ∧ (d' = d.initRanges ∨ d' = d) := by
  rw [hs.preHeap_get] at h
  split at h
  · obtain ⟨d, h1, h2⟩ := Option.map_eq_some_iff.1 h
    exact ⟨d, h1, Or.inl h2.symm⟩
  · exact ⟨d', h, Or.inr rfl⟩

theorem SInv.preSk {s : Syntax} (hs : SInv s) : SameSk s.heap s.preHeap := by
  intro q
  rw [hs.preHeap_get]
  split
  · cases s.heap[q]? <;> simp [Def.initRanges_sk]
  · rfl

theorem SInv.preFresh {s : Syntax} (hs : SInv s) (q : Ptr) (d : Def) (h : s.preHeap[q]? = some d) :
    d.validated = false ∧ d.initialized = false ∧ d.gens = [] ∧ d.kind.Fresh := by
  obtain ⟨e, h1, h2⟩ := hs.pre_back h
  obtain ⟨r1, r2, r3, r4⟩ := hs.raw q e h1
  rcases h2 with rfl | rfl
  · rw [initRanges_validated, initRanges_initialized, initRanges_gens]
    exact ⟨r1, r2, r3, initRanges_fresh r4⟩
  · exact ⟨r1, r2, r3, raw_fresh r4⟩

/-- Some registered definition has the Whitespace flag. -/
def Syntax.HasWhitespace (s : Syntax) : Prop :=
  ∃ p ∈ s.registry.definitions, (Syntax.commitOf s.heap p).whitespace = true

theorem commitOf_pre {s : Syntax} (hs : SInv s) (p : Ptr) :
    Syntax.commitOf s.preHeap p = Syntax.commitOf s.heap p := by
  unfold Syntax.commitOf
  rw [hs.preHeap_get]
  by_cases hp : p ∈ s.registry.definitions
  · rw [if_pos hp]
    cases s.heap[p]? <;> simp [initRanges_commitType]
  · rw [if_neg hp]

theorem hasWhitespace_iff {s : Syntax} (hs : SInv s) :
    Whitespace.hasWhitespace s.preHeap s.registry.definitions = true ↔ s.HasWhitespace := by
  unfold Whitespace.hasWhitespace Syntax.HasWhitespace
  rw [List.any_eq_true]
  simp only [commitOf_pre hs]

/-- The root is a definition, not a character that is part of a definition. -/
def Syntax.RootNotChar (s : Syntax) : Prop :=
  ∀ r d, s.root = some r → s.heap[r]? = some d → d.kind.isChar = false

theorem prepare_noWs {s : Syntax} (hs : SInv s) (hw : ¬ s.HasWhitespace) (root : Ptr) :
    s.prepare root = .ok ({ s with heap := s.preHeap }, root) := by
  unfold Syntax.prepare
  simp only
  rw [if_neg]
  · rfl
  · intro h; exact hw ((hasWhitespace_iff hs).1 h)

theorem Built.prepBase_noWs {s : Syntax} (hs : SInv s) {root : Ptr} (hroot : s.root = some root) :
    PrepBase { s with heap := s.preHeap } root := by
  have hl : s.preHeap.length = s.heap.length := hs.preSk.length
  refine ⟨?_, ?_, ?_, hs.preFresh⟩
  · intro n p h
    simp only at h ⊢
    rw [hl]; exact hs.mem_lt ((hs.lookup n p).1 h).1
  · intro k h
    simp only at h ⊢
    rw [hl]; exact hs.mem_lt ((hs.keywords k).1 h).1
  · simp only
    rw [hl]; exact hs.root_lt root hroot

/-- Distinct registered definitions have distinct ids. -/
theorem SInv.ids_inj {s : Syntax} (hs : SInv s) {p q : Ptr} {d e : Def}
    (hp : p ∈ s.registry.definitions) (hq : q ∈ s.registry.definitions) (h1 : s.heap[p]? = some d)
    (h2 : s.heap[q]? = some e) (h : d.id = e.id) : p = q := by
  obtain ⟨i, hi⟩ := List.getElem?_of_mem hp
  obtain ⟨j, hj⟩ := List.getElem?_of_mem hq
  obtain ⟨d', g1, g2⟩ := hs.ids i p hi
  obtain ⟨e', g3, g4⟩ := hs.ids j q hj
  rw [h1] at g1; cases g1
  rw [h2] at g3; cases g3
  have : i = j := by omega
  subst this
  rw [hi] at hj; exact Option.some.inj hj

theorem Commit.keyword_noKeyword {c : Commit} (h : Commit.incompatible { c with root := false } = false)
    (hk : c.keyword = true) : c.noKeyword = false := by
  cases hn : c.noKeyword
  · rfl
  · simp [Commit.incompatible, hk, hn] at h

theorem Commit.root_alias {c : Commit} (h : c.incompatible = false) (hr : c.root = true) :
    c.alias = false := by
  cases hn : c.alias
  · rfl
  · simp [Commit.incompatible, hr, hn] at h

theorem Built.prepared_noWs {s : Syntax} (hs : SInv s) {root : Ptr} (hroot : s.root = some root)
    (hnc : s.RootNotChar) {d : Def} (hd : s.heap[root]? = some d)
    (hc : d.commitType.incompatible = false) : Prepared { s with heap := s.preHeap } root := by
  refine ⟨prepBase_noWs hs hroot, ?_, ?_, ?_, ?_, ?_, ?_, ?_, ?_⟩
  · intro n p h; exact ((hs.lookup n p).1 h).1
  · intro n p d h hd
    obtain ⟨e, h1, h2⟩ := hs.pre_back hd
    obtain ⟨-, e', g1, g2⟩ := (hs.lookup n p).1 h
    rw [h1] at g1; cases g1
    rcases h2 with rfl | rfl
    · rw [initRanges_name]; exact g2
    · exact g2
  · intro p d hp hd
    obtain ⟨e, h1, h2⟩ := hs.pre_back hd
    have : d.name = e.name := by
      rcases h2 with rfl | rfl
      · rw [initRanges_name]
      · rfl
    rw [this]
    exact (hs.lookup e.name p).2 ⟨hp, e, h1, rfl⟩
  · intro p q d e hp hq hd he hid
    obtain ⟨d0, h1, h2⟩ := hs.pre_back hd
    obtain ⟨e0, h3, h4⟩ := hs.pre_back he
    refine hs.ids_inj hp hq h1 h3 ?_
    have a1 : d.id = d0.id := by rcases h2 with rfl | rfl <;> simp [initRanges_id]
    have a2 : e.id = e0.id := by rcases h4 with rfl | rfl <;> simp [initRanges_id]
    rw [← a1, ← a2, hid]
  · intro k hk; exact ((hs.keywords k).1 hk).1
  · intro k d hk hd
    obtain ⟨hm, e', g1, g2, g3⟩ := (hs.keywords k).1 hk
    obtain ⟨e, h1, h2⟩ := hs.pre_back hd
    rw [h1] at g1
    obtain rfl := Option.some.inj g1
    have hcc := hs.compat k e hm h1 g2
    have : d.commitType = e.commitType := by rcases h2 with rfl | rfl <;> simp [initRanges_commitType]
    rw [this, commitType_notChar g2]
    exact Commit.keyword_noKeyword hcc g3
  · exact hs.rootIn root hroot
  · have hk := hnc root d hroot hd
    have hflag := (hs.rootFlag root d (hs.rootIn root hroot) hd hk).2 hroot
    refine ⟨d.initRanges, ?_, by rw [initRanges_isChar]; exact hk, ?_⟩
    · simp only
      rw [hs.preHeap_get, if_pos (hs.rootIn root hroot), hd]; rfl
    · rw [initRanges_commit]
      rw [commitType_notChar hk] at hc
      exact Commit.root_alias hc hflag

/-- The flag of the sequences that consist of characters. -/
theorem InitOK.allChars {s s' : Syntax} {root : Ptr} (hi : InitOK s root s') {p : Ptr} {d : PDef} {is : List Ptr}
    {rs : List (Int × Int)} {ac : Bool} (hr : Reach s'.env root p) (hd : s'.env.defs[p]? = some d) (hk : d.kind = .seq is rs ac) :
    ac = is.all fun q => ((s'.env.defs[q]?).map fun e => e.kind.isChar).getD false := by
  obtain ⟨e, e1, rfl⟩ := Syntax.env_get hd
  obtain ⟨d', k1, -, k2, -⟩ := hi.done _ (hi.reach hr)
  rw [e1] at k1; cases k1
  unfold Def.toPDef at hk
  cases hke : e.kind <;> rw [hke] at hk <;> simp at hk
  obtain ⟨rfl, rfl, rfl⟩ := hk
  rw [hke] at k2
  simp only [DKind.Resolved] at k2
  rw [k2.2.2.2]
  congr 1
  funext q
  rw [← isCharDef_sk hi.sk]
  unfold isCharDef
  simp only [Syntax.env, List.getElem?_map]
  cases s'.heap[q]? with
  | none => rfl
  | some dq =>
    simp only [Option.map_some, Option.getD_some, toPDef_isChar]
    obtain ⟨_, _, _, _, _, _, kind⟩ := dq
    cases kind <;> rfl

/-- Every item has a range. -/
theorem InitOK.ranges {s s' : Syntax} {root : Ptr} (hi : InitOK s root s') {p : Ptr} {d : PDef} {is : List Ptr}
    {rs : List (Int × Int)} {ac : Bool} (hr : Reach s'.env root p) (hd : s'.env.defs[p]? = some d) (hk : d.kind = .seq is rs ac) :
    is.length ≤ rs.length := by
  obtain ⟨e, e1, rfl⟩ := Syntax.env_get hd
  obtain ⟨d', k1, -, k2, -⟩ := hi.done _ (hi.reach hr)
  rw [e1] at k1; cases k1
  unfold Def.toPDef at hk
  cases hke : e.kind <;> rw [hke] at hk <;> simp at hk
  obtain ⟨rfl, rfl, rfl⟩ := hk
  rw [hke] at k2
  simp only [DKind.Resolved] at k2
  obtain ⟨h1, -, ⟨t, h2⟩, -⟩ := k2
  have := congrArg List.length h1
  simp only [List.length_map] at this
  rw [h2, ← this]
  simp

/-- The result of a successful `Init`: parsers that are linked and derive what the grammar `G` derives,
where the root is called `rootName`. -/
structure Ready (G : Grammar Name) (rootName : Name) (s' : Syntax) (root : Ptr) : Prop where
  initialized : s'.initialized = true
  initFailed : s'.initFailed = false
  rootEq : s'.root = some root
  linked : Linked s'.env root
  morphism : Morphism s'.env.grammar G (Reach s'.env root) s'.nameAt
  nameEq : s'.nameAt root = rootName
  chars : ∀ {p : Ptr} {d : PDef} {is : List Ptr} {rs : List (Int × Int)} {ac : Bool}, Reach s'.env root p →
    s'.env.defs[p]? = some d → d.kind = .seq is rs ac →
    ac = is.all fun q => ((s'.env.defs[q]?).map fun e => e.kind.isChar).getD false
  ranges : ∀ {p : Ptr} {d : PDef} {is : List Ptr} {rs : List (Int × Int)} {ac : Bool}, Reach s'.env root p →
    s'.env.defs[p]? = some d → d.kind = .seq is rs ac → is.length ≤ rs.length

/-- The name of the root definition. -/
def Syntax.rootName (s : Syntax) : Name := (s.root.map s.nameAt).getD []

theorem Init_noWs {s s' : Syntax} (hs : SInv s) (hw : ¬ s.HasWhitespace) (hnc : s.RootNotChar)
    (h : s.Init = .ok (s', none)) :
    ∃ root, s.root = some root ∧ Ready s.grammar s.rootName s' root := by
  rw [Syntax.Init_eq, if_neg (by simp [hs.initFailed]), if_neg (by simp [hs.initialized])] at h
  cases hroot : s.root with
  | none => rw [hroot] at h; simp at h
  | some root =>
    refine ⟨root, rfl, ?_⟩
    rw [hroot] at h
    simp only at h
    cases hd : s.heap[root]? with
    | none => rw [hd] at h; cases h
    | some d =>
      rw [hd] at h
      simp only at h
      split at h
      · simp at h
      · rename_i hc
        rw [prepare_noWs hs hw] at h
        have hprep := Built.prepared_noWs hs hroot hnc hd (by simpa using hc)
        have hspec := (finishInit_spec hprep.toPrepBase).of_eq h
        simp only at hspec
        have hm := hspec.morphism hprep
        have hG : Syntax.grammar { s with heap := s.preHeap } = s.grammar :=
          Syntax.grammar_sk (s := s) (s' := { s with heap := s.preHeap }) hs.preSk rfl
        rw [hG] at hm
        refine ⟨by rw [hspec.same], by rw [hspec.same]; exact hs.initFailed, by rw [hspec.same]; exact hroot,
          hspec.linked hprep, hm, ?_, hspec.allChars, hspec.ranges⟩
        have hsk : SameSk s.heap s'.heap := hs.preSk.trans hspec.sk
        obtain ⟨d', g1, g2⟩ := hsk.to hd
        simp [Syntax.rootName, Syntax.nameAt, hroot, g1, hd, Def.sk_name g2]

end Treerack
