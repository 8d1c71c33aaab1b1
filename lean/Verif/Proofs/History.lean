import Verif.Proofs.Names

/-
The definition API: what holds after any sequence of calls.
-/

namespace Treerack

/-- Definition objects as they are passed to the registration. -/
inductive RawDef : Def → Prop
  | char (name : Name) (neg : Bool) (cs : List Rune) (rs : List (Rune × Rune)) :
      RawDef (newChar name neg cs rs)
  | choice (name : Name) (ct : Commit) (os : List Name) : RawDef (newChoice name ct os)
  | seq (name : Name) (ct : Commit) (items : List SeqItem) : RawDef (newSequence name ct items)

def DKind.Raw : DKind → Prop
  | .char _ _ _ => True
  | .choice _ ds => ds = []
  | .seq orig items ds ranges ac => orig = items ∧ ds = [] ∧ ranges = [] ∧ ac = false

/-- The syntaxes that can be built by registering definitions.  A registration that reports an error is
included as long as it left the root and the keywords alone. -/
inductive Built : Syntax → Prop
  | empty : Built {}
  | ok {s s' : Syntax} {d : Def} : Built s → RawDef d → s.register d = (s', none) → Built s'
  | rejected {s s' : Syntax} {d : Def} {e : SynErr} : Built s → RawDef d → s.register d = (s', some e) →
      s'.root = s.root → s'.keywords = s.keywords → Built s'

def Def.withRoot (b : Bool) (d : Def) : Def := d.setCommitType { d.commitType with root := b }

theorem withRoot_name (b : Bool) (d : Def) : (d.withRoot b).name = d.name := by
  unfold Def.withRoot Def.setCommitType; split <;> rfl
theorem withRoot_id (b : Bool) (d : Def) : (d.withRoot b).id = d.id := by
  unfold Def.withRoot Def.setCommitType; split <;> rfl
theorem withRoot_gens (b : Bool) (d : Def) : (d.withRoot b).gens = d.gens := by
  unfold Def.withRoot Def.setCommitType; split <;> rfl
theorem withRoot_validated (b : Bool) (d : Def) : (d.withRoot b).validated = d.validated := by
  unfold Def.withRoot Def.setCommitType; split <;> rfl
theorem withRoot_initialized (b : Bool) (d : Def) : (d.withRoot b).initialized = d.initialized := by
  unfold Def.withRoot Def.setCommitType; split <;> rfl
theorem withRoot_kind (b : Bool) (d : Def) : (d.withRoot b).kind = d.kind := by
  unfold Def.withRoot Def.setCommitType; split <;> rfl
theorem withRoot_commit (b : Bool) (d : Def) (h : d.kind.isChar = false) :
    (d.withRoot b).commit = { d.commit with root := b } := by
  unfold Def.withRoot Def.setCommitType Def.commitType
  cases hk : d.kind <;> rw [hk] at h <;> first | rfl | cases h
theorem withRoot_char (b : Bool) (d : Def) (h : d.kind.isChar = true) : d.withRoot b = d := by
  unfold Def.withRoot Def.setCommitType
  cases hk : d.kind <;> rw [hk] at h <;> first | rfl | cases h

/-- Does the registration change the root? -/
def Syntax.takesRoot (s : Syntax) (d : Def) : Bool := d.commitType.root || !s.explicitRoot

/-- The objects after a registration. -/
structure Registered (s : Syntax) (d : Def) (s' : Syntax) : Prop where
  notInit : s.initialized = false
  compat : d.commitType.incompatible = false
  noDup : s.registry.lookup d.name = none
  single : d.commitType.root = true → s.explicitRoot = false
  len : s'.heap.length = s.heap.length + 1
  old : ∀ q : Ptr, q < s.heap.length → s'.heap[q]? =
    (s.heap[q]?).map (if s.takesRoot d = true ∧ s.root = some q then Def.withRoot false else id)
  new : s'.heap[s.heap.length]? =
    some { (if s.takesRoot d then d.withRoot true else d) with id := s.registry.idSeed + 1 }
  registry : s'.registry = { idSeed := s.registry.idSeed + 1
                             definition := (d.name, s.heap.length) :: s.registry.definition
                             definitions := s.registry.definitions ++ [s.heap.length] }
  keywords : s'.keywords = s.keywords ++ (if d.commitType.keyword then [s.heap.length] else [])
  root : s'.root = if s.takesRoot d then some s.heap.length else s.root
  explicitRoot : s'.explicitRoot = (s.explicitRoot || d.commitType.root)
  initialized : s'.initialized = false
  initFailed : s'.initFailed = s.initFailed

theorem commitOf_append (h : Heap) (d : Def) : Syntax.commitOf (h ++ [d]) h.length = d.commitType := by
  simp [Syntax.commitOf]

theorem withRoot_keyword (b : Bool) (d : Def) : (d.withRoot b).commitType.keyword = d.commitType.keyword := by
  unfold Def.withRoot Def.setCommitType Def.commitType
  cases hk : d.kind <;> simp [hk]

/-- `applyRoot`, for the last object. -/
theorem applyRoot_spec {s s1 : Syntax} {d : Def} {h0 : Heap} (hh : s.heap = h0 ++ [d])
    (hr : ∀ r, s.root = some r → r < h0.length)
    (h : s.applyRoot h0.length = (s1, none)) :
    (d.commitType.root = true → s.explicitRoot = false) ∧
    s1.heap.length = h0.length + 1 ∧
    (∀ q : Ptr, q < h0.length → s1.heap[q]? = (h0[q]?).map
      (if s.takesRoot d = true ∧ s.root = some q then Def.withRoot false else id)) ∧
    s1.heap[h0.length]? = some (if s.takesRoot d then d.withRoot true else d) ∧
    s1.root = (if s.takesRoot d then some h0.length else s.root) ∧
    s1.explicitRoot = (s.explicitRoot || d.commitType.root) ∧
    s1.registry = s.registry ∧ s1.keywords = s.keywords ∧ s1.initialized = s.initialized ∧
    s1.initFailed = s.initFailed := by
  have hc : Syntax.commitOf s.heap h0.length = d.commitType := by rw [hh]; exact commitOf_append h0 d
  unfold Syntax.applyRoot at h
  simp only [hc] at h
  clear hc
  have hold : ∀ q : Ptr, q < h0.length → (h0 ++ [d])[q]? = h0[q]? := fun q hq =>
    List.getElem?_append_left hq
  have hnew : (h0 ++ [d])[h0.length]? = some d := by simp
  rcases s with ⟨heap, registry, initialized, initFailed, explicitRoot, keywords, root⟩
  simp only at hh
  subst hh
  unfold Syntax.takesRoot
  simp only at hr h ⊢
  generalize d.commitType.root = ct at *
  have hupd0 : ∀ f : Def → Def, (Heap.update (h0 ++ [d]) h0.length f).length = h0.length + 1 := by
    intro f; rw [Heap.length_update]; simp
  have hset : ∀ d : Def, d.setCommitType { d.commitType with root := true } = d.withRoot true := fun _ => rfl
  have hunset : ∀ d : Def, d.setCommitType { d.commitType with root := false } = d.withRoot false :=
    fun _ => rfl
  simp only [hset, hunset] at h
  cases explicitRoot
  · cases root with
    | none =>
      cases ct <;>
      · simp at h
        subst h
        refine ⟨by simp, by simp [Heap.length_update], ?_, ?_, rfl, rfl, rfl, rfl, rfl, rfl⟩
        · intro q hq
          simp only [Heap.getElem?_update, if_neg (Nat.ne_of_gt hq)]
          rw [hold q hq]; simp
        · simp only [Heap.getElem?_update, if_true]
          rw [hnew]; simp
    | some r =>
      have hrl := hr r rfl
      cases ct <;>
      · simp at h
        subst h
        refine ⟨by simp, by simp [Heap.length_update], ?_, ?_, rfl, rfl, rfl, rfl, rfl, rfl⟩
        · intro q hq
          simp only [Heap.getElem?_update, if_neg (Nat.ne_of_gt hq), Option.some.injEq]
          rw [hold q hq]
          by_cases hrq : r = q
          · simp [hrq]
          · simp [hrq]
        · simp only [Heap.getElem?_update, if_true, if_neg (Nat.ne_of_lt hrl)]
          rw [hnew]; simp
  · cases ct
    · have h' : s1 = ⟨h0 ++ [d], registry, initialized, initFailed, true, keywords, root⟩ := by
        cases root <;> simp at h <;> exact h.symm
      subst h'
      refine ⟨by simp, by simp, ?_, by simp, by simp, rfl, rfl, rfl, rfl, rfl⟩
      intro q hq
      simp only
      rw [hold q hq]; simp
    · simp at h

theorem register_spec {s s' : Syntax} {d : Def} (hr : ∀ r, s.root = some r → r < s.heap.length)
    (h : s.register d = (s', none)) : Registered s d s' := by
  unfold Syntax.register at h
  split at h
  · simp at h
  · rename_i hni
    simp only at h
    split at h
    · simp at h
    · rename_i hcompat
      split at h
      · simp at h
      · rename_i s1 hap
        obtain ⟨a1, a2, a3, a4, a5, a6, a7, a8, a9, a10⟩ :=
          applyRoot_spec (s := { s with heap := s.heap ++ [d] }) (d := d) (h0 := s.heap) rfl hr hap
        simp only at a1 a2 a3 a4 a5 a6 a7 a8 a9 a10
        have ht : Syntax.takesRoot { s with heap := s.heap ++ [d] } d = s.takesRoot d := rfl
        rw [ht] at a3 a4 a5
        -- the keywords
        have hkw : (Syntax.commitOf s1.heap s.heap.length).keyword = d.commitType.keyword := by
          unfold Syntax.commitOf
          rw [a4]
          simp only
          split
          · exact withRoot_keyword true d
          · rfl
        rw [hkw] at h
        have hname : ∀ b : Bool, (if b = true then d.withRoot true else d).name = d.name := by
          intro b; cases b <;> simp [withRoot_name]
        cases hk : d.commitType.keyword
        · simp only [hk, Bool.false_eq_true, if_false, a7, Prod.mk.injEq] at h
          unfold Registry.setDefinition at h
          simp only [a4, hname] at h
          cases hlk : s.registry.lookup d.name with
          | some _ => simp [hlk] at h
          | none =>
            simp only [hlk] at h
            obtain ⟨rfl, -⟩ := h
            refine ⟨by simpa using hni, by simpa using hcompat, hlk, a1, ?_, ?_, ?_, rfl, ?_, a5, a6, ?_, a10⟩
            · simp only [Heap.length_update]; exact a2
            · intro q hq
              simp only [Heap.getElem?_update, if_neg (Nat.ne_of_gt hq)]
              exact a3 q hq
            · simp only [Heap.getElem?_update, if_true, a4]; rfl
            · simp [a8, hk]
            · simp only [a9]; simpa using hni
        · simp only [hk, if_true, a7, Prod.mk.injEq] at h
          unfold Registry.setDefinition at h
          simp only [a4, hname] at h
          cases hlk : s.registry.lookup d.name with
          | some _ => simp [hlk] at h
          | none =>
            simp only [hlk] at h
            obtain ⟨rfl, -⟩ := h
            refine ⟨by simpa using hni, by simpa using hcompat, hlk, a1, ?_, ?_, ?_, rfl, ?_, a5, a6, ?_, a10⟩
            · simp only [Heap.length_update]; exact a2
            · intro q hq
              simp only [Heap.getElem?_update, if_neg (Nat.ne_of_gt hq)]
              exact a3 q hq
            · simp only [Heap.getElem?_update, if_true, a4]; rfl
            · simp [a8, hk]
            · simp only [a9]; simpa using hni

/-- A registration that reports an error and leaves the root and the keywords alone. -/
theorem rejected_spec {s s' : Syntax} {d : Def} {e : SynErr}
    (hr : ∀ r, s.root = some r → r < s.heap.length) (hni : s.initialized = false)
    (h : s.register d = (s', some e)) (hroot : s'.root = s.root) (hkw : s'.keywords = s.keywords) :
    s' = { s with heap := s.heap ++ [d] } := by
  unfold Syntax.register at h
  rw [if_neg (by simp [hni])] at h
  simp only at h
  split at h
  · simp only [Prod.mk.injEq] at h; exact h.1.symm
  · split at h
    · rename_i s1 e1 hap
      simp only [Prod.mk.injEq] at h
      obtain ⟨rfl, -⟩ := h
      unfold Syntax.applyRoot at hap
      simp only at hap
      split at hap
      · simp only [Prod.mk.injEq] at hap; exact hap.1.symm
      · simp at hap
    · rename_i s1 hap
      obtain ⟨a1, a2, a3, a4, a5, a6, a7, a8, a9, a10⟩ :=
        applyRoot_spec (s := { s with heap := s.heap ++ [d] }) (d := d) (h0 := s.heap) rfl hr hap
      simp only at a1 a2 a3 a4 a5 a6 a7 a8 a9 a10
      have ht : Syntax.takesRoot { s with heap := s.heap ++ [d] } d = s.takesRoot d := rfl
      rw [ht] at a3 a4 a5
      generalize hs2 : (if (Syntax.commitOf s1.heap s.heap.length).keyword = true then
        { s1 with keywords := s1.keywords ++ [s.heap.length] } else s1) = s2 at h
      have hs2r : s2.root = s1.root := by rw [← hs2]; split <;> rfl
      have hs2g : s2.registry = s1.registry := by rw [← hs2]; split <;> rfl
      have hs2h : s2.heap = s1.heap := by rw [← hs2]; split <;> rfl
      -- the name is taken
      unfold Registry.setDefinition at h
      rw [hs2h, a4] at h
      simp only at h
      split at h
      · simp only [Prod.mk.injEq] at h
        obtain ⟨rfl, -⟩ := h
        simp only at hroot hkw
        have htr : s.takesRoot d = false := by
          cases hh : s.takesRoot d
          · rfl
          · rw [hs2r, a5, hh] at hroot
            simp only [if_true] at hroot
            exact absurd (hr _ hroot.symm) (Nat.lt_irrefl _)
        rw [htr] at a3 a4 a5
        have hk2 : s2 = s1 := by
          rw [← hs2]
          rw [← hs2] at hkw
          split
          · rename_i hk
            rw [if_pos hk] at hkw
            simp only [a8] at hkw
            have := congrArg List.length hkw
            simp at this
          · rfl
        rw [hk2]
        unfold Syntax.applyRoot at hap
        simp only [commitOf_append] at hap
        have hex : d.commitType.root = false ∧ s.explicitRoot = true := by
          unfold Syntax.takesRoot at htr
          simpa using htr
        simp only [hex.1, hex.2] at hap
        have : s1 = { s with heap := s.heap ++ [d] } := by
          cases hsr : s.root <;> rw [hsr] at hap <;> simp at hap <;> rw [← hap] <;> simp [hex.2]
        rw [this]
      · simp at h

/-- What holds after any sequence of registrations. -/
structure SInv (s : Syntax) : Prop where
  initialized : s.initialized = false
  initFailed : s.initFailed = false
  raw : ∀ (p : Ptr) d, s.heap[p]? = some d →
    d.validated = false ∧ d.initialized = false ∧ d.gens = [] ∧ d.kind.Raw
  nodup : s.registry.definitions.Nodup
  seed : s.registry.idSeed = s.registry.definitions.length
  ids : ∀ (i : Nat) (p : Ptr), s.registry.definitions[i]? = some p → ∃ d, s.heap[p]? = some d ∧ d.id = i + 1
  lookup : ∀ n p, s.registry.lookup n = some p ↔
    p ∈ s.registry.definitions ∧ ∃ d, s.heap[p]? = some d ∧ d.name = n
  rootIn : ∀ r, s.root = some r → r ∈ s.registry.definitions
  rootNone : s.root = none → s.registry.definitions = []
  explicit : s.explicitRoot = true → s.root ≠ none
  rootFlag : ∀ (p : Ptr) d, p ∈ s.registry.definitions → s.heap[p]? = some d → d.kind.isChar = false →
    (d.commit.root = true ↔ s.root = some p)
  compat : ∀ (p : Ptr) d, p ∈ s.registry.definitions → s.heap[p]? = some d → d.kind.isChar = false →
    Commit.incompatible { d.commit with root := false } = false
  charCommit : ∀ (p : Ptr) d, s.heap[p]? = some d → d.kind.isChar = true → d.commit = {}
  keywords : ∀ k, k ∈ s.keywords ↔ k ∈ s.registry.definitions ∧
    ∃ d, s.heap[k]? = some d ∧ d.kind.isChar = false ∧ d.commit.keyword = true

theorem SInv.empty : SInv {} := by
  refine ⟨rfl, rfl, ?_, ?_, rfl, ?_, ?_, ?_, ?_, ?_, ?_, ?_, ?_, ?_⟩ <;> simp [Registry.lookup]

theorem SInv.mem_lt {s : Syntax} (hs : SInv s) {p : Ptr} (hp : p ∈ s.registry.definitions) :
    p < s.heap.length := by
  obtain ⟨i, hi⟩ := List.getElem?_of_mem hp
  obtain ⟨d, hd, -⟩ := hs.ids i p hi
  exact (List.getElem?_eq_some_iff.1 hd).1

theorem SInv.root_lt {s : Syntax} (hs : SInv s) : ∀ r, s.root = some r → r < s.heap.length :=
  fun r h => hs.mem_lt (hs.rootIn r h)

theorem RawDef.raw {d : Def} (h : RawDef d) :
    d.validated = false ∧ d.initialized = false ∧ d.gens = [] ∧ d.kind.Raw ∧ d.id = 0 ∧
    (d.kind.isChar = true → d.commit = {}) := by
  cases h <;> simp [newChar, newChoice, newSequence, DKind.Raw, DKind.isChar]

theorem Commit.incompatible_root {c : Commit} (h : c.incompatible = false) :
    Commit.incompatible { c with root := false } = false := by
  rcases c with ⟨a, b, c, d, e, f, g, i⟩
  revert h
  cases a <;> cases b <;> cases d <;> cases e <;> cases f <;> cases g <;> simp [Commit.incompatible]

theorem commitType_char {d : Def} (h : d.kind.isChar = true) : d.commitType = { alias := true } := by
  unfold Def.commitType
  cases hk : d.kind <;> rw [hk] at h <;> first | rfl | cases h

theorem commitType_notChar {d : Def} (h : d.kind.isChar = false) : d.commitType = d.commit := by
  unfold Def.commitType
  cases hk : d.kind <;> rw [hk] at h <;> first | rfl | cases h

theorem SInv.register {s s' : Syntax} {d : Def} (hs : SInv s) (hd : RawDef d) (hr : Registered s d s') :
    SInv s' := by
  obtain ⟨r1, r2, r3, r4, r5, r6⟩ := hd.raw
  -- old objects
  have hold : ∀ (q : Ptr) e', q < s.heap.length → s'.heap[q]? = some e' → ∃ e, s.heap[q]? = some e ∧
      (e' = e ∧ ¬ (s.takesRoot d = true ∧ s.root = some q) ∨
       e' = e.withRoot false ∧ s.takesRoot d = true ∧ s.root = some q) := by
    intro q e' hq he'
    rw [hr.old q hq] at he'
    obtain ⟨e, h1, h2⟩ := Option.map_eq_some_iff.1 he'
    refine ⟨e, h1, ?_⟩
    split at h2
    · rename_i hc; exact Or.inr ⟨h2.symm, hc⟩
    · rename_i hc; exact Or.inl ⟨h2.symm, hc⟩
  have hto : ∀ (q : Ptr) e, q < s.heap.length → s.heap[q]? = some e → ∃ e', s'.heap[q]? = some e' ∧
      e'.name = e.name ∧ e'.id = e.id ∧ e'.kind = e.kind ∧
      (e.kind.isChar = false → e'.commit.keyword = e.commit.keyword) := by
    intro q e hq he
    rw [hr.old q hq, he]
    split
    · refine ⟨_, rfl, withRoot_name .., withRoot_id .., withRoot_kind .., fun hk => ?_⟩
      rw [withRoot_commit _ _ hk]
    · exact ⟨_, rfl, rfl, rfl, rfl, fun _ => rfl⟩
  -- the new object
  have hnew : ∀ e', s'.heap[s.heap.length]? = some e' → e'.validated = false ∧ e'.initialized = false ∧
      e'.gens = [] ∧ e'.kind = d.kind ∧ e'.name = d.name ∧ e'.id = s.registry.idSeed + 1 ∧
      (d.kind.isChar = true → e'.commit = d.commit) ∧
      (d.kind.isChar = false → e'.commit = { d.commit with root := s.takesRoot d || d.commit.root }) := by
    intro e' he'
    rw [hr.new] at he'
    cases he'
    cases ht : s.takesRoot d
    · refine ⟨r1, r2, r3, rfl, rfl, rfl, fun _ => rfl, fun _ => rfl⟩
    · refine ⟨?_, ?_, ?_, ?_, ?_, rfl, ?_, ?_⟩
      · simp [withRoot_validated, r1]
      · simp [withRoot_initialized, r2]
      · simp [withRoot_gens, r3]
      · simp [withRoot_kind]
      · simp [withRoot_name]
      · intro hk; simp [withRoot_char _ _ hk]
      · intro hk; simp [withRoot_commit _ _ hk]
  have hlt : ∀ {q : Ptr} {e' : Def}, s'.heap[q]? = some e' → q < s.heap.length ∨ q = s.heap.length := by
    intro q e' he
    have h1 := (List.getElem?_eq_some_iff.1 he).1
    rw [hr.len] at h1
    exact Nat.lt_or_eq_of_le (Nat.le_of_lt_succ h1)
  have hnotmem : s.heap.length ∉ s.registry.definitions := fun h => Nat.lt_irrefl _ (hs.mem_lt h)
  have hmem : ∀ q, q ∈ s'.registry.definitions ↔ q ∈ s.registry.definitions ∨ q = s.heap.length := by
    intro q; rw [hr.registry]; simp
  refine ⟨hr.initialized, by rw [hr.initFailed]; exact hs.initFailed, ?_, ?_, ?_, ?_, ?_, ?_, ?_, ?_, ?_, ?_, ?_, ?_⟩
  · intro p e' he'
    rcases hlt he' with hp | rfl
    · obtain ⟨e, h1, h2 | ⟨h2, -⟩⟩ := hold p e' hp he'
      · rw [h2.1]; exact hs.raw p e h1
      · rw [h2, withRoot_validated, withRoot_initialized, withRoot_gens, withRoot_kind]
        exact hs.raw p e h1
    · obtain ⟨a1, a2, a3, a4, -⟩ := hnew e' he'
      exact ⟨a1, a2, a3, a4 ▸ r4⟩
  · rw [hr.registry]
    simp only
    rw [List.nodup_append]
    refine ⟨hs.nodup, by simp, ?_⟩
    intro a ha b hb
    simp only [List.mem_singleton] at hb; subst hb
    rintro rfl
    exact hnotmem ha
  · rw [hr.registry]; simp [hs.seed]
  · intro i p hp
    rw [hr.registry] at hp
    simp only [List.getElem?_append] at hp
    split at hp
    · obtain ⟨e, h1, h2⟩ := hs.ids i p hp
      obtain ⟨e', g1, -, g2, -⟩ := hto p e (List.getElem?_eq_some_iff.1 h1).1 h1
      exact ⟨e', g1, g2.trans h2⟩
    · rename_i hi
      have hp' := hp
      rw [List.getElem?_singleton] at hp
      split at hp
      · rename_i hi0
        cases hp
        refine ⟨_, hr.new, ?_⟩
        show s.registry.idSeed + 1 = i + 1
        rw [hs.seed]
        omega
      · cases hp
  · intro n p
    have hcons : s'.registry.lookup n = if n == d.name then some s.heap.length else s.registry.lookup n := by
      rw [hr.registry]
      unfold Registry.lookup
      simp only [List.lookup_cons]
      cases n == d.name <;> rfl
    rw [hcons, hmem]
    by_cases hn : n = d.name
    · subst hn
      simp only [BEq.rfl, if_true, Option.some.injEq]
      constructor
      · rintro rfl
        refine ⟨Or.inr rfl, _, hr.new, (hnew _ hr.new).2.2.2.2.1⟩
      · rintro ⟨hp | rfl, e', he', hname⟩
        · exfalso
          obtain ⟨e, h1, h2⟩ := hold p e' (hs.mem_lt hp) he'
          have hen : e.name = d.name := by
            rcases h2 with ⟨h2, -⟩ | ⟨h2, -⟩
            · rw [← h2]; exact hname
            · rw [h2, withRoot_name] at hname; exact hname
          have := (hs.lookup d.name p).2 ⟨hp, e, h1, hen⟩
          rw [hr.noDup] at this; cases this
        · rfl
    · have : (n == d.name) = false := by simpa using hn
      rw [this]
      simp only [Bool.false_eq_true, if_false]
      rw [hs.lookup]
      constructor
      · rintro ⟨hp, e, h1, h2⟩
        obtain ⟨e', g1, g2, -⟩ := hto p e (hs.mem_lt hp) h1
        exact ⟨Or.inl hp, e', g1, g2.trans h2⟩
      · rintro ⟨hp | rfl, e', he', hname⟩
        · obtain ⟨e, h1, h2⟩ := hold p e' (hs.mem_lt hp) he'
          refine ⟨hp, e, h1, ?_⟩
          rcases h2 with ⟨h2, -⟩ | ⟨h2, -⟩
          · rw [← h2]; exact hname
          · rw [h2, withRoot_name] at hname; exact hname
        · exact absurd (hname.symm.trans (hnew e' he').2.2.2.2.1) hn
  · intro r hrr
    rw [hr.root] at hrr
    rw [hmem]
    split at hrr
    · cases hrr; exact Or.inr rfl
    · exact Or.inl (hs.rootIn r hrr)
  · intro hnone
    rw [hr.root] at hnone
    split at hnone
    · cases hnone
    · rename_i ht
      -- the first definition always becomes the root
      have : s.explicitRoot = true := by
        unfold Syntax.takesRoot at ht
        simp only [Bool.or_eq_true, Bool.not_eq_true', not_or] at ht
        simpa using ht.2
      exact absurd hnone (hs.explicit this)
  · intro hex
    rw [hr.explicitRoot] at hex
    rw [hr.root]
    split
    · simp
    · rename_i ht
      unfold Syntax.takesRoot at ht
      simp only [Bool.or_eq_true, Bool.not_eq_true', not_or] at ht
      exact hs.explicit (by simpa using ht.2)
  · intro p e' hp he' hk
    rw [hmem] at hp
    rw [hr.root]
    rcases hp with hp | rfl
    · obtain ⟨e, h1, h2⟩ := hold p e' (hs.mem_lt hp) he'
      have hne : p ≠ s.heap.length := Nat.ne_of_lt (hs.mem_lt hp)
      rcases h2 with ⟨rfl, h2⟩ | ⟨rfl, h2, h3⟩
      · rw [hs.rootFlag p e' hp h1 hk]
        cases ht : s.takesRoot d
        · simp
        · simp only [if_true, Option.some.injEq]
          rw [ht] at h2
          simp only [true_and] at h2
          constructor
          · intro h; exact absurd h h2
          · intro h; exact absurd h.symm hne
      · rw [withRoot_kind] at hk
        rw [withRoot_commit _ _ hk, h2]
        simp only [Bool.false_eq_true, if_true, Option.some.injEq, false_iff]
        exact fun h => hne h.symm
    · obtain ⟨-, -, -, a4, -, -, -, a8⟩ := hnew e' he'
      rw [a4] at hk
      rw [a8 hk]
      cases ht : s.takesRoot d
      · have hroot : d.commit.root = false := by
          unfold Syntax.takesRoot at ht
          rw [commitType_notChar hk] at ht
          simp only [Bool.or_eq_false_iff] at ht
          exact ht.1
        simp only [hroot, Bool.or_self, Bool.false_eq_true, if_false, false_iff]
        intro h
        exact Nat.lt_irrefl _ (hs.root_lt _ h)
      · simp
  · intro p e' hp he' hk
    rw [hmem] at hp
    rcases hp with hp | rfl
    · obtain ⟨e, h1, h2⟩ := hold p e' (hs.mem_lt hp) he'
      rcases h2 with ⟨rfl, -⟩ | ⟨rfl, -⟩
      · exact hs.compat p e' hp h1 hk
      · rw [withRoot_kind] at hk
        rw [withRoot_commit _ _ hk]
        exact hs.compat p e hp h1 hk
    · obtain ⟨-, -, -, a4, -, -, -, a8⟩ := hnew e' he'
      rw [a4] at hk
      rw [a8 hk]
      have := hr.compat
      rw [commitType_notChar hk] at this
      have h := Commit.incompatible_root this
      exact h
  · intro p e' he' hk
    rcases hlt he' with hp | rfl
    · obtain ⟨e, h1, h2⟩ := hold p e' hp he'
      rcases h2 with ⟨rfl, -⟩ | ⟨rfl, -⟩
      · exact hs.charCommit p e' h1 hk
      · rw [withRoot_kind] at hk
        rw [withRoot_char _ _ hk]
        exact hs.charCommit p e h1 hk
    · obtain ⟨-, -, -, a4, -, -, a7, -⟩ := hnew e' he'
      rw [a4] at hk
      rw [a7 hk]
      exact r6 hk
  · intro k
    rw [hr.keywords, List.mem_append, hs.keywords, hmem]
    constructor
    · rintro (⟨hk, e, h1, h2, h3⟩ | hk)
      · obtain ⟨e', g1, -, -, g2, g3⟩ := hto k e (hs.mem_lt hk) h1
        exact ⟨Or.inl hk, e', g1, by rw [g2]; exact h2, by rw [g3 h2]; exact h3⟩
      · split at hk
        · rename_i hkw
          simp only [List.mem_singleton] at hk; subst hk
          obtain ⟨-, -, -, a4, -, -, -, a8⟩ := hnew _ hr.new
          have hnc : d.kind.isChar = false := by
            cases hc : d.kind.isChar
            · rfl
            · rw [commitType_char hc] at hkw; cases hkw
          refine ⟨Or.inr rfl, _, hr.new, by rw [a4]; exact hnc, ?_⟩
          rw [a8 hnc]
          rw [commitType_notChar hnc] at hkw
          exact hkw
        · cases hk
    · rintro ⟨hk | rfl, e', he', h2, h3⟩
      · left
        obtain ⟨e, h1, hh⟩ := hold k e' (hs.mem_lt hk) he'
        rcases hh with ⟨rfl, -⟩ | ⟨rfl, -⟩
        · exact ⟨hk, e', h1, h2, h3⟩
        · rw [withRoot_kind] at h2
          rw [withRoot_commit _ _ h2] at h3
          exact ⟨hk, e, h1, h2, h3⟩
      · right
        obtain ⟨-, -, -, a4, -, -, -, a8⟩ := hnew e' he'
        rw [a4] at h2
        rw [a8 h2] at h3
        rw [if_pos]
        · simp
        · rw [commitType_notChar h2]; exact h3

/-- Objects that are not registered do not matter. -/
theorem SInv.garbage {s : Syntax} {d : Def} (hs : SInv s) (hd : RawDef d) :
    SInv { s with heap := s.heap ++ [d] } := by
  obtain ⟨r1, r2, r3, r4, r5, r6⟩ := hd.raw
  have hold : ∀ q : Ptr, q < s.heap.length → (s.heap ++ [d])[q]? = s.heap[q]? := fun q hq =>
    List.getElem?_append_left hq
  have hm : ∀ q ∈ s.registry.definitions, (s.heap ++ [d])[q]? = s.heap[q]? := fun q hq =>
    hold q (hs.mem_lt hq)
  have hcase : ∀ (q : Ptr) e, (s.heap ++ [d])[q]? = some e → s.heap[q]? = some e ∨ e = d := by
    intro q e h
    rw [List.getElem?_append] at h
    split at h
    · exact Or.inl h
    · rw [List.getElem?_singleton] at h
      split at h
      · cases h; exact Or.inr rfl
      · cases h
  refine ⟨hs.initialized, hs.initFailed, ?_, hs.nodup, hs.seed, ?_, ?_, hs.rootIn, hs.rootNone, hs.explicit,
    ?_, ?_, ?_, ?_⟩
  · intro p e he
    rcases hcase p e he with h | rfl
    · exact hs.raw p e h
    · exact ⟨r1, r2, r3, r4⟩
  · intro i p hp
    simp only at hp ⊢
    rw [hm p (List.mem_of_getElem? hp)]
    exact hs.ids i p hp
  · intro n p
    simp only
    rw [hs.lookup]
    constructor
    · rintro ⟨h1, h2⟩; rw [hm p h1]; exact ⟨h1, h2⟩
    · rintro ⟨h1, h2⟩; rw [hm p h1] at h2; exact ⟨h1, h2⟩
  · intro p e hp he
    simp only at hp he
    rw [hm p hp] at he
    exact hs.rootFlag p e hp he
  · intro p e hp he
    simp only at hp he
    rw [hm p hp] at he
    exact hs.compat p e hp he
  · intro p e he hk
    rcases hcase p e he with h | rfl
    · exact hs.charCommit p e h hk
    · exact r6 hk
  · intro k
    simp only
    rw [hs.keywords]
    constructor
    · rintro ⟨h1, h2⟩; rw [hm k h1]; exact ⟨h1, h2⟩
    · rintro ⟨h1, h2⟩; rw [hm k h1] at h2; exact ⟨h1, h2⟩

theorem Built.inv {s : Syntax} (h : Built s) : SInv s := by
  induction h with
  | empty => exact .empty
  | ok _ hd hr ih => exact ih.register hd (register_spec ih.root_lt hr)
  | rejected _ hd hr h1 h2 ih =>
    rw [rejected_spec ih.root_lt ih.initialized hr h1 h2]
    exact ih.garbage hd

end Treerack
