import Verif.Proofs.Init
import Verif.Proofs.Linked

/-
From a prepared syntax (all the definitions registered, the whitespace applied) to linked parsers.
-/

namespace Treerack

/-- What holds before validation, in every case. -/
structure PrepBase (s : Syntax) (root : Ptr) : Prop where
  lookup_lt : ∀ n p, s.registry.lookup n = some p → p < s.heap.length
  keywords_lt : ∀ k ∈ s.keywords, k < s.heap.length
  root_lt : root < s.heap.length
  fresh : ∀ (p : Ptr) d, s.heap[p]? = some d →
    d.validated = false ∧ d.initialized = false ∧ d.gens = [] ∧ d.kind.Fresh

/-- The last part of `Init`: syntax.go:326-345. -/
def Syntax.finishInit (s : Syntax) (root : Ptr) : Res (Syntax × Option SynErr) :=
  let n := s.heap.length + 1
  (validateAll s.registry n (s.keywords ++ [root]) s.heap).bind fun (h, e) =>
    match e with
    | some e => .ok ({ s with heap := h, initFailed := true }, some e)
    | none =>
      (initAll s.registry n n (s.keywords ++ [root]) h).bind fun h =>
        .ok ({ s with heap := h, initialized := true }, none)

theorem Syntax.Init_eq (s : Syntax) : s.Init =
    if s.initFailed then .ok (s, some .initFailed)
    else if s.initialized then .ok (s, none)
    else
      match s.root with
      | none => .ok (s, some .noParsersDefined)
      | some root =>
        match s.heap[root]? with
        | none => .panic
        | some d =>
          if d.commitType.incompatible then .ok (s, some (.incompatibleCommit d.name))
          else (s.prepare root).bind fun x => x.1.finishInit x.2 := rfl

/-- The definitions that are used: the keywords, the root and everything referenced by them. -/
def Used (s : Syntax) (root p : Ptr) : Prop :=
  ∃ a, (a ∈ s.keywords ∨ a = root) ∧ RefReach s.registry s.heap a p

/-- The outcome of the last part of `Init`. -/
structure InitOK (s : Syntax) (root : Ptr) (s' : Syntax) : Prop where
  same : s' = { s with heap := s'.heap, initialized := true }
  sk : SameSk s.heap s'.heap
  defined : ∀ p d n, Used s root p → s.heap[p]? = some d → n ∈ d.kind.refs →
    ∃ q, s.registry.lookup n = some q
  done : ∀ p, Used s root p → Done s.registry s.heap s'.heap p
  gens : ∀ (p : Ptr) d, s'.heap[p]? = some d → ∀ g ∈ d.gens,
    ∃ q e, Used s root q ∧ s.heap[q]? = some e ∧ e.id = g ∧ NGen s.registry s.heap q p

theorem VStep.sameSk {h h' : Heap} (s : VStep h h') : SameSk h h' := by
  intro p
  cases hd : h[p]? with
  | some d =>
    obtain ⟨b, e1, -⟩ := s.def_ p d hd
    rw [e1]; rfl
  | none =>
    have : h'[p]? = none := by
      rw [List.getElem?_eq_none_iff] at hd ⊢
      rw [s.len]; exact hd
    rw [this]

theorem RefReach.snoc {r : Registry} {h : Heap} {a p q : Ptr} {d : Def} {n : Name}
    (hr : RefReach r h a p) (hd : h[p]? = some d) (hn : n ∈ d.kind.refs) (hq : r.lookup n = some q) :
    RefReach r h a q := hr.trans (.step hd hn hq .refl)

theorem RefReach.vis {r : Registry} {h0 h : Heap} (hs : VStep h0 h) {a p : Ptr}
    (hr : RefReach r h0 a p) (ha : Vis h a) (hc : ∀ p, Vis h p → VClosed r h p) : Vis h p := by
  induction hr with
  | refl => exact ha
  | step g1 g2 g3 _ ih =>
    obtain ⟨b, e1, -⟩ := hs.def_ _ _ g1
    obtain ⟨q', k1, k2⟩ := hc _ ha _ e1 _ g2
    rw [g3] at k1; cases k1
    exact ih k2

theorem RefReach.ini {r : Registry} {h0 h : Heap} (hs : SameSk h0 h) {a p : Ptr}
    (hr : RefReach r h0 a p) (ha : Ini h a) (hc : ∀ p, Ini h p → Done r h0 h p) : Ini h p := by
  induction hr with
  | refl => exact ha
  | step g1 g2 g3 _ ih =>
    obtain ⟨d', e1, e2⟩ := hs.to g1
    obtain ⟨d'', k0, -, -, k2⟩ := hc _ ha
    rw [e1] at k0; cases k0
    obtain ⟨q', k3, k4⟩ := k2 _ (by rw [Def.sk_refs e2]; exact g2)
    rw [g3] at k3; cases k3
    exact ih k4

theorem finishInit_spec {s : Syntax} {root : Ptr} (hp : PrepBase s root) :
    (s.finishInit root).Spec False False (fun x =>
      match x.2 with
      | some e => ∃ p d n, Used s root p ∧ s.heap[p]? = some d ∧ n ∈ d.kind.refs ∧
          s.registry.lookup n = none ∧ e = .parserNotFound n
      | none => InitOK s root x.1) := by
  unfold Syntax.finishInit
  simp only
  have hstart : ∀ p ∈ s.keywords ++ [root], p < s.heap.length := by
    intro p hp'
    rcases List.mem_append.1 hp' with h | h
    · exact hp.keywords_lt p h
    · simp only [List.mem_singleton] at h; subst h; exact hp.root_lt
  have hun : unval s.heap < s.heap.length + 1 := Nat.lt_succ_of_le List.countP_le_length
  refine Res.Spec.bind (validateAll_spec hp.lookup_lt _ _ _ hstart rfl hun) ?_
  rintro ⟨h1, e⟩ hv
  have hstep := hv.step
  simp only at hstep
  cases e with
  | some e =>
    simp only [Res.Spec.ok_iff]
    obtain ⟨a, q, d, n, g1, g2, g3, g4, g5, g6⟩ := hv.err e rfl
    refine ⟨q, d, n, ⟨a, ?_, g2⟩, g3, g4, g5, g6⟩
    simpa using g1
  | none =>
    simp only
    have hvis0 : ∀ p, ¬ Vis s.heap p ∨ VClosed s.registry h1 p := by
      intro p
      by_cases hd : Vis s.heap p
      · right
        obtain ⟨d, e1, e2⟩ := hd
        intro d' hd' n hn
        obtain ⟨d0, b, g1, rfl, -⟩ := hstep.back hd'
        rw [e1] at g1; cases g1
        rcases e2 with e2 | e2
        · rw [(hp.fresh p d e1).1] at e2; cases e2
        · cases hk : d.kind <;> rw [hk] at e2 <;> simp [DKind.isChar] at e2
          rw [hk] at hn; simp [DKind.refs] at hn
      · exact Or.inl hd
    have hclosed : ∀ p, Vis h1 p → VClosed s.registry h1 p := by
      intro p hvp
      rcases hv.newly rfl p hvp with h | h
      · exact (hvis0 p).resolve_left (fun hn => hn h)
      · exact h
    -- everything used is defined
    have hused : ∀ p, Used s root p → Vis h1 p := by
      rintro p ⟨a, ha, hr⟩
      exact hr.vis hstep (hv.ok rfl a (by simpa using ha)) hclosed
    have hS : ∀ (p : Ptr) d, Used s root p → s.heap[p]? = some d → ∀ n ∈ d.kind.refs,
        ∃ q, s.registry.lookup n = some q ∧ Used s root q := by
      intro p d hu hd n hn
      obtain ⟨b, e1, -⟩ := hstep.def_ p d hd
      obtain ⟨q, k1, -⟩ := hclosed p (hused p hu) _ e1 n hn
      obtain ⟨a, ha, hr⟩ := hu
      exact ⟨q, k1, a, ha, hr.snoc hd hn k1⟩
    have hsk := hstep.sameSk
    have hi : IInv s.registry s.heap (Used s root) h1 := by
      refine ⟨hsk, ?_, ?_, ?_⟩
      · intro p d hd _
        obtain ⟨d0, b, g1, rfl, -⟩ := hstep.back hd
        exact (hp.fresh p d0 g1).2.2.2
      · intro p d os ds hd hk c hc
        obtain ⟨d0, b, g1, rfl, -⟩ := hstep.back hd
        have hf := (hp.fresh p d0 g1).2.2.2
        simp only at hk
        rw [hk] at hf
        have hf : ds = [] := hf
        subst hf; cases hc
      · intro p d hd g hg
        obtain ⟨d0, b, g1, rfl, -⟩ := hstep.back hd
        simp only at hg
        rw [(hp.fresh p d0 g1).2.2.1] at hg
        cases hg
    have hl : h1.length = s.heap.length := hstep.len
    refine Res.Spec.bind (initAll_spec hp.lookup_lt (Nat.lt_succ_self _) hS (s.keywords ++ [root]) h1
      ?_ hi ?_) ?_
    · intro p hpm
      refine ⟨⟨p, ?_, .refl⟩, hstart p hpm⟩
      simpa using hpm
    · rw [← hl]; exact Nat.lt_succ_of_le List.countP_le_length
    · intro h2 k
      have hdone : ∀ p, Ini h2 p → Done s.registry s.heap h2 p := by
        intro p hpi
        rcases k.newly p hpi with h | h
        · obtain ⟨d, e1, e2⟩ := h
          obtain ⟨d0, b, g1, rfl, -⟩ := hstep.back e1
          rcases e2 with e2 | e2
          · simp only at e2
            rw [(hp.fresh p d0 g1).2.1] at e2; cases e2
          · obtain ⟨d2, h1', h2', -, -⟩ := k.step.def_ p _ e1
            have hkk := DKind.eq_of_sk_char h2' e2
            refine ⟨d2, h1', Or.inr (by rw [hkk]; exact e2), ?_, ?_⟩
            · rw [hkk]
              simp only at e2
              cases hk : d0.kind <;> rw [hk] at e2 <;> simp [DKind.isChar] at e2
              simp [DKind.Resolved]
            · rw [hkk]
              simp only at e2
              cases hk : d0.kind <;> rw [hk] at e2 <;> simp [DKind.isChar] at e2
              simp [DKind.refs]
        · exact h
      refine ⟨rfl, k.inv.sk, ?_, ?_, k.inv.gens⟩
      · intro p d n hu hd hn
        obtain ⟨q, e1, -⟩ := hS p d hu hd n hn
        exact ⟨q, e1⟩
      · rintro p ⟨a, ha, hr⟩
        exact hdone p (hr.ini k.inv.sk (k.start a (by simpa using ha)) hdone)

/-! ### Linked parsers -/

/-- What holds before validation, when every used definition is registered. -/
structure Prepared (s : Syntax) (root : Ptr) : Prop extends PrepBase s root where
  lookup_mem : ∀ n p, s.registry.lookup n = some p → p ∈ s.registry.definitions
  name_lookup : ∀ n p d, s.registry.lookup n = some p → s.heap[p]? = some d → d.name = n
  lookup_name : ∀ (p : Ptr) d, p ∈ s.registry.definitions → s.heap[p]? = some d →
    s.registry.lookup d.name = some p
  ids : ∀ (p q : Ptr) d e, p ∈ s.registry.definitions → q ∈ s.registry.definitions → s.heap[p]? = some d →
    s.heap[q]? = some e → d.id = e.id → p = q
  keywords : ∀ k ∈ s.keywords, k ∈ s.registry.definitions
  kwflags : ∀ (k : Ptr) d, k ∈ s.keywords → s.heap[k]? = some d → d.commitType.noKeyword = false
  root_mem : root ∈ s.registry.definitions
  rootDef : ∃ d, s.heap[root]? = some d ∧ d.kind.isChar = false ∧ d.commit.alias = false

theorem Prepared.used_mem {s : Syntax} {root p : Ptr} (hp : Prepared s root) (hu : Used s root p) :
    p ∈ s.registry.definitions := by
  obtain ⟨a, ha, hr⟩ := hu
  have ham : a ∈ s.registry.definitions := by
    rcases ha with ha | rfl
    · exact hp.keywords a ha
    · exact hp.root_mem
  clear ha
  induction hr with
  | refl => exact ham
  | step _ _ h3 _ ih => exact ih (hp.lookup_mem _ _ h3)

theorem toPDef_isChar (d : Def) : d.toPDef.kind.isChar = d.kind.isChar := by
  unfold Def.toPDef
  cases hk : d.kind <;> simp [PKind.isChar, DKind.isChar]

theorem Syntax.env_get {s : Syntax} {p : Ptr} {d : PDef} (h : s.env.defs[p]? = some d) :
    ∃ e, s.heap[p]? = some e ∧ d = e.toPDef := by
  simp only [Syntax.env, List.getElem?_map, Option.map_eq_some_iff] at h
  obtain ⟨e, h1, h2⟩ := h
  exact ⟨e, h1, h2.symm⟩

/-- The children of an initialized definition are the definitions of its references. -/
theorem Done.children {r : Registry} {h0 : Heap} {d : Def} (hres : d.kind.Resolved r h0) {q : Ptr}
    (hq : q ∈ d.toPDef.kind.children) : ∃ n ∈ d.kind.refs, r.lookup n = some q := by
  unfold Def.toPDef at hq
  cases hk : d.kind with
  | char => simp [hk, PKind.children] at hq
  | choice os ds =>
    rw [hk] at hres
    simp only [hk, PKind.children] at hq
    simp only [DKind.Resolved] at hres
    have : some q ∈ ds.map some := List.mem_map.2 ⟨q, hq, rfl⟩
    rw [← hres] at this
    obtain ⟨n, h1, h2⟩ := List.mem_map.1 this
    exact ⟨n, h1, h2⟩
  | seq orig items ds rs ac =>
    rw [hk] at hres
    simp only [hk, PKind.children] at hq
    simp only [DKind.Resolved] at hres
    have : some q ∈ ds.map some := List.mem_map.2 ⟨q, hq, rfl⟩
    rw [← hres.1] at this
    obtain ⟨i, h1, h2⟩ := List.mem_map.1 this
    exact ⟨i.name, List.mem_map.2 ⟨i, h1, rfl⟩, h2⟩

theorem InitOK.reach {s : Syntax} {root : Ptr} {s' : Syntax} (hi : InitOK s root s')
    {p : Ptr} (hr : Reach s'.env root p) : Used s root p := by
  have hkw : s'.keywords = s.keywords := by rw [hi.same]
  induction hr with
  | root => exact ⟨root, Or.inr rfl, .refl⟩
  | keyword hk => exact ⟨_, Or.inl (hkw ▸ hk), .refl⟩
  | child _ hd hq ih =>
    obtain ⟨e, e1, rfl⟩ := Syntax.env_get hd
    obtain ⟨d', k1, -, k2, -⟩ := hi.done _ ih
    rw [e1] at k1; cases k1
    obtain ⟨n, hn, hl⟩ := Done.children k2 hq
    obtain ⟨a, ha, hra⟩ := ih
    obtain ⟨d0, g1, g2⟩ := hi.sk.symm.to e1
    exact ⟨a, ha, hra.snoc g1 (by rw [Def.sk_refs g2]; exact hn) hl⟩

/-- The options of a choice whose references are resolved. -/
theorem NGen.generalizes {s : Syntax} {root : Ptr} {s' : Syntax} (hi : InitOK s root s') {q p : Ptr}
    (hg : NGen s.registry s.heap q p) (hu : Used s root q) : Generalizes s'.env q p := by
  have key : ∀ {q p : Ptr} {e : Def} {os : List Name} {ds : List Ptr} {n : Name}, Used s root q →
      s.heap[q]? = some e → e.kind = .choice os ds → n ∈ os → s.registry.lookup n = some p →
      ∃ e' ds', s'.env.defs[q]? = some e' ∧ e'.kind = .choice ds' ∧ p ∈ ds' := by
    intro q p e os ds n hu h1 h2 h3 h4
    obtain ⟨d', k1, -, k2, -⟩ := hi.done _ hu
    obtain ⟨d0, g1, g2⟩ := hi.sk.to h1
    rw [k1] at g1; cases g1
    have : d'.sk.kind = e.sk.kind := by rw [g2]
    simp only [Def.sk, h2, DKind.sk] at this
    cases hk : d'.kind <;> rw [hk] at this <;> simp at this
    subst this
    rename_i ds'
    refine ⟨d'.toPDef, ds', ?_, ?_, ?_⟩
    · simp [Syntax.env, k1]
    · simp [Def.toPDef, hk]
    · rw [hk] at k2
      simp only [DKind.Resolved] at k2
      have : some p ∈ ds'.map some := by
        rw [← k2, ← h4]; exact List.mem_map.2 ⟨n, h3, rfl⟩
      simpa using this
  induction hg with
  | option h1 h2 h3 h4 =>
    obtain ⟨e', ds', g1, g2, g3⟩ := key hu h1 h2 h3 h4
    exact .option g1 g2 g3
  | nested h1 h2 h3 h4 _ ih =>
    obtain ⟨e', ds', g1, g2, g3⟩ := key hu h1 h2 h3 h4
    refine .nested g1 g2 g3 (ih ?_)
    obtain ⟨a, ha, hra⟩ := hu
    exact ⟨a, ha, hra.snoc h1 (by rw [h2]; exact h3) h4⟩

theorem Reach.of_refs {s : Syntax} {root : Ptr} {s' : Syntax} (hi : InitOK s root s')
    {p : Ptr} (hu : Used s root p) : Reach s'.env root p := by
  have hkw : s'.keywords = s.keywords := by rw [hi.same]
  obtain ⟨a, ha, hr⟩ := hu
  have hra : Reach s'.env root a := by
    rcases ha with ha | rfl
    · exact .keyword (by simp only [Syntax.env]; rw [hkw]; exact ha)
    · exact .root
  have hua : Used s root a := ⟨a, ha, .refl⟩
  clear ha
  induction hr with
  | refl => exact hra
  | @step p q t d n h1 h2 h3 _ ih =>
    obtain ⟨d', k1, -, k2, -⟩ := hi.done _ hua
    obtain ⟨d0, g1, g2⟩ := hi.sk.to h1
    rw [k1] at g1; cases g1
    have hq : q ∈ d'.toPDef.kind.children := by
      rw [← Def.sk_refs g2] at h2
      unfold Def.toPDef
      cases hk : d'.kind with
      | char => rw [hk] at h2; simp [DKind.refs] at h2
      | choice os ds =>
        rw [hk] at h2 k2
        simp only [DKind.refs] at h2
        simp only [DKind.Resolved] at k2
        have : some q ∈ ds.map some := by
          rw [← k2, ← h3]; exact List.mem_map.2 ⟨n, h2, rfl⟩
        simpa [PKind.children] using this
      | seq orig items ds rs ac =>
        rw [hk] at h2 k2
        simp only [DKind.refs] at h2
        simp only [DKind.Resolved] at k2
        have : some q ∈ ds.map some := by
          rw [← k2.1, ← h3]
          obtain ⟨i, a1, rfl⟩ := List.mem_map.1 h2
          exact List.mem_map.2 ⟨i, a1, rfl⟩
        simpa [PKind.children] using this
    refine ih (.child hra (by simp [Syntax.env, k1]) hq) ?_
    obtain ⟨a', ha', hra'⟩ := hua
    exact ⟨a', ha', hra'.snoc h1 h2 h3⟩

theorem InitOK.closed {s : Syntax} {root : Ptr} {s' : Syntax}
    (hf : ∀ (k : Ptr) d, k ∈ s.keywords → s.heap[k]? = some d → d.commitType.noKeyword = false)
    (hi : InitOK s root s') : Closed s'.env (Reach s'.env root) := by
  have hkw : s'.keywords = s.keywords := by rw [hi.same]
  refine ⟨?_, ?_, ?_, ?_, ?_⟩
  · intro p hr
    obtain ⟨d', k1, -⟩ := hi.done _ (hi.reach hr)
    exact ⟨d'.toPDef, by simp [Syntax.env, k1]⟩
  · intro p d q hr hd hq
    exact .child hr hd hq
  · intro k hk
    exact .keyword hk
  · intro p d is rs q hr hd hk hq
    obtain ⟨e, e1, rfl⟩ := Syntax.env_get hd
    obtain ⟨d', k1, -, k2, -⟩ := hi.done _ (hi.reach hr)
    rw [e1] at k1; cases k1
    unfold Def.toPDef at hk
    cases hke : e.kind <;> rw [hke] at hk <;> simp at hk
    obtain ⟨rfl, rfl, rfl⟩ := hk
    rw [hke] at k2
    simp only [DKind.Resolved] at k2
    have hall := k2.2.2.2.symm
    rw [List.all_eq_true] at hall
    have hc := hall q hq
    rw [← isCharDef_sk hi.sk] at hc
    unfold isCharDef at hc
    cases hh : s'.heap[q]? with
    | none => rw [hh] at hc; cases hc
    | some dq =>
      rw [hh] at hc
      refine ⟨dq.toPDef, by simp [Syntax.env, hh], ?_⟩
      rw [toPDef_isChar]
      rcases dq with ⟨_, _, _, _, _, _, kk⟩
      cases kk <;> simp at hc
      rfl
  · intro k d is rs hk hd hkd
    obtain ⟨e, e1, rfl⟩ := Syntax.env_get hd
    obtain ⟨d0, g1, g2⟩ := hi.sk.symm.to e1
    have hk' : k ∈ s.keywords := hkw ▸ hk
    have := hf k d0 hk' g1
    have hc : d0.commitType = e.commitType := by
      have h2 := Def.sk_commit g2
      have hk2 : d0.sk.kind = e.sk.kind := by rw [g2]
      simp only [Def.sk] at hk2
      unfold Def.commitType
      cases h3 : d0.kind <;> cases h4 : e.kind <;> rw [h3, h4] at hk2 <;> simp [DKind.sk] at hk2 <;> simp [h2]
    rw [hc] at this
    exact this

theorem InitOK.linked {s : Syntax} {root : Ptr} {s' : Syntax} (hp : Prepared s root)
    (hi : InitOK s root s') : Linked s'.env root := by
  refine ⟨hi.closed hp.kwflags, ?_, ?_, ?_⟩
  · intro p q d e hr hr' hd he _ _ hid
    obtain ⟨d1, e1, rfl⟩ := Syntax.env_get hd
    obtain ⟨d2, e2, rfl⟩ := Syntax.env_get he
    obtain ⟨a1, g1, g2⟩ := hi.sk.symm.to e1
    obtain ⟨a2, g3, g4⟩ := hi.sk.symm.to e2
    refine hp.ids p q a1 a2 (hp.used_mem (hi.reach hr)) (hp.used_mem (hi.reach hr')) g1 g3 ?_
    rw [Def.sk_id g2, Def.sk_id g4]
    exact hid
  · intro p d g hr hd _ hg
    obtain ⟨d1, e1, rfl⟩ := Syntax.env_get hd
    obtain ⟨q, e, k1, k2, k3, k4⟩ := hi.gens p d1 e1 g hg
    obtain ⟨e', g1, g2⟩ := hi.sk.to k2
    refine ⟨q, e'.toPDef, Reach.of_refs hi k1, by simp [Syntax.env, g1], ?_, k4.generalizes hi k1⟩
    show e'.id = g
    rw [Def.sk_id g2, k3]
  · obtain ⟨d, h1, h2, h3⟩ := hp.rootDef
    obtain ⟨d', g1, g2⟩ := hi.sk.to h1
    refine ⟨d'.toPDef, by simp [Syntax.env, g1], ?_, ?_⟩
    · rw [toPDef_isChar, Def.sk_isChar g2]; exact h2
    · have hc : d'.kind.isChar = false := by rw [Def.sk_isChar g2]; exact h2
      show d'.commitType.alias = false
      unfold Def.commitType
      cases hk : d'.kind
      · rw [hk] at hc; cases hc
      · show d'.commit.alias = false
        rw [Def.sk_commit g2]; exact h3
      · show d'.commit.alias = false
        rw [Def.sk_commit g2]; exact h3

end Treerack
