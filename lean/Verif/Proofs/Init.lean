import Verif.Proofs.Validate

/-
The initialization of the definitions: resolves every reference that can be reached, once, and always
returns.
-/

namespace Treerack

/-! ### What initialization does not change -/

/-- The fields of a definition that are not changed by initialization. -/
def DKind.sk : DKind → DKind
  | .char neg cs rs => .char neg cs rs
  | .choice os _ => .choice os []
  | .seq orig items _ _ _ => .seq orig (items.map normalizeItemRange) [] [] false

def Def.sk (d : Def) : Def :=
  { d with gens := [], validated := false, initialized := false, kind := d.kind.sk }

theorem normalizeItemRange_name (i : SeqItem) : (normalizeItemRange i).name = i.name := by
  unfold normalizeItemRange
  split
  · rfl
  · simp only; split <;> split <;> rfl

theorem normalizeItemRange_eq (i : SeqItem) : normalizeItemRange i =
    if i.min = 0 ∧ i.max = 0 then { name := i.name, min := 1, max := 1 }
    else { name := i.name, min := if i.min ≤ 0 then 0 else i.min, max := if i.max ≤ 0 then -1 else i.max } := by
  rcases i with ⟨n, mn, mx⟩
  unfold normalizeItemRange
  by_cases h0 : mn = 0 ∧ mx = 0
  · obtain ⟨rfl, rfl⟩ := h0; rfl
  · have : ¬ ((mn == 0 && mx == 0) = true) := by simpa using h0
    simp only [if_neg this, if_neg h0]
    by_cases h3 : mn ≤ 0 <;> by_cases h4 : mx ≤ 0 <;> simp only [if_pos, if_neg, h3, h4, not_false_eq_true]

theorem normalizeItemRange_idem (i : SeqItem) :
    normalizeItemRange (normalizeItemRange i) = normalizeItemRange i := by
  rcases i with ⟨n, mn, mx⟩
  rw [normalizeItemRange_eq (normalizeItemRange _), normalizeItemRange_eq]
  simp only
  split
  · simp
  · simp only
    split <;> split <;> simp_all <;> omega

theorem normalize_map_idem (l : List SeqItem) :
    (l.map normalizeItemRange).map normalizeItemRange = l.map normalizeItemRange := by
  simp [List.map_map, Function.comp_def, normalizeItemRange_idem]

theorem DKind.sk_refs (k : DKind) : k.sk.refs = k.refs := by
  cases k <;> simp [DKind.sk, DKind.refs, normalizeItemRange_name, Function.comp_def]

theorem DKind.sk_isChar (k : DKind) : k.sk.isChar = k.isChar := by cases k <;> rfl

theorem Def.sk_refs {d e : Def} (h : d.sk = e.sk) : d.kind.refs = e.kind.refs := by
  have : d.sk.kind = e.sk.kind := by rw [h]
  simp only [Def.sk] at this
  rw [← d.kind.sk_refs, this, e.kind.sk_refs]

theorem Def.sk_isChar {d e : Def} (h : d.sk = e.sk) : d.kind.isChar = e.kind.isChar := by
  have : d.sk.kind = e.sk.kind := by rw [h]
  simp only [Def.sk] at this
  rw [← d.kind.sk_isChar, this, e.kind.sk_isChar]

theorem Def.sk_id {d e : Def} (h : d.sk = e.sk) : d.id = e.id := by
  have : d.sk.id = e.sk.id := by rw [h]
  exact this

theorem Def.sk_name {d e : Def} (h : d.sk = e.sk) : d.name = e.name := by
  have : d.sk.name = e.sk.name := by rw [h]
  exact this

theorem Def.sk_commit {d e : Def} (h : d.sk = e.sk) : d.commit = e.commit := by
  have : d.sk.commit = e.sk.commit := by rw [h]
  exact this

theorem Def.initRanges_sk (d : Def) : d.initRanges.sk = d.sk := by
  unfold Def.initRanges Def.sk
  split
  · rename_i orig items ds rs ac hk
    simp only [hk, DKind.sk, normalize_map_idem]
  · rfl

theorem Def.appendChild_sk (d : Def) (c : Ptr) : (d.appendChild c).sk = d.sk := by
  unfold Def.appendChild Def.sk
  split <;> rename_i hk <;> simp [hk, DKind.sk]

theorem Def.setAllChars_sk (d : Def) (b : Bool) : (d.setAllChars b).sk = d.sk := by
  unfold Def.setAllChars Def.sk
  split
  · rename_i hk; simp [hk, DKind.sk]
  · rfl

/-- Two heaps that only differ in what initialization changes. -/
def SameSk (h0 h : Heap) : Prop := ∀ p : Ptr, (h[p]?).map Def.sk = (h0[p]?).map Def.sk

theorem SameSk.to {h0 h : Heap} (s : SameSk h0 h) {p : Ptr} {d : Def} (hd : h0[p]? = some d) :
    ∃ d', h[p]? = some d' ∧ d'.sk = d.sk := by
  have := s p
  rw [hd] at this
  cases hh : h[p]? with
  | none => rw [hh] at this; cases this
  | some d' => rw [hh] at this; exact ⟨d', rfl, Option.some.inj this⟩

theorem SameSk.symm {h0 h : Heap} (s : SameSk h0 h) : SameSk h h0 := fun p => (s p).symm

theorem SameSk.trans {a b c : Heap} (s : SameSk a b) (t : SameSk b c) : SameSk a c :=
  fun p => (t p).trans (s p)

theorem SameSk.update {h0 h : Heap} (s : SameSk h0 h) (p : Ptr) (f : Def → Def)
    (hf : ∀ d, h[p]? = some d → (f d).sk = d.sk) : SameSk h0 (h.update p f) := by
  intro q
  rw [Heap.getElem?_update]
  split
  · rename_i e; subst e
    rw [← s p]
    cases hh : h[p]? with
    | none => rfl
    | some d => simp [hf d hh]
  · exact s q

theorem SameSk.length {h0 h : Heap} (s : SameSk h0 h) : h.length = h0.length := by
  have key : ∀ (a b : Heap), SameSk a b → ¬ a.length < b.length := by
    intro a b s hl
    have := s a.length
    rw [List.getElem?_eq_getElem hl, List.getElem?_eq_none (Nat.le_refl _)] at this
    cases this
  have h1 := key _ _ s
  have h2 := key _ _ s.symm
  omega

/-- `q` is a choice that has `p` as an option, directly or through nested choices. -/
inductive NGen (r : Registry) (h : Heap) : Ptr → Ptr → Prop
  | option {q p : Ptr} {e : Def} {os : List Name} {ds : List Ptr} {n : Name} : h[q]? = some e →
      e.kind = .choice os ds → n ∈ os → r.lookup n = some p → NGen r h q p
  | nested {q o p : Ptr} {e : Def} {os : List Name} {ds : List Ptr} {n : Name} : h[q]? = some e →
      e.kind = .choice os ds → n ∈ os → r.lookup n = some o → NGen r h o p → NGen r h q p

theorem NGen.snoc {r : Registry} {h : Heap} {q p o : Ptr} {e : Def} {os : List Name} {ds : List Ptr}
    {n : Name} (hg : NGen r h q p) (h1 : h[p]? = some e) (h2 : e.kind = .choice os ds) (h3 : n ∈ os)
    (h4 : r.lookup n = some o) : NGen r h q o := by
  induction hg with
  | option g1 g2 g3 g4 => exact .nested g1 g2 g3 g4 (.option h1 h2 h3 h4)
  | nested g1 g2 g3 g4 _ ih => exact .nested g1 g2 g3 g4 (ih h1)

/-! ### The invariant -/

def itemRange (i : SeqItem) : Int × Int := (i.min, i.max)

/-- A definition that was not initialized. -/
def DKind.Fresh : DKind → Prop
  | .char _ _ _ => True
  | .choice _ ds => ds = []
  | .seq _ items ds ranges _ =>
      ds = [] ∧ (ranges = [] ∨ items = items.map normalizeItemRange ∧ ranges = items.map itemRange)

/-- A definition that was initialized. -/
def DKind.Resolved (r : Registry) (h0 : Heap) : DKind → Prop
  | .char _ _ _ => True
  | .choice os ds => os.map r.lookup = ds.map some
  | .seq _ items ds ranges ac =>
      items.map (fun i => r.lookup i.name) = ds.map some ∧ items = items.map normalizeItemRange ∧
      (∃ t, ranges = items.map itemRange ++ t) ∧ ac = ds.all (isCharDef h0)

/-- The invariant of initialization.  `h0` is the heap at the start, `S` the definitions that can be
reached. -/
structure IInv (r : Registry) (h0 : Heap) (S : Ptr → Prop) (h : Heap) : Prop where
  sk : SameSk h0 h
  fresh : ∀ (p : Ptr) d, h[p]? = some d → d.initialized = false → d.kind.Fresh
  options : ∀ (p : Ptr) d os ds, h[p]? = some d → d.kind = .choice os ds → ∀ c ∈ ds,
    ∃ n ∈ os, r.lookup n = some c
  gens : ∀ (p : Ptr) d, h[p]? = some d → ∀ g ∈ d.gens,
    ∃ q e, S q ∧ h0[q]? = some e ∧ e.id = g ∧ NGen r h0 q p

structure IStep (X : Ptr → Prop) (h h' : Heap) : Prop where
  len : h'.length = h.length
  def_ : ∀ (p : Ptr) (d : Def), h[p]? = some d → ∃ d', h'[p]? = some d' ∧ d'.sk = d.sk ∧
    (d.initialized = true → d'.initialized = true ∧ (¬ X p → d'.kind = d.kind)) ∧
    (d'.initialized = false → d'.kind = d.kind)

theorem IStep.refl (X : Ptr → Prop) (h : Heap) : IStep X h h :=
  ⟨rfl, fun _ d hd => ⟨d, hd, rfl, fun hi => ⟨hi, fun _ => rfl⟩, fun _ => rfl⟩⟩

theorem IStep.mono {X Y : Ptr → Prop} {h h' : Heap} (s : IStep X h h') (hXY : ∀ p, X p → Y p) :
    IStep Y h h' := by
  refine ⟨s.len, fun p d hd => ?_⟩
  obtain ⟨d', h1, h2, h3, h4⟩ := s.def_ p d hd
  exact ⟨d', h1, h2, fun hi => ⟨(h3 hi).1, fun hy => (h3 hi).2 fun hx => hy (hXY p hx)⟩, h4⟩

theorem IStep.trans {X : Ptr → Prop} {a b c : Heap} (s : IStep X a b) (t : IStep X b c) :
    IStep X a c := by
  refine ⟨t.len.trans s.len, fun p d hd => ?_⟩
  obtain ⟨d1, h1, h2, h3, h4⟩ := s.def_ p d hd
  obtain ⟨d2, g1, g2, g3, g4⟩ := t.def_ p d1 h1
  refine ⟨d2, g1, g2.trans h2, fun hi => ?_, fun hi => ?_⟩
  · have a1 := h3 hi
    have a2 := g3 a1.1
    exact ⟨a2.1, fun hx => (a2.2 hx).trans (a1.2 hx)⟩
  · have : d1.initialized = false := by
      cases hx : d1.initialized
      · rfl
      · rw [(g3 hx).1] at hi; cases hi
    exact (g4 hi).trans (h4 this)

/-- Visited by initialization. -/
def Ini (h : Heap) (p : Ptr) : Prop :=
  ∃ d, h[p]? = some d ∧ (d.initialized = true ∨ d.kind.isChar = true)

theorem IStep.ini {X : Ptr → Prop} {h h' : Heap} (s : IStep X h h') {p : Ptr} (hi : Ini h p) :
    Ini h' p := by
  obtain ⟨d, hd, h1⟩ := hi
  obtain ⟨d', e1, e2, e3, -⟩ := s.def_ p d hd
  refine ⟨d', e1, ?_⟩
  rcases h1 with h1 | h1
  · exact Or.inl (e3 h1).1
  · right; rw [Def.sk_isChar e2]; exact h1

/-- Initialized completely: the references are resolved, and visited. -/
def Done (r : Registry) (h0 h : Heap) (p : Ptr) : Prop :=
  ∃ d, h[p]? = some d ∧ (d.initialized = true ∨ d.kind.isChar = true) ∧ d.kind.Resolved r h0 ∧
    ∀ n ∈ d.kind.refs, ∃ q, r.lookup n = some q ∧ Ini h q

theorem DKind.eq_of_sk_char {d d' : Def} (h : d'.sk = d.sk) (hc : d.kind.isChar = true) :
    d'.kind = d.kind := by
  have : d'.sk.kind = d.sk.kind := by rw [h]
  simp only [Def.sk] at this
  cases hk : d.kind <;> cases hk' : d'.kind <;> simp_all [DKind.isChar, DKind.sk]

theorem Done.mono {r : Registry} {h0 h h' : Heap} {X : Ptr → Prop} (s : IStep X h h') {p : Ptr}
    (hX : ¬ X p) (hd : Done r h0 h p) : Done r h0 h' p := by
  obtain ⟨d, h1, h2, h3, h4⟩ := hd
  obtain ⟨d', e1, e2, e3, -⟩ := s.def_ p d h1
  have hk : d'.kind = d.kind := by
    rcases h2 with h2 | h2
    · exact (e3 h2).2 hX
    · exact DKind.eq_of_sk_char e2 h2
  refine ⟨d', e1, ?_, hk ▸ h3, ?_⟩
  · rcases h2 with h2 | h2
    · exact Or.inl (e3 h2).1
    · right; rw [hk]; exact h2
  · intro n hn
    rw [hk] at hn
    obtain ⟨q, g1, g2⟩ := h4 n hn
    exact ⟨q, g1, s.ini g2⟩

def uninit (h : Heap) : Nat := h.countP fun d => !d.initialized

theorem IStep.uninit {X : Ptr → Prop} {h h' : Heap} (s : IStep X h h') : uninit h' ≤ uninit h := by
  unfold Treerack.uninit
  refine countP_le_of_step _ _ _ s.len ?_
  intro p d hd
  obtain ⟨d', e1, -, e3, -⟩ := s.def_ p d hd
  refine ⟨_, e1, ?_⟩
  intro hv
  simp at hv ⊢
  exact (e3 hv).1

/-! ### Generalizations -/

structure GStep (h h' : Heap) : Prop where
  len : h'.length = h.length
  def_ : ∀ (p : Ptr) (d : Def), h[p]? = some d → ∃ gs, h'[p]? = some { d with gens := gs } ∧
    ∀ g ∈ d.gens, g ∈ gs

theorem GStep.refl (h : Heap) : GStep h h := ⟨rfl, fun _ d hd => ⟨d.gens, hd, fun _ => id⟩⟩

theorem GStep.trans {a b c : Heap} (s : GStep a b) (t : GStep b c) : GStep a c := by
  refine ⟨t.len.trans s.len, fun p d hd => ?_⟩
  obtain ⟨x, e1, e2⟩ := s.def_ p d hd
  obtain ⟨y, e3, e4⟩ := t.def_ p _ e1
  exact ⟨y, e3, fun g hg => e4 g (e2 g hg)⟩

theorem GStep.istep {h h' : Heap} (s : GStep h h') (X : Ptr → Prop) : IStep X h h' := by
  refine ⟨s.len, fun p d hd => ?_⟩
  obtain ⟨gs, e1, -⟩ := s.def_ p d hd
  exact ⟨_, e1, rfl, fun hi => ⟨hi, fun _ => rfl⟩, fun _ => rfl⟩

def lacking (g : Nat) (h : Heap) : Nat := h.countP fun d => !d.gens.contains g

theorem GStep.lacking {h h' : Heap} (s : GStep h h') (g : Nat) : lacking g h' ≤ lacking g h := by
  unfold Treerack.lacking
  refine countP_le_of_step _ _ _ s.len ?_
  intro p d hd
  obtain ⟨gs, e1, e3⟩ := s.def_ p d hd
  refine ⟨_, e1, ?_⟩
  intro hv
  simp at hv ⊢
  exact e3 g hv

theorem addGenAll_spec {r : Registry} {h0 : Heap} {S : Ptr → Prop} {g K q : Nat}
    {rec : Ptr → Heap → Res Heap}
    (hrec : ∀ p h, IInv r h0 S h → NGen r h0 q p → p < h0.length → lacking g h < K →
      (rec p h).Spec False False (fun h' => IInv r h0 S h' ∧ GStep h h')) :
    ∀ (ps : List Ptr) (h : Heap), IInv r h0 S h → (∀ p ∈ ps, NGen r h0 q p ∧ p < h0.length) →
      lacking g h < K →
      (addGenAll rec ps h).Spec False False (fun h' => IInv r h0 S h' ∧ GStep h h')
  | [], h, hi, _, _ => ⟨hi, .refl h⟩
  | p :: ps, h, hi, hps, hK => by
    unfold addGenAll
    refine Res.Spec.bind (hrec p h hi (hps p (by simp)).1 (hps p (by simp)).2 hK) ?_
    rintro h1 ⟨hi1, hs⟩
    have := hs.lacking g
    exact (addGenAll_spec hrec ps h1 hi1 (fun x hx => hps x (by simp [hx])) (by omega)).imp
      fun h2 k => ⟨k.1, hs.trans k.2⟩

theorem addGeneralization_spec {r : Registry} {h0 : Heap} {S : Ptr → Prop} {g : Nat} {q : Ptr} {e : Def}
    (hlk : ∀ n p, r.lookup n = some p → p < h0.length)
    (hSq : S q) (hq : h0[q]? = some e) (hg : e.id = g) :
    ∀ (n : Nat) (p : Ptr) (h : Heap), IInv r h0 S h → NGen r h0 q p → p < h0.length →
      lacking g h < n →
      (addGeneralization g n p h).Spec False False (fun h' => IInv r h0 S h' ∧ GStep h h')
  | 0, _, _, _, _, _, hK => absurd hK (Nat.not_lt_zero _)
  | n + 1, p, h, hi, hgen, hp, hK => by
    unfold addGeneralization
    obtain ⟨d, hd⟩ : ∃ d, h[p]? = some d :=
      ⟨_, List.getElem?_eq_getElem (Nat.lt_of_lt_of_eq hp hi.sk.length.symm)⟩
    simp only [hd]
    -- adding the generalization to this definition
    have hadd : ∀ (_ : d.gens.contains g = false),
        IInv r h0 S (h.update p fun d => { d with gens := d.gens ++ [g] }) ∧
        GStep h (h.update p fun d => { d with gens := d.gens ++ [g] }) ∧
        lacking g (h.update p fun d => { d with gens := d.gens ++ [g] }) < n := by
      intro hc
      refine ⟨⟨?_, ?_, ?_, ?_⟩, ⟨Heap.length_update .., ?_⟩, ?_⟩
      · exact hi.sk.update p _ fun d _ => rfl
      · intro p' d' hd' hin
        rw [Heap.getElem?_update] at hd'
        split at hd'
        · rename_i e; subst e
          rw [hd] at hd'; cases hd'
          exact hi.fresh p d hd hin
        · exact hi.fresh p' d' hd' hin
      · intro p' d' os ds hd' hk c hc
        rw [Heap.getElem?_update] at hd'
        split at hd'
        · rename_i e; subst e
          rw [hd] at hd'; cases hd'
          exact hi.options p d os ds hd hk c hc
        · exact hi.options p' d' os ds hd' hk c hc
      · intro p' d' hd' g' hg'
        rw [Heap.getElem?_update] at hd'
        split at hd'
        · rename_i e; subst e
          rw [hd] at hd'; cases hd'
          rcases List.mem_append.1 hg' with h' | h'
          · exact hi.gens p d hd g' h'
          · simp only [List.mem_singleton] at h'; subst h'
            exact ⟨q, e, hSq, hq, hg, hgen⟩
        · exact hi.gens p' d' hd' g' hg'
      · intro p' d' hd'
        rw [Heap.getElem?_update]
        split
        · rename_i e; subst e
          rw [hd] at hd'; cases hd'
          rw [hd]
          exact ⟨_, rfl, fun g' h' => by simp [h']⟩
        · exact ⟨d'.gens, hd', fun _ => id⟩
      · have := countP_modify_lt (fun d : Def => { d with gens := d.gens ++ [g] })
          (fun d => !d.gens.contains g) h p d hd (by simpa using hc) (by simp)
        have e1 : lacking g (h.update p fun d => { d with gens := d.gens ++ [g] }) + 1 = lacking g h := this
        omega
    cases hk : d.kind with
    | char neg cs rs => exact ⟨hi, .refl h⟩
    | seq orig items ds rs ac =>
      simp only
      split
      · exact ⟨hi, .refl h⟩
      · rename_i hc
        have := hadd (by simpa using hc)
        exact ⟨this.1, this.2.1⟩
    | choice os ds =>
      simp only
      split
      · exact ⟨hi, .refl h⟩
      · rename_i hc
        obtain ⟨a1, a2, a3⟩ := hadd (by simpa using hc)
        refine (addGenAll_spec (fun p' h' => addGeneralization_spec hlk hSq hq hg n p' h') ds _ a1 ?_ a3).imp
          fun h2 k => ⟨k.1, a2.trans k.2⟩
        intro c hc
        obtain ⟨m, hm, hlm⟩ := hi.options p d os ds hd hk c hc
        obtain ⟨d0, h1, h2⟩ := hi.sk.symm.to hd
        have hk0 : ∃ ds0, d0.kind = .choice os ds0 := by
          have : d0.sk.kind = d.sk.kind := by rw [h2]
          simp only [Def.sk, hk, DKind.sk] at this
          cases hk' : d0.kind <;> rw [hk'] at this <;> simp at this
          subst this
          exact ⟨_, rfl⟩
        obtain ⟨ds0, hk0⟩ := hk0
        exact ⟨hgen.snoc h1 hk0 hm hlm, hlk m c hlm⟩

/-! ### Initialization -/

/-- Marking and resolving one reference keep the invariant. -/
theorem IInv.update {r : Registry} {h0 h : Heap} {S : Ptr → Prop} (hi : IInv r h0 S h) (p : Ptr)
    (f : Def → Def) (hsk : ∀ d, (f d).sk = d.sk) (hg : ∀ d, (f d).gens = d.gens)
    (hin : ∀ d, h[p]? = some d → (f d).initialized = true)
    (hop : ∀ d os ds, h[p]? = some d → (f d).kind = .choice os ds → ∀ c ∈ ds,
      ∃ n ∈ os, r.lookup n = some c) : IInv r h0 S (h.update p f) := by
  refine ⟨hi.sk.update p f fun d _ => hsk d, ?_, ?_, ?_⟩
  · intro p' d' hd' hx
    rw [Heap.getElem?_update] at hd'
    split at hd'
    · rename_i e; subst e
      cases hd : h[p]? with
      | none => rw [hd] at hd'; cases hd'
      | some d => rw [hd] at hd'; cases hd'; rw [hin d hd] at hx; cases hx
    · exact hi.fresh p' d' hd' hx
  · intro p' d' os ds hd' hk c hc
    rw [Heap.getElem?_update] at hd'
    split at hd'
    · rename_i e; subst e
      cases hd : h[p]? with
      | none => rw [hd] at hd'; cases hd'
      | some d => rw [hd] at hd'; cases hd'; exact hop d os ds hd hk c hc
    · exact hi.options p' d' os ds hd' hk c hc
  · intro p' d' hd' g' hg'
    rw [Heap.getElem?_update] at hd'
    split at hd'
    · rename_i e; subst e
      cases hd : h[p]? with
      | none => rw [hd] at hd'; cases hd'
      | some d => rw [hd] at hd'; cases hd'; rw [hg] at hg'; exact hi.gens p d hd g' hg'
    · exact hi.gens p' d' hd' g' hg'

theorem IStep.update {h : Heap} (p : Ptr) (f : Def → Def) (hsk : ∀ d, (f d).sk = d.sk)
    (hin : ∀ d, h[p]? = some d → (f d).initialized = true) : IStep (· = p) h (h.update p f) := by
  refine ⟨Heap.length_update .., fun p' d hd => ?_⟩
  rw [Heap.getElem?_update]
  split
  · rename_i e; subst e
    rw [hd]
    refine ⟨_, rfl, hsk d, fun _ => ⟨hin d hd, fun hx => absurd rfl hx⟩, fun hx => ?_⟩
    rw [hin d hd] at hx; cases hx
  · exact ⟨d, hd, rfl, fun hx => ⟨hx, fun _ => rfl⟩, fun _ => rfl⟩

/-- The result of the initialization of `p`. -/
structure IPost (r : Registry) (h0 : Heap) (S : Ptr → Prop) (h : Heap) (start : Ptr → Prop) (h' : Heap) :
    Prop where
  inv : IInv r h0 S h'
  step : IStep (fun _ => False) h h'
  start : ∀ p, start p → Ini h' p
  newly : ∀ p, Ini h' p → Ini h p ∨ Done r h0 h' p

section
variable {r : Registry} {h0 : Heap} {S : Ptr → Prop}

/-- What the loops over the references need from the nested calls. -/
def InitRec (r : Registry) (h0 : Heap) (S : Ptr → Prop) (K : Nat) (rec : Ptr → Heap → Res Heap) : Prop :=
  ∀ p h, S p → p < h0.length → IInv r h0 S h → uninit h < K →
    (rec p h).Spec False False (IPost r h0 S h (· = p))

theorem appendChild_initialized (d : Def) (c : Ptr) : (d.appendChild c).initialized = d.initialized := by
  unfold Def.appendChild; split <;> rfl

theorem appendChild_gens (d : Def) (c : Ptr) : (d.appendChild c).gens = d.gens := by
  unfold Def.appendChild; split <;> rfl

/-- A nested call, seen from the definition `p` that is being initialized. -/
theorem nested_step {h1 h2 : Heap} {p : Ptr} {d : Def} (hs : IStep (fun _ => False) h1 h2)
    (hd : h1[p]? = some d) (hin : d.initialized = true) :
    ∃ d', h2[p]? = some d' ∧ d'.initialized = true ∧ d'.kind = d.kind := by
  obtain ⟨d', e1, -, e3, -⟩ := hs.def_ p d hd
  exact ⟨d', e1, (e3 hin).1, (e3 hin).2 id⟩

theorem initOptions_spec {K m : Nat} {rec : Ptr → Heap → Res Heap}
    (hlk : ∀ n p, r.lookup n = some p → p < h0.length) (hm : h0.length < m)
    (hrec : InitRec r h0 S K rec) {p : Ptr} {d0 : Def} {all : List Name} {ds0 : List Ptr}
    (hd0 : h0[p]? = some d0) (hk0 : d0.kind = .choice all ds0) (hSp : S p)
    (hS : ∀ n ∈ all, ∃ q, r.lookup n = some q ∧ S q) :
    ∀ (os : List Name) (h : Heap) (d : Def) (ds : List Ptr), IInv r h0 S h → h[p]? = some d →
      d.initialized = true → d.kind = .choice all ds →
      all.map r.lookup = ds.map some ++ os.map r.lookup → (∀ n ∈ os, n ∈ all) → uninit h < K →
      (initOptions rec (fun g => addGeneralization g m) r p d0.id os h).Spec False False (fun h' =>
        IInv r h0 S h' ∧ IStep (· = p) h h' ∧
        (∀ n ∈ os, ∃ q, r.lookup n = some q ∧ Ini h' q) ∧
        (∀ q, q ≠ p → Ini h' q → Ini h q ∨ Done r h0 h' q) ∧
        ∃ d' ds', h'[p]? = some d' ∧ d'.initialized = true ∧ d'.kind = .choice all ds' ∧
          all.map r.lookup = ds'.map some)
  | [], h, d, ds, hi, hd, hin, hk, hall, _, _ =>
    ⟨hi, .refl _ h, by simp, fun q _ hq => Or.inl hq, d, ds, hd, hin, hk, by simpa using hall⟩
  | o :: os, h, d, ds, hi, hd, hin, hk, hall, hsub, hK => by
    unfold initOptions
    obtain ⟨c, hc, hSc⟩ := hS o (hsub o (by simp))
    simp only [hc]
    -- append the definition
    have hst0 : IStep (· = p) h (h.update p fun d => d.appendChild c) :=
      IStep.update p _ (fun d => d.appendChild_sk c) (fun d' hd' => by
        rw [hd] at hd'; cases hd'; rw [appendChild_initialized]; exact hin)
    have hi1 : IInv r h0 S (h.update p fun d => d.appendChild c) := by
      refine hi.update p _ (fun d => d.appendChild_sk c) (fun d => appendChild_gens d c) (fun d' hd' => by
        rw [hd] at hd'; cases hd'; rw [appendChild_initialized]; exact hin) ?_
      intro d' os' ds' hd' hk' c' hc'
      rw [hd] at hd'; cases hd'
      simp only [Def.appendChild, hk, DKind.choice.injEq] at hk'
      obtain ⟨rfl, rfl⟩ := hk'
      rcases List.mem_append.1 hc' with h' | h'
      · exact hi.options p d _ ds hd hk c' h'
      · simp only [List.mem_singleton] at h'; subst h'
        exact ⟨o, hsub o (by simp), hc⟩
    have hd1 : (h.update p fun d => d.appendChild c)[p]? = some (d.appendChild c) := by
      rw [Heap.getElem?_update_self, hd]; rfl
    have hk1 : (d.appendChild c).kind = .choice all (ds ++ [c]) := by
      simp [Def.appendChild, hk]
    have hin1 : (d.appendChild c).initialized = true := by rw [appendChild_initialized]; exact hin
    have hu1 := hst0.uninit
    refine Res.Spec.bind (hrec c _ hSc (hlk o c hc) hi1 (by omega)) ?_
    intro h2 hp2
    obtain ⟨d2, hd2, hin2, hk2⟩ := nested_step hp2.step hd1 hin1
    have hu2 := hp2.step.uninit
    -- add the generalization
    have hgen : NGen r h0 p c := .option hd0 hk0 (hsub o (by simp)) hc
    refine Res.Spec.bind (addGeneralization_spec hlk hSp hd0 rfl m c h2 hp2.inv hgen (hlk o c hc) ?_) ?_
    · have h1 : lacking d0.id h2 ≤ h2.length := List.countP_le_length
      have h2 := hp2.inv.sk.length
      omega
    rintro h3 ⟨hi3, hg3⟩
    have hst3 := hg3.istep (fun _ => False)
    obtain ⟨d3, hd3, hin3, hk3⟩ := nested_step hst3 hd2 hin2
    have hu3 := hst3.uninit
    refine (initOptions_spec hlk hm hrec hd0 hk0 hSp hS os h3 d3 (ds ++ [c]) hi3 hd3 hin3
      (by rw [hk3, hk2, hk1]) (by rw [hall]; simp [hc]) (fun n hn => hsub n (by simp [hn]))
      (by omega)).imp ?_
    rintro h4 ⟨k1, k2, k3, k4, k5⟩
    have hst : IStep (· = p) h h3 :=
      hst0.trans ((hp2.step.trans hst3).mono (fun _ => False.elim))
    refine ⟨k1, hst.trans k2, ?_, ?_, k5⟩
    · intro n hn
      rcases List.mem_cons.1 hn with rfl | hn
      · exact ⟨c, hc, k2.ini (hst3.ini (hp2.start c rfl))⟩
      · exact k3 n hn
    · intro q hq hq4
      rcases k4 q hq hq4 with h' | h'
      · -- the heap before `addGeneralization`
        have h2' : Ini h2 q := by
          obtain ⟨dq, e1, e2⟩ := h'
          cases hq2 : h2[q]? with
          | none =>
            have hl := hg3.len
            rw [List.getElem?_eq_none_iff] at hq2
            have := (List.getElem?_eq_some_iff.1 e1).1
            exact absurd (Nat.lt_of_lt_of_le (Nat.lt_of_lt_of_eq this hl) hq2) (Nat.lt_irrefl _)
          | some d2q =>
            obtain ⟨gs, g1, -⟩ := hg3.def_ q d2q hq2
            rw [e1] at g1; cases g1
            exact ⟨d2q, hq2, e2⟩
        rcases hp2.newly q h2' with h'' | h''
        · left
          obtain ⟨dq, e1, e2⟩ := h''
          rw [Heap.getElem?_update_ne _ _ (Ne.symm hq)] at e1
          exact ⟨dq, e1, e2⟩
        · right
          exact (h''.mono hst3 (by simp)).mono k2 (by simpa using hq)
      · exact Or.inr h'

theorem isCharDef_sk {h h0 : Heap} (s : SameSk h0 h) (p : Ptr) : isCharDef h p = isCharDef h0 p := by
  have key : ∀ (x : Heap), isCharDef x p = ((x[p]?).map fun d => d.sk.kind.isChar).getD false := by
    intro x
    unfold isCharDef
    cases x[p]? with
    | none => rfl
    | some d =>
      rcases d with ⟨_, _, _, _, _, _, k⟩
      cases k <;> rfl
  rw [key, key]
  have := s p
  cases h1 : h[p]? <;> cases h2 : h0[p]? <;> rw [h1, h2] at this <;> simp at this
  simp [this]

theorem initItems_spec {K : Nat} {rec : Ptr → Heap → Res Heap}
    (hlk : ∀ n p, r.lookup n = some p → p < h0.length)
    (hrec : InitRec r h0 S K rec) {p : Ptr} {orig items : List SeqItem} {rs : List (Int × Int)}
    (hS : ∀ i ∈ items, ∃ q, r.lookup i.name = some q ∧ S q) :
    ∀ (is : List Name) (ac : Bool) (h : Heap) (d : Def) (ds : List Ptr) (b : Bool), IInv r h0 S h →
      h[p]? = some d →
      d.initialized = true → d.kind = .seq orig items ds rs b →
      items.map (fun i => r.lookup i.name) = ds.map some ++ is.map r.lookup →
      (∀ n ∈ is, ∃ i ∈ items, i.name = n) → ac = ds.all (isCharDef h0) → uninit h < K →
      (initItems rec r p is ac h).Spec False False (fun x =>
        IInv r h0 S x.1 ∧ IStep (· = p) h x.1 ∧
        (∀ n ∈ is, ∃ q, r.lookup n = some q ∧ Ini x.1 q) ∧
        (∀ q, q ≠ p → Ini x.1 q → Ini h q ∨ Done r h0 x.1 q) ∧
        ∃ d' ds', x.1[p]? = some d' ∧ d'.initialized = true ∧ d'.kind = .seq orig items ds' rs b ∧
          items.map (fun i => r.lookup i.name) = ds'.map some ∧ x.2 = ds'.all (isCharDef h0))
  | [], ac, h, d, ds, b, hi, hd, hin, hk, hall, _, hac, _ =>
    ⟨hi, .refl _ h, by simp, fun q _ hq => Or.inl hq, d, ds, hd, hin, hk, by simpa using hall, hac⟩
  | o :: os, ac, h, d, ds, b, hi, hd, hin, hk, hall, hsub, hac, hK => by
    unfold initItems
    obtain ⟨i, hii, hio⟩ := hsub o (by simp)
    obtain ⟨c, hc, hSc⟩ := hS i hii
    rw [hio] at hc
    simp only [hc]
    have hst0 : IStep (· = p) h (h.update p fun d => d.appendChild c) :=
      IStep.update p _ (fun d => d.appendChild_sk c) (fun d' hd' => by
        rw [hd] at hd'; cases hd'; rw [appendChild_initialized]; exact hin)
    have hi1 : IInv r h0 S (h.update p fun d => d.appendChild c) := by
      refine hi.update p _ (fun d => d.appendChild_sk c) (fun d => appendChild_gens d c) (fun d' hd' => by
        rw [hd] at hd'; cases hd'; rw [appendChild_initialized]; exact hin) ?_
      intro d' os' ds' hd' hk' c' hc'
      rw [hd] at hd'; cases hd'
      simp [Def.appendChild, hk] at hk'
    have hd1 : (h.update p fun d => d.appendChild c)[p]? = some (d.appendChild c) := by
      rw [Heap.getElem?_update_self, hd]; rfl
    have hk1 : (d.appendChild c).kind = .seq orig items (ds ++ [c]) rs b := by
      simp [Def.appendChild, hk]
    have hin1 : (d.appendChild c).initialized = true := by rw [appendChild_initialized]; exact hin
    have hu1 := hst0.uninit
    refine Res.Spec.bind (hrec c _ hSc (hlk o c hc) hi1 (by omega)) ?_
    intro h2 hp2
    obtain ⟨d2, hd2, hin2, hk2⟩ := nested_step hp2.step hd1 hin1
    have hu2 := hp2.step.uninit
    refine (initItems_spec hlk hrec hS os _ h2 d2 (ds ++ [c]) b hp2.inv hd2 hin2
      (by rw [hk2, hk1]) (by rw [hall]; simp [hc]) (fun n hn => hsub n (by simp [hn]))
      (by rw [hac, isCharDef_sk hp2.inv.sk]; simp) (by omega)).imp ?_
    rintro h4 ⟨k1, k2, k3, k4, k5⟩
    have hst : IStep (· = p) h h2 := hst0.trans (hp2.step.mono (fun _ => False.elim))
    refine ⟨k1, hst.trans k2, ?_, ?_, k5⟩
    · intro n hn
      rcases List.mem_cons.1 hn with rfl | hn
      · exact ⟨c, hc, k2.ini (hp2.start c rfl)⟩
      · exact k3 n hn
    · intro q hq hq4
      rcases k4 q hq hq4 with h' | h'
      · rcases hp2.newly q h' with h'' | h''
        · left
          obtain ⟨dq, e1, e2⟩ := h''
          rw [Heap.getElem?_update_ne _ _ (Ne.symm hq)] at e1
          exact ⟨dq, e1, e2⟩
        · right
          exact h''.mono k2 (by simpa using hq)
      · exact Or.inr h'

/-- The step of a whole call, from the steps inside of it. -/
theorem IStep.whole {h h1 h' : Heap} {p : Ptr} {d : Def} (hd : h[p]? = some d)
    (hin : d.initialized = false) (s0 : IStep (· = p) h h1) (s : IStep (· = p) h1 h')
    (hin' : ∃ d', h'[p]? = some d' ∧ d'.initialized = true) : IStep (fun _ => False) h h' := by
  have t := s0.trans s
  refine ⟨t.len, fun q e he => ?_⟩
  obtain ⟨e', a1, a2, a3, a4⟩ := t.def_ q e he
  refine ⟨e', a1, a2, fun hx => ⟨(a3 hx).1, fun _ => (a3 hx).2 ?_⟩, a4⟩
  rintro rfl
  rw [hd] at he; cases he
  rw [hin] at hx; cases hx

theorem initDef_spec {m : Nat} (hlk : ∀ n p, r.lookup n = some p → p < h0.length) (hm : h0.length < m)
    (hS : ∀ (p : Ptr) d, S p → h0[p]? = some d → ∀ n ∈ d.kind.refs, ∃ q, r.lookup n = some q ∧ S q) :
    ∀ n, InitRec r h0 S n (initDef r m n)
  | 0 => fun _ _ _ _ _ hK => absurd hK (Nat.not_lt_zero _)
  | n + 1 => by
    intro p h hSp hp hi hK
    have ih := initDef_spec hlk hm hS n
    unfold initDef
    obtain ⟨d, hd⟩ : ∃ d, h[p]? = some d :=
      ⟨_, List.getElem?_eq_getElem (Nat.lt_of_lt_of_eq hp hi.sk.length.symm)⟩
    obtain ⟨d0, hd0, hsk0⟩ := hi.sk.symm.to hd
    simp only [hd]
    have hvis : Ini h p → IPost r h0 S h (· = p) h := by
      intro hv
      refine ⟨hi, .refl _ h, ?_, fun q hq => Or.inl hq⟩
      rintro q rfl
      exact hv
    have hrefs : ∀ n ∈ d.kind.refs, ∃ q, r.lookup n = some q ∧ S q := by
      rw [← Def.sk_refs hsk0]; exact hS p d0 hSp hd0
    cases hk : d.kind with
    | char neg cs rs => exact hvis ⟨d, hd, Or.inr (by rw [hk]; rfl)⟩
    | choice os ds =>
      simp only
      split
      · rename_i hv; exact hvis ⟨d, hd, Or.inl hv⟩
      · rename_i hv
        have hv : d.initialized = false := by simpa using hv
        have hfr := hi.fresh p d hd hv
        rw [hk] at hfr
        have hfr : ds = [] := hfr
        subst hfr
        have hst0 : IStep (· = p) h (h.update p fun d => { d with initialized := true }) :=
          IStep.update p _ (fun _ => rfl) (fun _ _ => rfl)
        have hi1 : IInv r h0 S (h.update p fun d => { d with initialized := true }) := by
          refine hi.update p _ (fun _ => rfl) (fun _ => rfl) (fun _ _ => rfl) ?_
          intro d' os' ds' hd' hk' c hc
          exact hi.options p d' os' ds' hd' hk' c hc
        have hd1 : (h.update p fun d => { d with initialized := true })[p]? =
            some { d with initialized := true } := by rw [Heap.getElem?_update_self, hd]; rfl
        have hun : uninit (h.update p fun d => { d with initialized := true }) + 1 = uninit h :=
          countP_modify_lt _ _ h p d hd (by simpa using hv) (by simp)
        have hk0 : ∃ ds0, d0.kind = .choice os ds0 := by
          have : d0.sk.kind = d.sk.kind := by rw [hsk0]
          simp only [Def.sk, hk, DKind.sk] at this
          cases hk' : d0.kind <;> rw [hk'] at this <;> simp at this
          subst this
          exact ⟨_, rfl⟩
        obtain ⟨ds0, hk0⟩ := hk0
        have hid : d.id = d0.id := (Def.sk_id hsk0).symm
        rw [hk] at hrefs
        rw [hid]
        refine (initOptions_spec hlk hm ih hd0 hk0 hSp hrefs os _ _ [] hi1 hd1 rfl hk (by simp)
          (fun _ => id) (by omega)).imp ?_
        rintro h' ⟨k1, k2, k3, k4, d', ds', k5, k6, k7, k8⟩
        refine ⟨k1, IStep.whole hd hv hst0 k2 ⟨d', k5, k6⟩, ?_, ?_⟩
        · rintro q rfl; exact ⟨d', k5, Or.inl k6⟩
        · intro q hq
          by_cases hqp : q = p
          · subst hqp
            right
            refine ⟨d', k5, Or.inl k6, by rw [k7]; exact k8, ?_⟩
            rw [k7]
            exact k3
          · rcases k4 q hqp hq with h'' | h''
            · left
              obtain ⟨dq, e1, e2⟩ := h''
              rw [Heap.getElem?_update_ne _ _ (Ne.symm hqp)] at e1
              exact ⟨dq, e1, e2⟩
            · exact Or.inr h''
    | seq orig items ds rs ac =>
      simp only
      split
      · rename_i hv; exact hvis ⟨d, hd, Or.inl hv⟩
      · rename_i hv
        have hv : d.initialized = false := by simpa using hv
        have hfr := hi.fresh p d hd hv
        rw [hk] at hfr
        obtain ⟨hds, hrs⟩ : ds = [] ∧ (rs = [] ∨ items = items.map normalizeItemRange ∧
          rs = items.map itemRange) := hfr
        subst hds
        have hini : ∀ d : Def, ({ d with initialized := true } : Def).initRanges.initialized = true := by
          intro d; unfold Def.initRanges; split <;> rfl
        have hgen : ∀ d : Def, ({ d with initialized := true } : Def).initRanges.gens = d.gens := by
          intro d; unfold Def.initRanges; split <;> rfl
        have hskk : ∀ d : Def, ({ d with initialized := true } : Def).initRanges.sk = d.sk := by
          intro d; rw [Def.initRanges_sk]; rfl
        have hst0 : IStep (· = p) h (h.update p fun d => { d with initialized := true }.initRanges) :=
          IStep.update p _ hskk (fun d _ => hini d)
        have hkk : ({ d with initialized := true } : Def).initRanges.kind =
            .seq orig (items.map normalizeItemRange) [] (rs ++ (items.map normalizeItemRange).map itemRange)
              ac := by
          unfold Def.initRanges
          simp [hk, itemRange]
        have hi1 : IInv r h0 S (h.update p fun d => { d with initialized := true }.initRanges) := by
          refine hi.update p _ hskk hgen (fun d _ => hini d) ?_
          intro d' os' ds' hd' hk' c hc
          rw [hd] at hd'; cases hd'
          rw [hkk] at hk'; cases hk'
        have hd1 : (h.update p fun d => { d with initialized := true }.initRanges)[p]? =
            some ({ d with initialized := true } : Def).initRanges := by
          rw [Heap.getElem?_update_self, hd]; rfl
        have hun : uninit (h.update p fun d => { d with initialized := true }.initRanges) + 1 =
            uninit h :=
          countP_modify_lt _ _ h p d hd (by simpa using hv) (by simp [hini])
        rw [hk] at hrefs
        have hnames : items.map SeqItem.name = (items.map normalizeItemRange).map SeqItem.name := by
          simp [Function.comp_def, normalizeItemRange_name]
        rw [hnames]
        simp only [DKind.refs] at hrefs
        rw [hnames] at hrefs
        have hrs' : ∃ t, rs ++ (items.map normalizeItemRange).map itemRange =
            (items.map normalizeItemRange).map itemRange ++ t := by
          rcases hrs with rfl | ⟨e1, rfl⟩
          · exact ⟨[], by simp⟩
          · rw [← e1]; exact ⟨_, rfl⟩
        generalize hN : items.map normalizeItemRange = items' at *
        have hidem : items' = items'.map normalizeItemRange := by
          rw [← hN, normalize_map_idem]
        refine Res.Spec.bind (initItems_spec hlk ih (items := items') (fun i hi' => hrefs i.name
          (List.mem_map.2 ⟨i, hi', rfl⟩)) (items'.map SeqItem.name) true _ _ [] ac hi1 hd1 (hini d) hkk
          (by simp) (fun n hn => by
            obtain ⟨i, g1, g2⟩ := List.mem_map.1 hn
            exact ⟨i, g1, g2⟩) (by simp) (by omega)) ?_
        rintro ⟨h2, b⟩ ⟨k1, k2, k3, k4, d', ds', k5, k6, k7, k8, k9⟩
        simp only at k1 k2 k3 k4 k5 k9
        simp only [Res.Spec.ok_iff]
        have hst2 : IStep (· = p) h2 (h2.update p fun d => d.setAllChars b) :=
          IStep.update p _ (fun d => d.setAllChars_sk b) (fun e he => by
            rw [k5] at he; cases he
            unfold Def.setAllChars; split <;> exact k6)
        have hd3 : (h2.update p fun d => d.setAllChars b)[p]? =
            some { d' with kind := .seq orig items' ds' (rs ++ items'.map itemRange) b } := by
          rw [Heap.getElem?_update_self, k5]
          simp [Def.setAllChars, k7]
        refine ⟨?_, IStep.whole hd hv hst0 (k2.trans hst2) ⟨_, hd3, k6⟩, ?_, ?_⟩
        · refine k1.update p _ (fun d => d.setAllChars_sk b) (fun d => ?_) (fun e he => ?_) ?_
          · unfold Def.setAllChars; split <;> rfl
          · rw [k5] at he; cases he
            unfold Def.setAllChars; split <;> exact k6
          · intro e os' dd he hk'
            rw [k5] at he; cases he
            simp [Def.setAllChars, k7] at hk'
        · rintro q rfl; exact ⟨_, hd3, Or.inl k6⟩
        · intro q hq
          by_cases hqp : q = p
          · subst hqp
            right
            refine ⟨_, hd3, Or.inl k6, ⟨k8, hidem, ?_, k9⟩, ?_⟩
            · exact hrs'
            · intro n hn
              obtain ⟨q', g1, g2⟩ := k3 n hn
              exact ⟨q', g1, hst2.ini g2⟩
          · have hq2 : Ini h2 q := by
              obtain ⟨dq, e1, e2⟩ := hq
              rw [Heap.getElem?_update_ne _ _ (Ne.symm hqp)] at e1
              exact ⟨dq, e1, e2⟩
            rcases k4 q hqp hq2 with h'' | h''
            · left
              obtain ⟨dq, e1, e2⟩ := h''
              rw [Heap.getElem?_update_ne _ _ (Ne.symm hqp)] at e1
              exact ⟨dq, e1, e2⟩
            · exact Or.inr (h''.mono hst2 (by simpa using hqp))

theorem initAll_spec {m n : Nat} (hlk : ∀ n p, r.lookup n = some p → p < h0.length) (hm : h0.length < m)
    (hS : ∀ (p : Ptr) d, S p → h0[p]? = some d → ∀ n ∈ d.kind.refs, ∃ q, r.lookup n = some q ∧ S q) :
    ∀ (ps : List Ptr) (h : Heap), (∀ p ∈ ps, S p ∧ p < h0.length) → IInv r h0 S h → uninit h < n →
      (Syntax.initAll r m n ps h).Spec False False (IPost r h0 S h (· ∈ ps))
  | [], h, _, hi, _ => ⟨hi, .refl _ h, by simp, fun q hq => Or.inl hq⟩
  | p :: ps, h, hps, hi, hK => by
    unfold Syntax.initAll
    refine Res.Spec.bind (initDef_spec hlk hm hS n p h (hps p (by simp)).1 (hps p (by simp)).2 hi hK) ?_
    intro h1 hp
    have hu := hp.step.uninit
    refine (initAll_spec hlk hm hS ps h1 (fun q hq => hps q (by simp [hq])) hp.inv (by omega)).imp ?_
    intro h2 k
    refine ⟨k.inv, hp.step.trans k.step, ?_, ?_⟩
    · intro q hq
      rcases List.mem_cons.1 hq with rfl | hq
      · exact k.step.ini (hp.start _ rfl)
      · exact k.start q hq
    · intro q hq
      rcases k.newly q hq with h' | h'
      · rcases hp.newly q h' with h'' | h''
        · exact Or.inl h''
        · exact Or.inr (h''.mono k.step (by simp))
      · exact Or.inr h'

end
end Treerack
