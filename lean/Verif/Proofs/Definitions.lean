import Verif.Spec.Definitions
import Verif.Proofs.Language

/-
Which definition calls are accepted.
-/

namespace Treerack
open Spec

theorem valid_iff (n : Name) : isValidSymbol n = true ↔ ValidName n := by
  have hr : symbolChars = reserved := by decide
  unfold isValidSymbol ValidName matchChar
  rw [hr, List.all_eq_true]
  constructor
  · intro h r hr hm
    have := h r hr
    rw [if_pos (List.any_eq_true.2 ⟨r, hm, by simp⟩)] at this
    simp at this
  · intro h r hr
    rw [if_neg]
    · simp
    · rw [List.any_eq_true]
      rintro ⟨x, hx, he⟩
      simp only [beq_iff_eq] at he
      subst he
      exact h _ hr hx

theorem compatible_iff (ct : Commit) : ct.incompatible = false ↔ Compatible ct := by
  unfold Compatible conflicts Commit.incompatible
  simp only [List.mem_cons, List.not_mem_nil, or_false, forall_eq_or_imp, forall_eq]
  rcases ct with ⟨a, b, c, d, e, f, g, h⟩
  cases a <;> cases b <;> cases d <;> cases e <;> cases f <;> cases g <;> simp

theorem setCommitType_name (d : Def) (ct : Commit) : (d.setCommitType ct).name = d.name := by
  unfold Def.setCommitType; split <;> rfl

theorem applyRoot_any {s : Syntax} {p : Ptr} {d : Def} (hd : s.heap[p]? = some d) :
    if d.commitType.root = true ∧ s.explicitRoot = true then s.applyRoot p = (s, some .multipleRoots)
    else ∃ s1 d1, s.applyRoot p = (s1, none) ∧ s1.registry = s.registry ∧ s1.heap[p]? = some d1 ∧ d1.name = d.name ∧
      s1.explicitRoot = (s.explicitRoot || d.commitType.root) := by
  have hc : Syntax.commitOf s.heap p = d.commitType := by simp [Syntax.commitOf, hd]
  unfold Syntax.applyRoot
  simp only [hc]
  rcases s with ⟨heap, registry, initialized, initFailed, explicitRoot, keywords, root⟩
  simp only at hd ⊢
  generalize d.commitType.root = ct
  have h1 : ∀ f g : Def → Def, (∀ d, (f d).name = d.name) → (∀ d, (g d).name = d.name) → ∀ r : Ptr,
      ∃ d1, (Heap.update (Heap.update heap r f) p g)[p]? = some d1 ∧ d1.name = d.name := by
    intro f g hf hg r
    rw [Heap.getElem?_update, if_pos rfl, Heap.getElem?_update]
    split
    · exact ⟨_, by rw [hd]; rfl, by rw [hg, hf]⟩
    · exact ⟨_, by rw [hd]; rfl, by rw [hg]⟩
  have h2 : ∀ g : Def → Def, (∀ d, (g d).name = d.name) →
      ∃ d1, (Heap.update heap p g)[p]? = some d1 ∧ d1.name = d.name := by
    intro g hg
    rw [Heap.getElem?_update, if_pos rfl]
    exact ⟨_, by rw [hd]; rfl, by rw [hg]⟩
  have hn : ∀ (b : Bool) (d : Def), (d.setCommitType { d.commitType with root := b }).name = d.name :=
    fun b d => setCommitType_name d _
  cases ct <;> cases explicitRoot <;> cases root <;> simp [hd] <;>
    first
    | exact h2 _ (hn true)
    | exact h1 _ _ (hn false) (hn true) _

/-- A registration is accepted. -/
theorem register_none {s : Syntax} {d : Def} : (s.register d).2 = none ↔
    s.initialized = false ∧ d.commitType.incompatible = false ∧
      (d.commitType.root = true → s.explicitRoot = false) ∧ s.registry.lookup d.name = none := by
  unfold Syntax.register
  cases hi : s.initialized with
  | true => simp
  | false =>
    simp only [Bool.false_eq_true, if_false]
    cases hc : d.commitType.incompatible with
    | true => simp
    | false =>
      simp only [Bool.false_eq_true, if_false, true_and]
      have ha := applyRoot_any (s := { s with heap := s.heap ++ [d], initialized := false }) (p := s.heap.length) (d := d) (by simp)
      split at ha
      · rename_i hh
        rw [ha]
        simp only at hh ⊢
        simp [hh.1, hh.2]
      · rename_i hh
        obtain ⟨s1, d1, h1, h2, h3, h4, -⟩ := ha
        rw [h1]
        simp only at hh h2 ⊢
        have hroot : d.commitType.root = true → s.explicitRoot = false := by
          intro hr
          cases he : s.explicitRoot
          · rfl
          · exact absurd ⟨hr, he⟩ hh
        generalize hs2 : (if (Syntax.commitOf s1.heap s.heap.length).keyword = true then
          { s1 with keywords := s1.keywords ++ [s.heap.length] } else s1) = s2
        have b1 : s2.heap = s1.heap := by rw [← hs2]; split <;> rfl
        have b2 : s2.registry = s.registry := by rw [← hs2, ← h2]; split <;> rfl
        unfold Registry.setDefinition
        rw [b1, b2, h3]
        simp only [h4]
        cases s.registry.lookup d.name with
        | none => simp; exact hroot
        | some q => simp

theorem register_cases {s s' : Syntax} {d : Def} {e : Option SynErr} (h : s.register d = (s', e)) :
    (∃ x, e = some x) ∧ s'.registry = s.registry ∧ (s.explicitRoot = true → s'.explicitRoot = true) ∨
    e = none ∧ s'.registry.definition = (d.name, s.heap.length) :: s.registry.definition ∧
      s'.explicitRoot = (s.explicitRoot || d.commitType.root) := by
  unfold Syntax.register at h
  cases hi : s.initialized with
  | true =>
    rw [if_pos hi] at h
    cases h
    exact Or.inl ⟨⟨_, rfl⟩, rfl, id⟩
  | false =>
    rw [if_neg (by simp [hi])] at h
    simp only at h
    cases hc : d.commitType.incompatible with
    | true =>
      rw [if_pos hc] at h
      cases h
      exact Or.inl ⟨⟨_, rfl⟩, rfl, id⟩
    | false =>
      rw [if_neg (by simp [hc])] at h
      have ha := applyRoot_any (s := { s with heap := s.heap ++ [d] }) (p := s.heap.length) (d := d) (by simp)
      split at ha
      · rename_i hh
        rw [ha] at h
        cases h
        exact Or.inl ⟨⟨_, rfl⟩, rfl, id⟩
      · rename_i hh
        obtain ⟨s1, d1, h1, h2, h3, h4, h5⟩ := ha
        rw [h1] at h
        simp only at hh h2 h5 h
        generalize hs2 : (if (Syntax.commitOf s1.heap s.heap.length).keyword = true then
          { s1 with keywords := s1.keywords ++ [s.heap.length] } else s1) = s2 at h
        have b1 : s2.heap = s1.heap := by rw [← hs2]; split <;> rfl
        have b2 : s2.registry = s.registry := by rw [← hs2, ← h2]; split <;> rfl
        have b3 : s2.explicitRoot = (s.explicitRoot || d.commitType.root) := by rw [← hs2, ← h5]; split <;> rfl
        unfold Registry.setDefinition at h
        rw [b1, b2, h3] at h
        simp only [h4] at h
        cases hl : s.registry.lookup d.name with
        | none =>
          rw [hl] at h
          cases h
          exact Or.inr ⟨rfl, rfl, b3⟩
        | some q =>
          rw [hl] at h
          cases h
          exact Or.inl ⟨⟨_, rfl⟩, rfl, fun h => by simp [b3, h]⟩

/-- The effect of a registration on the names and on the explicit root. -/
theorem register_effect (s : Syntax) (d : Def) :
    (∀ n, (s.register d).1.registry.lookup n =
      if (s.register d).2 = none ∧ n = d.name then some s.heap.length else s.registry.lookup n) ∧
    (s.explicitRoot = true → (s.register d).1.explicitRoot = true) ∧
    ((s.register d).2 = none → (s.register d).1.explicitRoot = (s.explicitRoot || d.commitType.root)) ∧
    (s.register d).1.initialized = s.initialized := by
  have hf := (register_flags s d).1
  rcases register_cases (s := s) (d := d) (s' := (s.register d).1) (e := (s.register d).2) rfl with
    ⟨⟨x, h1⟩, h2, h3⟩ | ⟨h1, h2, h3⟩
  · exact ⟨fun n => by rw [h2, h1]; simp, h3, (fun h => by rw [h1] at h; cases h), hf⟩
  · refine ⟨fun n => ?_, fun h => by rw [h3, h]; rfl, fun _ => h3, hf⟩
    unfold Registry.lookup
    rw [h2, h1, List.lookup_cons]
    by_cases hn : n = d.name
    · simp [hn]
    · simp [hn, beq_eq_false_iff_ne.2 hn]

/-- The names and the explicit root are kept. -/
def Grows (s s' : Syntax) : Prop :=
  (∀ n, s.registry.lookup n ≠ none → s'.registry.lookup n ≠ none) ∧ (s.explicitRoot = true → s'.explicitRoot = true)

theorem Grows.refl (s : Syntax) : Grows s s := ⟨fun _ => id, id⟩

theorem Grows.trans {a b c : Syntax} (h1 : Grows a b) (h2 : Grows b c) : Grows a c :=
  ⟨fun n h => h2.1 n (h1.1 n h), fun h => h2.2 (h1.2 h)⟩

theorem register_grows (s : Syntax) (d : Def) : Grows s (s.register d).1 := by
  obtain ⟨h1, h2, -⟩ := register_effect s d
  refine ⟨fun n h => ?_, h2⟩
  rw [h1]
  split
  · simp
  · exact h

theorem class_grows (s : Syntax) (n : Name) (ct : Commit) (neg : Bool) (cs : List Rune)
    (rs : List (Rune × Rune)) : Grows s (s.class_ n ct neg cs rs).1 := by
  unfold Syntax.class_
  simp only
  have h1 := register_grows s (newChar (childName n 0) neg cs rs)
  generalize s.register (newChar (childName n 0) neg cs rs) = x at h1
  obtain ⟨s1, e⟩ := x
  cases e with
  | some e => exact h1
  | none => exact h1.trans (register_grows ..)

theorem charSequenceLoop_grows (n : Name) : ∀ (cs : List Rune) (i : Nat) (refs : List Name) (s : Syntax),
    Grows s (Syntax.charSequenceLoop n i cs refs s).1
  | [], _, _, s => .refl s
  | c :: cs, i, refs, s => by
    unfold Syntax.charSequenceLoop
    simp only
    have h1 := register_grows s (newChar (childName n i) false [c] [])
    generalize s.register (newChar (childName n i) false [c] []) = x at h1
    obtain ⟨s1, e⟩ := x
    cases e with
    | some e => exact h1
    | none => exact h1.trans (charSequenceLoop_grows n cs (i + 1) _ s1)

theorem charSequence_grows (s : Syntax) (n : Name) (ct : Commit) (cs : List Rune) :
    Grows s (s.charSequence_ n ct cs).1 := by
  unfold Syntax.charSequence_
  have h1 := charSequenceLoop_grows n cs 0 [] s
  generalize Syntax.charSequenceLoop n 0 cs [] s = x at h1
  obtain ⟨s1, e, refs⟩ := x
  cases e with
  | some e => exact h1
  | none => exact h1.trans (register_grows ..)

theorem call_grows (s : Syntax) (c : Call) : Grows s (s.call c).1 := by
  cases c with
  | anyChar n ct =>
    simp only [Syntax.call, Syntax.AnyChar]
    split
    · exact .refl s
    · exact class_grows ..
  | class_ n ct neg cs rs =>
    simp only [Syntax.call, Syntax.Class]
    split
    · exact .refl s
    · exact class_grows ..
  | charSequence n ct cs =>
    simp only [Syntax.call, Syntax.CharSequence]
    split
    · exact .refl s
    · exact charSequence_grows ..
  | sequence n ct items =>
    simp only [Syntax.call, Syntax.Sequence]
    split
    · exact .refl s
    · exact register_grows ..
  | choice n ct os =>
    simp only [Syntax.call, Syntax.Choice]
    split
    · exact .refl s
    · exact register_grows ..

/-- What an accepted call needs, and what it leaves behind. -/
structure Needs (s : Syntax) (name : Name) (ct : Commit) (s' : Syntax) : Prop where
  notInit : s.initialized = false
  flags : ct.incompatible = false
  fresh : s.registry.lookup name = none
  root : ct.root = true → s.explicitRoot = false
  done : s'.registry.lookup name ≠ none
  explicit : ct.root = true → s'.explicitRoot = true

theorem register_needs {s s' : Syntax} {d : Def} (hk : d.kind.isChar = false) (h : s.register d = (s', none)) :
    Needs s d.name d.commit s' := by
  have h2 : (s.register d).2 = none := by rw [h]
  obtain ⟨a1, a2, a3, a4⟩ := register_none.1 h2
  obtain ⟨b1, -, b3, -⟩ := register_effect s d
  rw [commitType_notChar hk] at a2 a3 b3
  rw [h] at b1 b3
  refine ⟨a1, a2, a4, a3, ?_, ?_⟩
  · have := b1 d.name
    simp only [and_self, if_true] at this
    simp [this]
  · intro hr
    have := b3 rfl
    simp only at this
    rw [this, hr]; simp

theorem Needs.after {s s1 s' : Syntax} {name : Name} {ct : Commit} (h : Needs s1 name ct s') (hg : Grows s s1)
    (hi : s1.initialized = s.initialized) : Needs s name ct s' := by
  refine ⟨by rw [← hi]; exact h.notInit, h.flags, ?_, ?_, h.done, h.explicit⟩
  · rcases hl : s.registry.lookup name with _ | q
    · rfl
    · exact absurd h.fresh (hg.1 name (by simp [hl]))
  · intro hr
    cases he : s.explicitRoot
    · rfl
    · exact absurd (hg.2 he) (by simp [h.root hr])

theorem class_needs {s s' : Syntax} {n : Name} {ct : Commit} {neg : Bool} {cs : List Rune} {rs : List (Rune × Rune)}
    (h : s.class_ n ct neg cs rs = (s', none)) : Needs s n ct s' := by
  unfold Syntax.class_ at h
  simp only at h
  have h1 := register_grows s (newChar (childName n 0) neg cs rs)
  have h2 := (register_flags s (newChar (childName n 0) neg cs rs)).1
  generalize s.register (newChar (childName n 0) neg cs rs) = x at h h1 h2
  obtain ⟨s1, e⟩ := x
  cases e with
  | some e => simp at h
  | none =>
    have := register_needs (d := newSequence n ct [{ name := childName n 0 }]) rfl h
    exact this.after h1 h2

theorem charSequence_needs {s s' : Syntax} {n : Name} {ct : Commit} {cs : List Rune}
    (h : s.charSequence_ n ct cs = (s', none)) : Needs s n { ct with noWhitespace := true } s' := by
  unfold Syntax.charSequence_ at h
  have h1 := charSequenceLoop_grows n cs 0 [] s
  have h2 := (charSequenceLoop_keeps n cs 0 [] s).1
  generalize Syntax.charSequenceLoop n 0 cs [] s = x at h h1 h2
  obtain ⟨s1, e, refs⟩ := x
  cases e with
  | some e => simp at h
  | none =>
    have := register_needs (d := newSequence n { ct with noWhitespace := true } (refs.map fun r => { name := r })) rfl h
    exact this.after h1 h2

theorem internalCall_needs {s s' : Syntax} {c : Call} (h : s.internalCall c = (s', none)) :
    Needs s c.name c.commit s' := by
  cases c with
  | anyChar n ct => exact class_needs h
  | class_ n ct neg cs rs => exact class_needs h
  | charSequence n ct cs =>
    obtain ⟨a1, a2, a3, a4, a5, a6⟩ := charSequence_needs h
    exact ⟨a1, a2, a3, a4, a5, a6⟩
  | sequence n ct items => exact register_needs (d := newSequence ..) rfl h
  | choice n ct os => exact register_needs (d := newChoice ..) rfl h

theorem call_needs {s s' : Syntax} {c : Call} (h : s.call c = (s', none)) :
    isValidSymbol c.name = true ∧ Needs s c.name c.commit s' := by
  have conv : ∀ {n : Name} {ct ct' : Commit}, Needs s n ct s' → ct'.incompatible = ct.incompatible → ct'.root = ct.root →
      Needs s n ct' s' := by
    rintro n ct ct' ⟨a1, a2, a3, a4, a5, a6⟩ h1 h2
    exact ⟨a1, h1.trans a2, a3, by rw [h2]; exact a4, a5, by rw [h2]; exact a6⟩
  cases c with
  | anyChar n ct =>
    simp only [Syntax.call, Syntax.AnyChar] at h
    split at h
    · simp at h
    · rename_i hv
      exact ⟨by simpa [Call.name] using hv, conv (class_needs h) rfl rfl⟩
  | class_ n ct neg cs rs =>
    simp only [Syntax.call, Syntax.Class] at h
    split at h
    · simp at h
    · rename_i hv
      exact ⟨by simpa [Call.name] using hv, conv (class_needs h) rfl rfl⟩
  | charSequence n ct cs =>
    simp only [Syntax.call, Syntax.CharSequence] at h
    split at h
    · simp at h
    · rename_i hv
      exact ⟨by simpa [Call.name] using hv, conv (charSequence_needs h) rfl rfl⟩
  | sequence n ct items =>
    simp only [Syntax.call, Syntax.Sequence] at h
    split at h
    · simp at h
    · rename_i hv
      exact ⟨by simpa [Call.name] using hv, conv (register_needs (d := newSequence ..) rfl h) rfl rfl⟩
  | choice n ct os =>
    simp only [Syntax.call, Syntax.Choice] at h
    split at h
    · simp at h
    · rename_i hv
      exact ⟨by simpa [Call.name] using hv, conv (register_needs (d := newChoice ..) rfl h) rfl rfl⟩

/-- What any definition calls leave behind. -/
theorem Attempted.names {cs : List Call} {s : Syntax} (h : Attempted cs s) :
    (∀ c ∈ cs, s.registry.lookup c.name ≠ none) ∧ (∀ c ∈ cs, c.commit.root = true → s.explicitRoot = true) := by
  induction h with
  | empty => simp
  | @accepted cs s s' c _ hc ih =>
    obtain ⟨-, hn⟩ := call_needs hc
    have hg := call_grows s c
    rw [hc] at hg
    constructor
    · intro x hx
      rcases List.mem_append.1 hx with hx | hx
      · exact hg.1 _ (ih.1 x hx)
      · rw [List.mem_singleton] at hx; subst hx; exact hn.done
    · intro x hx hr
      rcases List.mem_append.1 hx with hx | hx
      · exact hg.2 (ih.2 x hx hr)
      · rw [List.mem_singleton] at hx; subst hx; exact hn.explicit hr
  | @rejected cs s s' c e _ hc ih =>
    have hg := call_grows s c
    rw [hc] at hg
    exact ⟨fun x hx => hg.1 _ (ih.1 x hx), fun x hx hr => hg.2 (ih.2 x hx hr)⟩

/-! ### Acceptance -/

theorem newChar_commitType (n : Name) (neg : Bool) (cs : List Rune) (rs : List (Rune × Rune)) :
    (newChar n neg cs rs).commitType = { alias := true } := rfl

theorem char_accepted {s : Syntax} {n : Name} {neg : Bool} {cs : List Rune} {rs : List (Rune × Rune)}
    (hi : s.initialized = false) (hl : s.registry.lookup n = none) :
    ∃ s1, s.register (newChar n neg cs rs) = (s1, none) ∧ s1.initialized = false ∧ s1.explicitRoot = s.explicitRoot ∧
      ∀ m, m ≠ n → s1.registry.lookup m = s.registry.lookup m := by
  have h2 : (s.register (newChar n neg cs rs)).2 = none :=
    register_none.2 ⟨hi, rfl, by simp [newChar_commitType], hl⟩
  obtain ⟨b1, -, b3, b4⟩ := register_effect s (newChar n neg cs rs)
  generalize s.register (newChar n neg cs rs) = x at h2 b1 b3 b4
  obtain ⟨s1, e⟩ := x
  cases h2
  refine ⟨s1, rfl, b4.trans hi, ?_, ?_⟩
  · have := b3 rfl
    simpa [newChar_commitType] using this
  · intro m hm
    have := b1 m
    simp only at this
    rw [this, if_neg]
    intro h
    exact hm h.2

theorem sequence_accepted {s : Syntax} {d : Def} (hk : d.kind.isChar = false)
    (hi : s.initialized = false) (hc : d.commit.incompatible = false) (hl : s.registry.lookup d.name = none)
    (hr : d.commit.root = true → s.explicitRoot = false) : ∃ s', s.register d = (s', none) := by
  have h2 : (s.register d).2 = none := by
    rw [register_none, commitType_notChar hk]
    exact ⟨hi, hc, hr, hl⟩
  exact ⟨(s.register d).1, Prod.ext rfl h2⟩

theorem childName_ne (n : Name) (i : Nat) : childName n i ≠ n := by
  intro h
  have := congrArg List.length h
  unfold childName at this
  simp at this

theorem childName_inj {n : Name} {i j : Nat} (h : childName n i = childName n j) : i = j := by
  unfold childName at h
  exact itoa_inj (by simpa using h)

theorem class_accepted {s : Syntax} {n : Name} {ct : Commit} {neg : Bool} {cs : List Rune} {rs : List (Rune × Rune)}
    (hi : s.initialized = false) (hc : ct.incompatible = false) (hl : s.registry.lookup n = none)
    (hl' : s.registry.lookup (childName n 0) = none) (hr : ct.root = true → s.explicitRoot = false) :
    ∃ s', s.class_ n ct neg cs rs = (s', none) := by
  obtain ⟨s1, h1, h2, h3, h4⟩ := char_accepted (neg := neg) (cs := cs) (rs := rs) hi hl'
  unfold Syntax.class_
  simp only [h1]
  exact sequence_accepted (d := newSequence ..) rfl h2 hc
    ((h4 n (fun h => childName_ne n 0 h.symm)).trans hl) (fun h => h3.trans (hr h))

theorem charSequenceLoop_accepted {n : Name} : ∀ (cs : List Rune) (i : Nat) (refs : List Name) (s : Syntax),
    s.initialized = false → (∀ j, i ≤ j → s.registry.lookup (childName n j) = none) →
    ∃ s1 refs', Syntax.charSequenceLoop n i cs refs s = (s1, none, refs') ∧ s1.initialized = false ∧
      s1.explicitRoot = s.explicitRoot ∧ s1.registry.lookup n = s.registry.lookup n
  | [], _, refs, s, hi, _ => ⟨s, refs, rfl, hi, rfl, rfl⟩
  | c :: cs, i, refs, s, hi, hl => by
    obtain ⟨s1, h1, h2, h3, h4⟩ := char_accepted (neg := false) (cs := [c]) (rs := []) hi (hl i (Nat.le_refl i))
    obtain ⟨s2, refs', k1, k2, k3, k4⟩ := charSequenceLoop_accepted cs (i + 1) (refs ++ [childName n i]) s1 h2 (by
      intro j hj
      rw [h4 _ (fun h => by have := childName_inj h; omega)]
      exact hl j (by omega))
    refine ⟨s2, refs', ?_, k2, k3.trans h3, k4.trans (h4 n (fun h => childName_ne n i h.symm))⟩
    unfold Syntax.charSequenceLoop
    simp only [h1]
    exact k1

theorem charSequence_accepted {s : Syntax} {n : Name} {ct : Commit} {cs : List Rune}
    (hi : s.initialized = false) (hc : ct.incompatible = false) (hl : s.registry.lookup n = none)
    (hl' : ∀ j, s.registry.lookup (childName n j) = none) (hr : ct.root = true → s.explicitRoot = false) :
    ∃ s', s.charSequence_ n ct cs = (s', none) := by
  obtain ⟨s1, refs, h1, h2, h3, h4⟩ := charSequenceLoop_accepted cs 0 [] s hi (fun j _ => hl' j)
  unfold Syntax.charSequence_
  rw [h1]
  exact sequence_accepted (d := newSequence ..) rfl h2 hc (h4.trans hl) (fun h => h3.trans (hr h))

theorem call_accepted {s : Syntax} {c : Call} (hv : isValidSymbol c.name = true) (hi : s.initialized = false)
    (hc : c.commit.incompatible = false) (hl : s.registry.lookup c.name = none)
    (hl' : ∀ j, s.registry.lookup (childName c.name j) = none)
    (hr : c.commit.root = true → s.explicitRoot = false) : ∃ s', s.call c = (s', none) := by
  cases c with
  | anyChar n ct =>
    simp only [Syntax.call, Syntax.AnyChar]
    simp only [Call.name, Call.commit] at *
    rw [if_neg (by simp [hv])]
    exact class_accepted hi hc hl (hl' 0) hr
  | class_ n ct neg cs rs =>
    simp only [Syntax.call, Syntax.Class]
    simp only [Call.name, Call.commit] at *
    rw [if_neg (by simp [hv])]
    exact class_accepted hi hc hl (hl' 0) hr
  | charSequence n ct cs =>
    simp only [Syntax.call, Syntax.CharSequence]
    simp only [Call.name, Call.commit] at *
    rw [if_neg (by simp [hv])]
    exact charSequence_accepted hi hc hl hl' hr
  | sequence n ct items =>
    simp only [Syntax.call, Syntax.Sequence]
    simp only [Call.name, Call.commit] at *
    rw [if_neg (by simp [hv])]
    exact sequence_accepted (d := newSequence ..) rfl hi hc hl hr
  | choice n ct os =>
    simp only [Syntax.call, Syntax.Choice]
    simp only [Call.name, Call.commit] at *
    rw [if_neg (by simp [hv])]
    exact sequence_accepted (d := newChoice ..) rfl hi hc hl hr

/-- The registered names of successful calls. -/
theorem Called.names {cs : List Call} {s : Syntax} (h0 : Syntax.calls {} cs = some s) {n m : Name} (hn : NoColon n)
    (hm : m = n ∨ ∃ j, m = childName n j) (hc : ∀ c ∈ cs, c.name ≠ n) : s.registry.lookup m = none := by
  have h := calls_made h0
  have hs := (made_called h).built.inv
  cases hl : s.registry.lookup m with
  | none => rfl
  | some p =>
    obtain ⟨hp, d, hd, hdn⟩ := (hs.lookup m p).1 hl
    obtain ⟨d', k1, k2⟩ := hs.has hp
    rw [hd] at k1
    obtain rfl := Option.some.inj k1
    obtain ⟨e, e1, -, c, hcm, hraw⟩ := k2.raw h
    rw [hd] at e1
    obtain rfl := Option.some.inj e1
    have hv := valid_noColon (calls_valid .empty h0 c hcm)
    have hne := hc c hcm
    have hen : d.plain.name = m := by rw [plain_name]; exact hdn
    rcases raw_cases hraw with ⟨i, neg, chars, ranges, h2⟩ | ⟨h2, -⟩
    · rw [h2] at hen
      change childName c.name i = m at hen
      subst hen
      rcases hm with hm | ⟨j, hm⟩
      · exact absurd hm.symm (noColon_ne hn)
      · exact absurd (split_colon hv hn hm).1 hne
    · rw [h2] at hen
      subst hen
      rcases hm with hm | ⟨j, hm⟩
      · exact absurd hm hne
      · exact absurd hm (noColon_ne hv)

/-- Calls and what they need. -/
theorem call_iff {cs : List Call} {s : Syntax} (h0 : Syntax.calls {} cs = some s) (c : Call) :
    (∃ s', s.call c = (s', none)) ↔ Acceptable cs c := by
  have h := calls_made h0
  have C := made_called h
  constructor
  · rintro ⟨s', hc⟩
    obtain ⟨hv, hn⟩ := call_needs hc
    refine ⟨(valid_iff _).1 hv, (compatible_iff _).1 hn.flags, ?_, ?_⟩
    · intro c' hc' he
      obtain ⟨q, e, k1, k2⟩ := call_has h hc'
      have := C.built.inv.has_lookup k1
      rw [k2, he, hn.fresh] at this
      cases this
    · intro hr c' hc'
      have := hn.root hr
      rw [C.explicitRoot, List.any_eq_false] at this
      simpa using this c' hc'
  · intro ha
    have hv := (valid_iff _).2 ha.name
    have hnc := valid_noColon hv
    refine call_accepted hv C.built.inv.initialized ((compatible_iff _).2 ha.flags)
      (Called.names h0 hnc (Or.inl rfl) ha.fresh) (fun j => Called.names h0 hnc (Or.inr ⟨j, rfl⟩) ha.fresh) ?_
    intro hr
    rw [C.explicitRoot, List.any_eq_false]
    intro c' hc'
    simp [ha.root hr c' hc']

theorem calls_iff (cs : List Call) : (∃ s, Syntax.calls {} cs = some s) ↔
    ∀ pre c post, cs = pre ++ c :: post → Acceptable pre c := by
  constructor
  · rintro ⟨s, h⟩ pre c post rfl
    rw [Syntax.calls_append] at h
    obtain ⟨s1, h1, h⟩ := Option.bind_eq_some_iff.1 h
    simp only [Syntax.calls] at h
    split at h
    · rename_i s2 hc
      exact (call_iff h1 c).1 ⟨s2, hc⟩
    · cases h
  · have key : ∀ (post pre : List Call), cs = pre ++ post → (∃ s, Syntax.calls {} pre = some s) →
        (∀ pre c post, cs = pre ++ c :: post → Acceptable pre c) → ∃ s, Syntax.calls {} cs = some s := by
      intro post
      induction post with
      | nil => intro pre he hs _; rw [he, List.append_nil]; exact hs
      | cons c post ih =>
        rintro pre he ⟨s, hs⟩ ha
        obtain ⟨s', hc⟩ := (call_iff hs c).2 (ha pre c post he)
        refine ih (pre ++ [c]) (by simp [he]) ⟨s', ?_⟩ ha
        rw [Syntax.calls_append, hs]
        simp [Syntax.calls, hc]
    intro ha
    exact key cs [] rfl ⟨{}, rfl⟩ ha

/-- The names are different. -/
theorem calls_distinct {cs : List Call} {s : Syntax} (h : Made cs s) {c c' : Call} (hc : c ∈ cs)
    (hc' : c' ∈ cs) (hn : c.name = c'.name) : c = c' := by
  have fresh : ∀ {cs : List Call} {s : Syntax}, Made cs s → ∀ {c : Call}, s.registry.lookup c.name = none →
      ∀ c' ∈ cs, c'.name ≠ c.name := by
    intro cs s h c hl c' hc' he
    obtain ⟨q, e, k1, k2⟩ := call_has h hc'
    have := (made_called h).built.inv.has_lookup k1
    rw [k2, he, hl] at this
    cases this
  have step : ∀ {cs : List Call} {x : Call}, (∀ c' ∈ cs, c'.name ≠ x.name) →
      (∀ {c c' : Call}, c ∈ cs → c' ∈ cs → c.name = c'.name → c = c') →
      ∀ {c c' : Call}, c ∈ cs ++ [x] → c' ∈ cs ++ [x] → c.name = c'.name → c = c' := by
    intro cs x hx ih c c' hc hc' hn
    rcases List.mem_append.1 hc with h1 | h1 <;> rcases List.mem_append.1 hc' with h2 | h2
    · exact ih h1 h2 hn
    · rw [List.mem_singleton] at h2; subst h2
      exact absurd hn (hx c h1)
    · rw [List.mem_singleton] at h1; subst h1
      exact absurd hn.symm (hx c' h2)
    · rw [List.mem_singleton] at h1 h2; rw [h1, h2]
  induction h generalizing c c' with
  | empty => cases hc
  | call h hcall ih => exact step (fresh h (call_needs hcall).2.fresh) (fun a b e => ih a b e) hc hc' hn
  | document h hcall ih => exact step (fresh h (internalCall_needs hcall).fresh) (fun a b e => ih a b e) hc hc' hn

/-! ### Initialization and the references -/

theorem gdef_refs (d : Def) : d.gdef.refs = d.kind.refs := by
  unfold GDef.refs Def.gdef DKind.refs
  cases d.kind <;> simp [Function.comp_def]

theorem raw_flags {c : Call} {r : Def} (hr : r ∈ c.raw) (hk : r.kind.isChar = false) :
    r.commitType = c.flags ∨ r.commitType = { c.flags with noWhitespace := true } := by
  cases c with
  | anyChar n ct =>
    simp only [Call.raw, List.mem_cons, List.not_mem_nil, or_false] at hr
    rcases hr with rfl | rfl
    · cases hk
    · exact Or.inl rfl
  | class_ n ct neg cs rs =>
    simp only [Call.raw, List.mem_cons, List.not_mem_nil, or_false] at hr
    rcases hr with rfl | rfl
    · cases hk
    · exact Or.inl rfl
  | charSequence n ct cs =>
    simp only [Call.raw, List.mem_append, List.mem_map, List.mem_cons, List.not_mem_nil, or_false] at hr
    rcases hr with ⟨x, -, rfl⟩ | rfl
    · cases hk
    · exact Or.inr rfl
  | sequence n ct items =>
    simp only [Call.raw, List.mem_cons, List.not_mem_nil, or_false] at hr
    subst hr; exact Or.inl rfl
  | choice n ct os =>
    simp only [Call.raw, List.mem_cons, List.not_mem_nil, or_false] at hr
    subst hr; exact Or.inl rfl

section

variable {cs : List Call} {s : Syntax}

/-- The root and the keywords. -/
def PStart (cs : List Call) (n : Name) : Prop :=
  rootOf cs = some n ∨ ∃ c ∈ cs, c.commit.keyword = true ∧ c.name = n

def PNeeded (cs : List Call) (n : Name) : Prop := ∃ a, PStart cs a ∧ Refers (grammarOf cs) a n

theorem start_keyword (h : Made cs s) {k : Ptr} (hk : k ∈ s.keywords) :
    ∃ d, s.Has k d ∧ PStart cs d.name := by
  have hs := (made_called h).built.inv
  obtain ⟨h1, d, h2, h3, h4⟩ := (hs.keywords k).1 hk
  obtain ⟨d', k1, k2⟩ := hs.has h1
  rw [h2] at k1
  obtain rfl := Option.some.inj k1
  refine ⟨_, k2, ?_⟩
  obtain ⟨e, e1, -, c, hcm, hraw⟩ := k2.raw h
  rw [h2] at e1
  obtain rfl := Option.some.inj e1
  rw [initRanges_name]
  right
  rcases raw_cases hraw with ⟨i, neg, chars, ranges, g⟩ | ⟨g1, -, g2, -⟩
  · have : d.plain.kind.isChar = true := by rw [g]; rfl
    rw [plain_kind, h3] at this; cases this
  · refine ⟨c, hcm, ?_, by rw [← g1, plain_name]⟩
    rw [← g2, plain_commitType, commitType_notChar h3]
    exact h4

theorem keyword_start (h : Made cs s) {c : Call} (hc : c ∈ cs) (hk : c.commit.keyword = true) :
    ∃ k d, k ∈ s.keywords ∧ s.Has k d ∧ d.name = c.name := by
  have hs := (made_called h).built.inv
  obtain ⟨r, hr, h1, h2, -⟩ := call_main c
  obtain ⟨p, e, k1, k2, k3⟩ := raw_has h hc hr
  refine ⟨p, _, (hs.keywords p).2 ⟨k2.1, e, k1, ?_, ?_⟩, k2, by rw [initRanges_name, ← plain_name, k3, h1]⟩
  · rw [← plain_kind, k3, h2]
  · rcases raw_cases hr with ⟨i, neg, chars, ranges, g⟩ | ⟨-, -, g2, -⟩
    · rw [g] at h2; cases h2
    · rw [← k3, plain_commitType, commitType_notChar (by rw [← plain_kind, k3, h2])] at g2
      exact g2.trans hk

theorem root_start (h : Made cs s) {root : Ptr} (hr : s.root = some root) :
    ∃ d, s.Has root d ∧ rootOf cs = some d.name := by
  have C := made_called h
  obtain ⟨d, h1, h2⟩ := C.built.inv.has_root hr
  refine ⟨d, h1, ?_⟩
  have hne : cs ≠ [] := by
    cases h with
    | empty => cases hr
    | call => simp
    | document => simp
  obtain ⟨n, hn⟩ := rootOf_some hne
  rw [hn, h2, C.root n hn]

/-- The prepared syntax, without whitespace. -/
def Syntax.pre (s : Syntax) : Syntax := { s with heap := s.preHeap }

theorem reach_needed (h : Made cs s) {a p : Ptr} (hr : RefReach s.registry s.preHeap a p) :
    ∀ {d}, s.Has a d → PNeeded cs d.name → ∃ e, s.Has p e ∧ PNeeded cs e.name := by
  have C := made_called h
  have hs := C.built.inv
  induction hr with
  | refl => exact fun {d} h1 h2 => ⟨d, h1, h2⟩
  | @step a q p d n h1 h2 h3 _ ih =>
    rintro d' hd' ⟨b, hb, hr⟩
    obtain rfl := Option.some.inj (h1.symm.trans hd'.2)
    obtain ⟨k1, e, k2, rfl⟩ := (hs.lookup n q).1 h3
    obtain ⟨e', k3, k4⟩ := hs.has k1
    obtain rfl := Option.some.inj (k2.symm.trans k3)
    refine ih k4 ⟨b, hb, ?_⟩
    rw [initRanges_name]
    refine .step hr (by rw [← C.grammar]; exact hs.has_grammar hd') ?_
    rw [gdef_refs]; exact h2

theorem used_needed (h : Made cs s) {root p : Ptr} (hroot : s.root = some root)
    (hu : Used s.pre root p) : ∃ e, s.Has p e ∧ PNeeded cs e.name := by
  obtain ⟨a, ha, hr⟩ := hu
  rcases ha with ha | rfl
  · obtain ⟨d, h1, h2⟩ := start_keyword h ha
    exact reach_needed h hr h1 ⟨_, h2, .refl⟩
  · obtain ⟨d, h1, h2⟩ := root_start h hroot
    exact reach_needed h hr h1 ⟨_, Or.inl h2, .refl⟩

theorem needed_used (h : Made cs s) {root : Ptr} (hroot : s.root = some root)
    (hdef : ∀ p d n, Used s.pre root p → s.preHeap[p]? = some d → n ∈ d.kind.refs → ∃ q, s.registry.lookup n = some q)
    {n : Name} (hn : PNeeded cs n) : ∃ p, s.registry.lookup n = some p ∧ Used s.pre root p := by
  have C := made_called h
  have hs := C.built.inv
  obtain ⟨a, ha, hr⟩ := hn
  induction hr with
  | refl =>
    rcases ha with ha | ⟨c, hc, hk, rfl⟩
    · obtain ⟨d, h1, h2⟩ := root_start h hroot
      rw [ha] at h2
      obtain rfl := Option.some.inj h2
      exact ⟨root, hs.has_lookup h1, root, Or.inr rfl, .refl⟩
    · obtain ⟨k, d, h1, h2, h3⟩ := keyword_start h hc hk
      exact ⟨k, h3 ▸ hs.has_lookup h2, k, Or.inl h1, .refl⟩
  | @step b gd m _ hg hm ih =>
    obtain ⟨p, h1, h2⟩ := ih
    obtain ⟨k1, e, k2, rfl⟩ := (hs.lookup _ p).1 h1
    obtain ⟨e', k3, k4⟩ := hs.has k1
    obtain rfl := Option.some.inj (k2.symm.trans k3)
    have hgr := hs.has_grammar k4
    rw [C.grammar, initRanges_name, hg] at hgr
    obtain rfl := Option.some.inj hgr
    rw [gdef_refs] at hm
    obtain ⟨q, hq⟩ := hdef p _ m h2 k4.2 hm
    obtain ⟨a', ha', hra⟩ := h2
    exact ⟨q, hq, a', ha', hra.snoc k4.2 hm hq⟩

theorem grammar_lookup (h : Made cs s) (n : Name) :
    grammarOf cs n = none ↔ s.registry.lookup n = none := by
  have C := made_called h
  have hs := C.built.inv
  rw [← C.grammar]
  unfold Syntax.grammar
  cases hl : s.registry.lookup n with
  | none => simp
  | some p =>
    obtain ⟨-, e, k2, -⟩ := (hs.lookup _ p).1 hl
    simp [k2]

/-- The flags of the root definition. -/
theorem root_flags (h : Made cs s) {root : Ptr} {d : Def} (hroot : s.root = some root)
    (hd : s.heap[root]? = some d) : d.commitType.incompatible = false ↔ RootCompatible cs := by
  have C := made_called h
  have hs := C.built.inv
  have hin := hs.rootIn root hroot
  obtain ⟨d', k1, k2⟩ := hs.has hin
  obtain rfl := Option.some.inj (hd.symm.trans k1)
  have hk := C.rootNotChar root d hroot hd
  obtain ⟨e, e1, -, c, hc, hraw⟩ := k2.raw h
  obtain rfl := Option.some.inj (hd.symm.trans e1)
  have hrk : d.plain.kind.isChar = false := by rw [plain_kind]; exact hk
  have hrf := (hs.rootFlag root d hin hd hk).2 hroot
  have hct := commitType_notChar hk
  have hcn : d.name = c.name := by
    rcases raw_cases hraw with ⟨i, neg, chars, ranges, g⟩ | ⟨g1, -⟩
    · rw [g] at hrk; cases hrk
    · rw [← g1, plain_name]
  have hinc : d.commitType.incompatible = Commit.incompatible { c.commit with root := true } := by
    have h1 : d.commitType.incompatible = Commit.incompatible { d.plain.commitType with root := true } := by
      rw [plain_commitType, hct]
      unfold Commit.incompatible
      simp only [hrf]
    rw [h1]
    rcases raw_flags hraw hrk with g | g <;> rw [g] <;> rfl
  rw [hinc, compatible_iff]
  have hro : rootOf cs = some c.name := by
    obtain ⟨d2, g1, g2⟩ := root_start h hroot
    obtain rfl := Option.some.inj (k2.2.symm.trans g1.2)
    rw [g2, initRanges_name, hcn]
  constructor
  · intro hcomp c' hc' hr'
    rw [hro] at hr'
    obtain rfl := calls_distinct h hc hc' (Option.some.inj hr')
    exact hcomp
  · intro hR
    exact hR c hc hro

/-- `Init` without whitespace definitions. -/
theorem Init_refs (h : Made cs s) (hne : cs ≠ []) (hw : ∀ c ∈ cs, c.commit.whitespace = false)
    (hR : RootCompatible cs) :
    ∃ s' e, s.Init = .ok (s', e) ∧ (e = none ↔ ∀ n, PNeeded cs n → grammarOf cs n ≠ none) ∧
      ∀ x, e = some x → ∃ n, PNeeded cs n ∧ grammarOf cs n = none ∧ x = .parserNotFound n := by
  have C := made_called h
  have hs := C.built.inv
  have hnw : ¬ s.HasWhitespace := by
    rw [C.whitespace]
    rintro ⟨c, hc, hcw⟩
    rw [hw c hc] at hcw; cases hcw
  obtain ⟨root, hroot⟩ := Option.ne_none_iff_exists'.1 (C.rootSome hne)
  obtain ⟨d, hd⟩ : ∃ d, s.heap[root]? = some d := ⟨_, List.getElem?_eq_getElem (hs.root_lt root hroot)⟩
  have hinc := (root_flags h hroot hd).2 hR
  have hfin := finishInit_spec (s := s.pre) (Built.prepBase_noWs hs hroot)
  have hI : s.Init = s.pre.finishInit root := by
    rw [Syntax.Init_eq, if_neg (by simp [hs.initFailed]), if_neg (by simp [hs.initialized]), hroot]
    simp only [hd]
    rw [if_neg (by simp [hinc]), prepare_noWs hs hnw]
    rfl
  rw [← hI] at hfin
  generalize s.Init = x at hfin
  cases x with
  | panic => exact hfin.elim
  | oof => exact hfin.elim
  | ok x =>
    obtain ⟨s', e⟩ := x
    refine ⟨s', e, rfl, ?_⟩
    cases e with
    | none =>
      have hok : InitOK s.pre root s' := hfin
      simp only [true_iff, reduceCtorEq, false_implies, implies_true, and_true]
      intro n hn
      obtain ⟨p, h1, -⟩ := needed_used h hroot hok.defined hn
      rw [Ne, grammar_lookup h, h1]
      simp
    | some x =>
      obtain ⟨p, d, n, h1, h2, h3, h4, h5⟩ := hfin
      obtain ⟨e, k1, b, hb, hr⟩ := used_needed h hroot h1
      obtain rfl := Option.some.inj (h2.symm.trans k1.2)
      have hneed : PNeeded cs n := by
        refine ⟨b, hb, .step hr (by rw [← C.grammar]; exact hs.has_grammar k1) ?_⟩
        rw [gdef_refs]; exact h3
      have hnone := (grammar_lookup h n).2 h4
      refine ⟨⟨fun h => (by cases h), fun hall => absurd hnone (hall n hneed)⟩, ?_⟩
      intro y hy
      cases hy
      exact ⟨n, hneed, hnone, h5⟩

theorem Init_incompatible (h : Made cs s) (hne : cs ≠ []) (hR : ¬ RootCompatible cs) :
    ∃ n, rootOf cs = some n ∧ s.Init = .ok (s, some (.incompatibleCommit n)) := by
  have C := made_called h
  have hs := C.built.inv
  obtain ⟨root, hroot⟩ := Option.ne_none_iff_exists'.1 (C.rootSome hne)
  obtain ⟨d, hd⟩ : ∃ d, s.heap[root]? = some d := ⟨_, List.getElem?_eq_getElem (hs.root_lt root hroot)⟩
  have hinc : d.commitType.incompatible = true := by
    cases hi : d.commitType.incompatible with
    | true => rfl
    | false => exact absurd ((root_flags h hroot hd).1 hi) hR
  obtain ⟨d', k1, k2⟩ := root_start h hroot
  obtain ⟨e, e1, rfl⟩ := hs.has_heap k1
  obtain rfl := Option.some.inj (hd.symm.trans e1)
  rw [initRanges_name] at k2
  refine ⟨d.name, k2, ?_⟩
  rw [Syntax.Init_eq, if_neg (by simp [hs.initFailed]), if_neg (by simp [hs.initialized]), hroot]
  simp only [hd]
  rw [if_pos hinc]

end

end Treerack
