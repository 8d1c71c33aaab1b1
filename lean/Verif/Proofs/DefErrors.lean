import Verif.Model.DefErrors
import Verif.Spec.DefErrors
import Verif.Proofs.Definitions

/-
The texts of the errors of definitions.
-/

namespace Treerack
open Spec

/-! ### The table of commit types -/

theorem checkExcluded_some {b g : Nat} : ∀ {l : List Nat}, checkExcluded b l = some g → g ∈ l ∧ b &&& g ≠ 0
  | [], h => by cases h
  | x :: l, h => by
    unfold checkExcluded at h
    split at h
    · obtain ⟨h1, h2⟩ := checkExcluded_some h
      exact ⟨List.mem_cons_of_mem _ h1, h2⟩
    · rename_i hx
      cases h
      exact ⟨List.mem_cons_self .., hx⟩

theorem checkExcluded_none {b : Nat} : ∀ {l : List Nat}, checkExcluded b l = none → ∀ g ∈ l, b &&& g = 0
  | [], _, g, hg => by cases hg
  | x :: l, h, g, hg => by
    unfold checkExcluded at h
    split at h
    · rename_i hx
      rcases List.mem_cons.1 hg with rfl | hg
      · exact hx
      · exact checkExcluded_none h g hg
    · cases h

theorem checkCommitType_some {n : Name} {b : Nat} {t : List Rune} : ∀ {l : List (Nat × List Nat)}, checkCommitType n b l = some t →
    ∃ x ∈ l, ∃ g ∈ x.2, b &&& x.1 ≠ 0 ∧ b &&& g ≠ 0 ∧ t = clashText n (commitTypeString x.1) (commitTypeString g)
  | [], h => by cases h
  | (f, gs) :: l, h => by
    unfold checkCommitType at h
    split at h
    · obtain ⟨x, h1, h2⟩ := checkCommitType_some h
      exact ⟨x, List.mem_cons_of_mem _ h1, h2⟩
    · rename_i hf
      split at h
      · rename_i g hg
        obtain ⟨h1, h2⟩ := checkExcluded_some hg
        cases h
        exact ⟨(f, gs), List.mem_cons_self .., g, h1, hf, h2, rfl⟩
      · obtain ⟨x, h1, h2⟩ := checkCommitType_some h
        exact ⟨x, List.mem_cons_of_mem _ h1, h2⟩

theorem checkCommitType_none {n : Name} {b : Nat} : ∀ {l : List (Nat × List Nat)}, checkCommitType n b l = none →
    ∀ x ∈ l, ∀ g ∈ x.2, b &&& x.1 = 0 ∨ b &&& g = 0
  | [], _, x, hx => by cases hx
  | (f, gs) :: l, h, x, hx => by
    unfold checkCommitType at h
    split at h
    · rename_i hf
      rcases List.mem_cons.1 hx with rfl | hx
      · exact fun _ _ => .inl hf
      · exact checkCommitType_none h x hx
    · split at h
      · cases h
      · rename_i hg
        rcases List.mem_cons.1 hx with rfl | hx
        · exact fun g hm => .inr (checkExcluded_none hg g hm)
        · exact checkCommitType_none h x hx

section
variable (ct : Commit)

theorem bits_alias : ct.bits &&& aliasBits = 0 ↔ ct.alias = false := by
  rcases ct with ⟨_ | _, _ | _, _ | _, _ | _, _ | _, _ | _, _ | _, _ | _⟩ <;> decide
theorem bits_whitespace : ct.bits &&& whitespaceBits = 0 ↔ ct.whitespace = false := by
  rcases ct with ⟨_ | _, _ | _, _ | _, _ | _, _ | _, _ | _, _ | _, _ | _⟩ <;> decide
theorem bits_keyword : ct.bits &&& keywordBits = 0 ↔ ct.keyword = false := by
  rcases ct with ⟨_ | _, _ | _, _ | _, _ | _, _ | _, _ | _, _ | _, _ | _⟩ <;> decide
theorem bits_noKeyword : ct.bits &&& noKeywordBits = 0 ↔ ct.noKeyword = false := by
  rcases ct with ⟨_ | _, _ | _, _ | _, _ | _, _ | _, _ | _, _ | _, _ | _⟩ <;> decide
theorem bits_failPass : ct.bits &&& failPassBits = 0 ↔ ct.failPass = false := by
  rcases ct with ⟨_ | _, _ | _, _ | _, _ | _, _ | _, _ | _, _ | _, _ | _⟩ <;> decide
theorem bits_root : ct.bits &&& rootBits = 0 ↔ ct.root = false := by
  rcases ct with ⟨_ | _, _ | _, _ | _, _ | _, _ | _, _ | _, _ | _, _ | _⟩ <;> decide

end

theorem checkCommitType_clash {n : Name} {ct : Commit} {t : List Rune} {order : List (Nat × List Nat)}
    (ho : order.Perm incompatibleCommitTypes) (h : checkCommitType n ct.bits order = some t) :
    ∃ f g, Clash ct f g ∧ t = clashText n f g := by
  obtain ⟨x, h1, g, h2, h3, h4, rfl⟩ := checkCommitType_some h
  refine ⟨_, _, ?_, rfl⟩
  have h1 := ho.mem_iff.1 h1
  simp only [incompatibleCommitTypes, List.mem_cons, List.not_mem_nil, or_false] at h1
  rcases h1 with rfl | rfl | rfl | rfl <;> simp only [List.mem_cons, List.not_mem_nil, or_false] at h2
  · subst h2
    exact .aliasRoot (by simpa [bits_alias] using h3) (by simpa [bits_root] using h4)
  · rcases h2 with rfl | rfl | rfl | rfl
    · exact .whitespaceKeyword (by simpa [bits_whitespace] using h3) (by simpa [bits_keyword] using h4)
    · exact .whitespaceNoKeyword (by simpa [bits_whitespace] using h3) (by simpa [bits_noKeyword] using h4)
    · exact .whitespaceFailPass (by simpa [bits_whitespace] using h3) (by simpa [bits_failPass] using h4)
    · exact .whitespaceRoot (by simpa [bits_whitespace] using h3) (by simpa [bits_root] using h4)
  · rcases h2 with rfl | rfl
    · exact .keywordNoKeyword (by simpa [bits_keyword] using h3) (by simpa [bits_noKeyword] using h4)
    · exact .keywordRoot (by simpa [bits_keyword] using h3) (by simpa [bits_root] using h4)
  · subst h2
    exact .failPassRoot (by simpa [bits_failPass] using h3) (by simpa [bits_root] using h4)

theorem checkCommitType_compatible {n : Name} {ct : Commit} {order : List (Nat × List Nat)}
    (ho : order.Perm incompatibleCommitTypes) : checkCommitType n ct.bits order = none ↔ ct.incompatible = false := by
  constructor
  · intro h
    have h := fun x hx => checkCommitType_none h x (ho.mem_iff.2 hx)
    simp only [incompatibleCommitTypes, List.mem_cons, List.not_mem_nil, or_false, forall_eq_or_imp, forall_eq, bits_alias,
      bits_whitespace, bits_keyword, bits_noKeyword, bits_failPass, bits_root] at h
    rcases ct with ⟨a, b, c, d, e, f, g, i⟩
    revert h
    cases a <;> cases b <;> cases d <;> cases e <;> cases f <;> cases g <;> simp [Commit.incompatible]
  · intro h
    rcases hx : checkCommitType n ct.bits order with _ | t
    · rfl
    · obtain ⟨f, g, hc, -⟩ := checkCommitType_clash ho hx
      simp only [Commit.incompatible, Bool.or_eq_false_iff, Bool.and_eq_false_iff] at h
      cases hc <;> simp_all

/-! ### Errors of calls -/

theorem register_error {s s' : Syntax} {d : Def} {e : SynErr} (h : s.register d = (s', some e)) :
    s.initialized = true ∧ e = .syntaxInitialized ∨ d.commitType.incompatible = true ∧ e = .incompatibleCommit d.name ∨
    d.commitType.root = true ∧ s.explicitRoot = true ∧ e = .multipleRoots ∨
    s.registry.lookup d.name ≠ none ∧ e = .duplicateDefinition d.name := by
  unfold Syntax.register at h
  cases hi : s.initialized with
  | true =>
    rw [if_pos hi] at h
    cases h
    exact .inl ⟨rfl, rfl⟩
  | false =>
    rw [if_neg (by simp [hi])] at h
    simp only at h
    cases hc : d.commitType.incompatible with
    | true =>
      rw [if_pos hc] at h
      cases h
      exact .inr (.inl ⟨rfl, rfl⟩)
    | false =>
      rw [if_neg (by simp [hc])] at h
      have ha := applyRoot_any (s := { s with heap := s.heap ++ [d] }) (p := s.heap.length) (d := d) (by simp)
      split at ha
      · rename_i hh
        rw [ha] at h
        cases h
        exact .inr (.inr (.inl ⟨hh.1, hh.2, rfl⟩))
      · rename_i hh
        obtain ⟨s1, d1, h1, h2, h3, h4, h5⟩ := ha
        rw [h1] at h
        simp only at hh h2 h5 h
        generalize hs2 : (if (Syntax.commitOf s1.heap s.heap.length).keyword = true then
          { s1 with keywords := s1.keywords ++ [s.heap.length] } else s1) = s2 at h
        have b1 : s2.heap = s1.heap := by rw [← hs2]; split <;> rfl
        have b2 : s2.registry = s.registry := by rw [← hs2, ← h2]; split <;> rfl
        unfold Registry.setDefinition at h
        rw [b1, b2, h3] at h
        simp only [h4] at h
        cases hl : s.registry.lookup d.name with
        | none =>
          rw [hl] at h
          cases h
        | some q =>
          rw [hl] at h
          cases h
          exact .inr (.inr (.inr ⟨by simp, rfl⟩))

/-- The registration of a character. -/
theorem register_char {s s' : Syntax} {n : Name} {neg : Bool} {cs : List Rune} {rs : List (Rune × Rune)} :
    (∀ {e : SynErr}, s.register (newChar n neg cs rs) = (s', some e) → s.initialized = true ∧ e = .syntaxInitialized ∨
      s.registry.lookup n ≠ none ∧ e = .duplicateDefinition n) ∧
    (s.register (newChar n neg cs rs) = (s', none) → s'.initialized = s.initialized ∧ s'.explicitRoot = s.explicitRoot ∧
      ∀ m, m ≠ n → s'.registry.lookup m = s.registry.lookup m) := by
  constructor
  · intro e h
    rcases register_error h with h | ⟨h, -⟩ | ⟨h, -⟩ | h
    · exact .inl h
    · cases h
    · cases h
    · exact .inr h
  · intro h
    obtain ⟨h1, -, h3, h4⟩ := register_effect s (newChar n neg cs rs)
    rw [h] at h1 h3 h4
    refine ⟨h4, by rw [h3 rfl]; simp [newChar, Def.commitType], fun m hm => ?_⟩
    rw [h1, if_neg (fun h => hm h.2)]

theorem Clash.of_eq {ct ct' : Commit} {f g : List Rune} (h : Clash ct f g) (h1 : ct'.alias = ct.alias)
    (h2 : ct'.whitespace = ct.whitespace) (h3 : ct'.keyword = ct.keyword) (h4 : ct'.noKeyword = ct.noKeyword)
    (h5 : ct'.failPass = ct.failPass) (h6 : ct'.root = ct.root) : Clash ct' f g := by
  cases h with
  | aliasRoot a b => exact .aliasRoot (h1.trans a) (h6.trans b)
  | whitespaceKeyword a b => exact .whitespaceKeyword (h2.trans a) (h3.trans b)
  | whitespaceNoKeyword a b => exact .whitespaceNoKeyword (h2.trans a) (h4.trans b)
  | whitespaceFailPass a b => exact .whitespaceFailPass (h2.trans a) (h5.trans b)
  | whitespaceRoot a b => exact .whitespaceRoot (h2.trans a) (h6.trans b)
  | keywordNoKeyword a b => exact .keywordNoKeyword (h3.trans a) (h4.trans b)
  | keywordRoot a b => exact .keywordRoot (h3.trans a) (h6.trans b)
  | failPassRoot a b => exact .failPassRoot (h5.trans a) (h6.trans b)

/-- What the errors of a call can be. -/
inductive CallError (s : Syntax) (c : Call) : SynErr → Prop
  | initialized : s.initialized = true → CallError s c .syntaxInitialized
  | name : ¬ ValidName c.name → CallError s c .invalidSymbolName
  | flags : c.commit.incompatible = true → CallError s c (.incompatibleCommit c.name)
  | roots : c.commit.root = true → s.explicitRoot = true → CallError s c .multipleRoots
  | duplicate {n : Name} : n ∈ c.names → s.registry.lookup n ≠ none → CallError s c (.duplicateDefinition n)

theorem register_callError {s s0 s' : Syntax} {c : Call} {d : Def} {e : SynErr} (h : s.register d = (s', some e))
    (hi : s.initialized = s0.initialized) (hx : s.explicitRoot = s0.explicitRoot) (hl : s.registry.lookup c.name = s0.registry.lookup c.name)
    (hn : d.name = c.name) (hf : d.commitType.incompatible = c.commit.incompatible) (hr : d.commitType.root = c.commit.root)
    (hm : c.name ∈ c.names) : CallError s0 c e := by
  rcases register_error h with ⟨h1, rfl⟩ | ⟨h1, rfl⟩ | ⟨h1, h2, rfl⟩ | ⟨h1, rfl⟩
  · exact .initialized (hi ▸ h1)
  · rw [hn]; exact .flags (hf ▸ h1)
  · exact .roots (hr ▸ h1) (hx ▸ h2)
  · rw [hn] at h1 ⊢
    exact .duplicate hm (hl ▸ h1)

theorem class_callError {s s' : Syntax} {c : Call} {ct : Commit} {neg : Bool} {cs : List Rune} {rs : List (Rune × Rune)} {e : SynErr}
    (h : s.class_ c.name ct neg cs rs = (s', some e)) (hf : ct.incompatible = c.commit.incompatible) (hr : ct.root = c.commit.root)
    (hm : c.name ∈ c.names) (hm' : childName c.name 0 ∈ c.names) : CallError s c e := by
  unfold Syntax.class_ at h
  simp only at h
  generalize hx : s.register (newChar (childName c.name 0) neg cs rs) = x at h
  obtain ⟨s1, e1⟩ := x
  cases e1 with
  | some e1 =>
    cases h
    rcases register_char.1 hx with ⟨h1, rfl⟩ | ⟨h1, rfl⟩
    · exact .initialized h1
    · exact .duplicate hm' h1
  | none =>
    obtain ⟨h1, h2, h3⟩ := register_char.2 hx
    exact register_callError (d := newSequence ..) h h1 h2 (h3 _ (childName_ne _ _).symm) rfl hf hr hm

theorem charSequenceLoop_error {n : Name} : ∀ (cs : List Rune) (i : Nat) (refs : List Name) (s : Syntax) {s' : Syntax} {refs' : List Name},
    (∀ {e : SynErr}, Syntax.charSequenceLoop n i cs refs s = (s', some e, refs') → s.initialized = true ∧ e = .syntaxInitialized ∨
      ∃ j, i ≤ j ∧ j < i + cs.length ∧ s.registry.lookup (childName n j) ≠ none ∧ e = .duplicateDefinition (childName n j)) ∧
    (Syntax.charSequenceLoop n i cs refs s = (s', none, refs') → s'.initialized = s.initialized ∧ s'.explicitRoot = s.explicitRoot ∧
      s'.registry.lookup n = s.registry.lookup n)
  | [], i, refs, s, s', refs' => by
    constructor
    · intro e h
      cases h
    · intro h
      cases h
      exact ⟨rfl, rfl, rfl⟩
  | c :: cs, i, refs, s, s', refs' => by
    simp only [Syntax.charSequenceLoop]
    generalize hx : s.register (newChar (childName n i) false [c] []) = x
    obtain ⟨s1, e1⟩ := x
    cases e1 with
    | some e1 =>
      constructor
      · intro e h
        cases h
        rcases register_char.1 hx with h1 | ⟨h1, rfl⟩
        · exact .inl h1
        · exact .inr ⟨i, Nat.le_refl i, by simp, h1, rfl⟩
      · intro h
        cases h
    | none =>
      obtain ⟨h1, h2, h3⟩ := register_char.2 hx
      obtain ⟨k1, k2⟩ := charSequenceLoop_error (n := n) cs (i + 1) (refs ++ [childName n i]) s1 (s' := s') (refs' := refs')
      constructor
      · intro e h
        rcases k1 h with ⟨g1, g2⟩ | ⟨j, g1, g2, g3, g4⟩
        · exact .inl ⟨h1 ▸ g1, g2⟩
        · refine .inr ⟨j, by omega, by simp; omega, ?_, g4⟩
          rwa [h3 _ (fun h => by have := childName_inj h; omega)] at g3
      · intro h
        obtain ⟨g1, g2, g3⟩ := k2 h
        exact ⟨g1.trans h1, g2.trans h2, g3.trans (h3 _ (childName_ne _ _).symm)⟩

theorem call_error {s s' : Syntax} {c : Call} {e : SynErr} (h : s.call c = (s', some e)) : CallError s c e := by
  cases c with
  | anyChar n ct =>
    simp only [Syntax.call, Syntax.AnyChar] at h
    split at h
    · rename_i hv
      cases h
      exact .name fun hn => by simp [(valid_iff n).2 hn] at hv
    · exact class_callError (c := .anyChar n ct) h rfl rfl (by simp [Call.names, Call.defs, Call.name])
        (by simp [Call.names, Call.defs, Call.name, charDef, charName_eq])
  | class_ n ct neg cs rs =>
    simp only [Syntax.call, Syntax.Class] at h
    split at h
    · rename_i hv
      cases h
      exact .name fun hn => by simp [(valid_iff n).2 hn] at hv
    · exact class_callError (c := .class_ n ct neg cs rs) h rfl rfl (by simp [Call.names, Call.defs, Call.name])
        (by simp [Call.names, Call.defs, Call.name, charDef, charName_eq])
  | charSequence n ct cs =>
    simp only [Syntax.call, Syntax.CharSequence] at h
    split at h
    · rename_i hv
      cases h
      exact .name fun hn => by simp [(valid_iff n).2 hn] at hv
    · unfold Syntax.charSequence_ at h
      generalize hx : Syntax.charSequenceLoop n 0 cs [] s = x at h
      obtain ⟨s1, e1, refs⟩ := x
      cases e1 with
      | some e1 =>
        cases h
        rcases (charSequenceLoop_error cs 0 [] s).1 hx with ⟨h1, rfl⟩ | ⟨j, -, h1, h2, rfl⟩
        · exact .initialized h1
        · refine .duplicate ?_ h2
          have hj : j < cs.length := by omega
          simp only [Call.names, Call.defs, List.map_append, List.map_map, List.mem_append, List.mem_map]
          refine .inl ⟨(cs[j], j), ?_, by simp [charDef, charName_eq]⟩
          rw [List.mem_zipIdx_iff_getElem?]
          simp [hj]
      | none =>
        obtain ⟨h1, h2, h3⟩ := (charSequenceLoop_error cs 0 [] s).2 hx
        exact register_callError (c := .charSequence n ct cs) (d := newSequence ..) h h1 h2 h3 rfl rfl rfl
          (by simp [Call.names, Call.defs, Call.name])
  | sequence n ct items =>
    simp only [Syntax.call, Syntax.Sequence] at h
    split at h
    · rename_i hv
      cases h
      exact .name fun hn => by simp [(valid_iff n).2 hn] at hv
    · exact register_callError (c := .sequence n ct items) (d := newSequence ..) h rfl rfl rfl rfl rfl rfl
        (by simp [Call.names, Call.defs, Call.name])
  | choice n ct os =>
    simp only [Syntax.call, Syntax.Choice] at h
    split at h
    · rename_i hv
      cases h
      exact .name fun hn => by simp [(valid_iff n).2 hn] at hv
    · exact register_callError (c := .choice n ct os) (d := newChoice ..) h rfl rfl rfl rfl rfl rfl
        (by simp [Call.names, Call.defs, Call.name])

/-! ### Errors of the initialization -/

theorem validateRefs_error {rec : Ptr → Heap → Res (Heap × Option SynErr)} {r : Registry}
    (hrec : ∀ p h h' e, rec p h = .ok (h', some e) → ∃ n, r.lookup n = none ∧ e = .parserNotFound n) :
    ∀ (ns : List Name) {h h' : Heap} {e : SynErr}, validateRefs rec r ns h = .ok (h', some e) →
      ∃ n, r.lookup n = none ∧ e = .parserNotFound n
  | [], _, _, _, hx => by cases hx
  | n :: ns, h, h', e, hx => by
    unfold validateRefs at hx
    split at hx
    · cases hx
      exact ⟨n, by assumption, rfl⟩
    · obtain ⟨⟨h1, e1⟩, hy, hx⟩ := Res.bind_eq_ok hx
      cases e1 with
      | some e1 =>
        cases hx
        exact hrec _ _ _ _ hy
      | none => exact validateRefs_error hrec ns hx

theorem validate_error {r : Registry} : ∀ (k : Nat) (p : Ptr) (h h' : Heap) (e : SynErr), validate r k p h = .ok (h', some e) →
    ∃ n, r.lookup n = none ∧ e = .parserNotFound n
  | 0, _, _, _, _, hx => by cases hx
  | k + 1, p, h, h', e, hx => by
    unfold validate at hx
    split at hx
    · cases hx
    · simp only at hx
      split at hx
      · cases hx
      · split at hx
        · cases hx
        · exact validateRefs_error (validate_error k) _ hx
      · split at hx
        · cases hx
        · exact validateRefs_error (validate_error k) _ hx

theorem validateAll_error {r : Registry} {k : Nat} : ∀ (ps : List Ptr) {h h' : Heap} {e : SynErr},
    Syntax.validateAll r k ps h = .ok (h', some e) → ∃ n, r.lookup n = none ∧ e = .parserNotFound n
  | [], _, _, _, hx => by cases hx
  | p :: ps, h, h', e, hx => by
    unfold Syntax.validateAll at hx
    obtain ⟨⟨h1, e1⟩, hy, hx⟩ := Res.bind_eq_ok hx
    cases e1 with
    | some e1 =>
      cases hx
      exact validate_error _ _ _ _ _ hy
    | none => exact validateAll_error ps hx

theorem finishInit_notFound {s s' : Syntax} {root : Ptr} {e : SynErr} (h : s.finishInit root = .ok (s', some e)) :
    ∃ n, s'.registry.lookup n = none ∧ e = .parserNotFound n := by
  unfold Syntax.finishInit at h
  simp only at h
  obtain ⟨⟨h1, e1⟩, hy, h⟩ := Res.bind_eq_ok h
  cases e1 with
  | some e1 =>
    cases h
    exact validateAll_error _ hy
  | none =>
    simp only at h
    obtain ⟨h2, -, h⟩ := Res.bind_eq_ok h
    simp at h

end Treerack
