import Verif.Model.Syntax
import Verif.Proofs.Spec

/-
Validation visits everything that can be reached through references, and always returns.
-/

namespace Treerack

/-- The names referenced by a definition. -/
def DKind.refs : DKind → List Name
  | .char _ _ _ => []
  | .choice os _ => os
  | .seq _ items _ _ _ => items.map SeqItem.name

def DKind.isChar : DKind → Bool
  | .char _ _ _ => true
  | _ => false

theorem Heap.getElem?_update (h : Heap) (p q : Ptr) (f : Def → Def) :
    (h.update p f)[q]? = if p = q then (h[q]?).map f else h[q]? := by
  unfold Heap.update
  rw [List.getElem?_modify]
  split <;> rename_i hh
  · subst hh; rfl
  · cases h[q]? <;> rfl

theorem Heap.getElem?_update_self (h : Heap) (p : Ptr) (f : Def → Def) :
    (h.update p f)[p]? = (h[p]?).map f := by simp [Heap.getElem?_update]

theorem Heap.getElem?_update_ne (h : Heap) {p q : Ptr} (f : Def → Def) (hne : p ≠ q) :
    (h.update p f)[q]? = h[q]? := by simp [Heap.getElem?_update, hne]

theorem Heap.length_update (h : Heap) (p : Ptr) (f : Def → Def) :
    (h.update p f).length = h.length := by simp [Heap.update]

/-- References that can be followed. -/
inductive RefReach (r : Registry) (h : Heap) : Ptr → Ptr → Prop
  | refl {p : Ptr} : RefReach r h p p
  | step {p q t : Ptr} {d : Def} {n : Name} : h[p]? = some d → n ∈ d.kind.refs → r.lookup n = some q →
      RefReach r h q t → RefReach r h p t

theorem RefReach.trans {r : Registry} {h : Heap} {a b c : Ptr} (h1 : RefReach r h a b)
    (h2 : RefReach r h b c) : RefReach r h a c := by
  induction h1 with
  | refl => exact h2
  | step e1 e2 e3 _ ih => exact .step e1 e2 e3 (ih h2)

/-- The heaps only differ in the `validated` flags, which are only ever set. -/
structure VStep (h h' : Heap) : Prop where
  len : h'.length = h.length
  def_ : ∀ (p : Ptr) (d : Def), h[p]? = some d → ∃ b, h'[p]? = some { d with validated := b } ∧
    (d.validated = true → b = true)

theorem VStep.refl (h : Heap) : VStep h h := ⟨rfl, fun _ d hd => ⟨d.validated, hd, id⟩⟩

theorem VStep.trans {a b c : Heap} (h1 : VStep a b) (h2 : VStep b c) : VStep a c := by
  refine ⟨h2.len.trans h1.len, fun p d hd => ?_⟩
  obtain ⟨x, e1, e2⟩ := h1.def_ p d hd
  obtain ⟨y, e3, e4⟩ := h2.def_ p _ e1
  exact ⟨y, e3, fun hv => e4 (e2 hv)⟩

/-- Backwards. -/
theorem VStep.back {h h' : Heap} (s : VStep h h') {p : Ptr} {d' : Def} (hd : h'[p]? = some d') :
    ∃ d b, h[p]? = some d ∧ d' = { d with validated := b } ∧ (d.validated = true → b = true) := by
  have hl : p < h.length := by
    rw [← s.len]
    exact (List.getElem?_eq_some_iff.1 hd).1
  obtain ⟨b, e1, e2⟩ := s.def_ p h[p] (List.getElem?_eq_getElem hl)
  rw [hd] at e1
  cases e1
  exact ⟨_, b, List.getElem?_eq_getElem hl, rfl, e2⟩

/-- Visited by validation. -/
def Vis (h : Heap) (p : Ptr) : Prop := ∃ d, h[p]? = some d ∧ (d.validated = true ∨ d.kind.isChar = true)

theorem VStep.vis {h h' : Heap} (s : VStep h h') {p : Ptr} (hv : Vis h p) : Vis h' p := by
  obtain ⟨d, hd, h1⟩ := hv
  obtain ⟨b, e1, e2⟩ := s.def_ p d hd
  refine ⟨_, e1, ?_⟩
  rcases h1 with h1 | h1
  · exact Or.inl (e2 h1)
  · exact Or.inr h1

/-- All the references of `p` are resolved and visited. -/
def VClosed (r : Registry) (h : Heap) (p : Ptr) : Prop :=
  ∀ d, h[p]? = some d → ∀ n ∈ d.kind.refs, ∃ q, r.lookup n = some q ∧ Vis h q

theorem VClosed.mono {r : Registry} {h h' : Heap} (s : VStep h h') {p : Ptr} (hc : VClosed r h p) :
    VClosed r h' p := by
  intro d' hd' n hn
  obtain ⟨d, b, e1, rfl, -⟩ := s.back hd'
  obtain ⟨q, h1, h2⟩ := hc d e1 n hn
  exact ⟨q, h1, s.vis h2⟩

theorem RefReach.back {r : Registry} {h h' : Heap} (s : VStep h h') {p q : Ptr}
    (hr : RefReach r h' p q) : RefReach r h p q := by
  induction hr with
  | refl => exact .refl
  | step e1 e2 e3 _ ih =>
    obtain ⟨d, b, e1', rfl, -⟩ := s.back e1
    exact .step e1' e2 e3 ih

/-- The number of definitions that are not validated. -/
def unval (h : Heap) : Nat := h.countP fun d => !d.validated

theorem countP_modify_lt {α : Type} (f : α → α) (g : α → Bool) : ∀ (l : List α) (p : Nat) (a : α),
    l[p]? = some a → g a = true → g (f a) = false → (l.modify p f).countP g + 1 = l.countP g
  | [], p, a, h, _, _ => by simp at h
  | x :: l, 0, a, h, h1, h2 => by
    simp at h; subst h
    simp [h1, h2]
  | x :: l, p + 1, a, h, h1, h2 => by
    have := countP_modify_lt f g l p a (by simpa using h) h1 h2
    simp only [List.modify_succ_cons, List.countP_cons]
    omega

theorem countP_le_of_step {α : Type} (g : α → Bool) : ∀ (l l' : List α), l'.length = l.length →
    (∀ (p : Nat) a, l[p]? = some a → ∃ a', l'[p]? = some a' ∧ (g a = false → g a' = false)) →
    l'.countP g ≤ l.countP g
  | [], l', hl, _ => by
    have : l' = [] := List.eq_nil_of_length_eq_zero (by simpa using hl)
    subst this; simp
  | x :: l, [], hl, _ => by simp at hl
  | x :: l, y :: l', hl, h => by
    have ih := countP_le_of_step g l l' (by simpa using hl) (fun p a hp => by
      simpa using h (p + 1) a (by simpa using hp))
    obtain ⟨a', h1, h2⟩ := h 0 x rfl
    simp at h1; subst h1
    simp only [List.countP_cons]
    cases hx : g x
    · simp [h2 hx]; exact ih
    · simp; split <;> omega

theorem VStep.unval {h h' : Heap} (s : VStep h h') : unval h' ≤ unval h := by
  unfold Treerack.unval
  refine countP_le_of_step _ _ _ s.len ?_
  intro p d hd
  obtain ⟨b, e1, e2⟩ := s.def_ p d hd
  refine ⟨_, e1, ?_⟩
  intro hv
  simp at hv ⊢
  exact e2 hv

/-- The result of validation. -/
structure VPost (r : Registry) (h : Heap) (start : Ptr → Prop) (x : Heap × Option SynErr) : Prop where
  step : VStep h x.1
  newly : x.2 = none → ∀ p, Vis x.1 p → Vis h p ∨ VClosed r x.1 p
  ok : x.2 = none → ∀ p, start p → Vis x.1 p
  err : ∀ e, x.2 = some e → ∃ p q d n, start p ∧ RefReach r h p q ∧ h[q]? = some d ∧ n ∈ d.kind.refs ∧
    r.lookup n = none ∧ e = .parserNotFound n

/-- `validateRefs`, when the nested calls satisfy their specification. -/
theorem validateRefs_spec {r : Registry} {rec : Ptr → Heap → Res (Heap × Option SynErr)} {K : Nat}
    (hlk : ∀ n p, r.lookup n = some p → p < L)
    (hrec : ∀ p h, p < L → h.length = L → unval h < K →
      (rec p h).Spec False False (VPost r h (· = p))) :
    ∀ (ns : List Name) (h : Heap), h.length = L → unval h < K →
      (validateRefs rec r ns h).Spec False False (fun x =>
        VStep h x.1 ∧ (x.2 = none → ∀ p, Vis x.1 p → Vis h p ∨ VClosed r x.1 p) ∧
        (x.2 = none → ∀ n ∈ ns, ∃ q, r.lookup n = some q ∧ Vis x.1 q) ∧
        (∀ e, x.2 = some e → (∃ n ∈ ns, r.lookup n = none ∧ e = .parserNotFound n) ∨
          ∃ n ∈ ns, ∃ p, r.lookup n = some p ∧ ∃ q d m, RefReach r h p q ∧ h[q]? = some d ∧
            m ∈ d.kind.refs ∧ r.lookup m = none ∧ e = .parserNotFound m))
  | [], h, _, _ => ⟨.refl h, fun _ p hp => Or.inl hp, by simp, by simp⟩
  | n :: ns, h, hl, hK => by
    unfold validateRefs
    cases hlkn : r.lookup n with
    | none =>
      refine ⟨.refl h, by simp, by simp, ?_⟩
      intro e he
      cases he
      exact Or.inl ⟨n, by simp, hlkn, rfl⟩
    | some p =>
      simp only
      refine Res.Spec.bind (hrec p h (hlk n p hlkn) hl hK) ?_
      rintro ⟨h1, e1⟩ hp
      have hst := hp.step
      simp only at hst
      cases e1 with
      | some e =>
        refine ⟨hst, by simp, by simp, ?_⟩
        intro e' he'
        cases he'
        obtain ⟨p', q, d, m, rfl, g1, g2, g3, g4, g5⟩ := hp.err e rfl
        exact Or.inr ⟨n, by simp, p', hlkn, q, d, m, g1, g2, g3, g4, g5⟩
      | none =>
        simp only
        have hu := hst.unval
        refine (validateRefs_spec hlk hrec ns h1 (by rw [hst.len]; exact hl) (by omega)).imp ?_
        rintro ⟨h2, e2⟩ ⟨k1, k2, k3, k4⟩
        simp only at k1 k2 k3 k4 ⊢
        refine ⟨hst.trans k1, ?_, ?_, ?_⟩
        · intro he q hq
          rcases k2 he q hq with h' | h'
          · rcases hp.newly rfl q h' with h'' | h''
            · exact Or.inl h''
            · exact Or.inr (h''.mono k1)
          · exact Or.inr h'
        · intro he m hm
          rcases List.mem_cons.1 hm with rfl | hm
          · exact ⟨p, hlkn, k1.vis (hp.ok rfl p rfl)⟩
          · exact k3 he m hm
        · intro e he
          rcases k4 e he with ⟨m, hm, g⟩ | ⟨m, hm, p', g1, q, d, m', g2, g3, g4⟩
          · exact Or.inl ⟨m, by simp [hm], g⟩
          · obtain ⟨d0, b, g5, rfl, -⟩ := hst.back g3
            exact Or.inr ⟨m, by simp [hm], p', g1, q, d0, m', g2.back hst, g5, g4⟩

theorem validate_spec {r : Registry} {L : Nat} (hlk : ∀ n p, r.lookup n = some p → p < L) :
    ∀ (n : Nat) (p : Ptr) (h : Heap), p < L → h.length = L → unval h < n →
      (validate r n p h).Spec False False (VPost r h (· = p))
  | 0, _, _, _, _, hK => absurd hK (Nat.not_lt_zero _)
  | n + 1, p, h, hp, hl, hK => by
    unfold validate
    obtain ⟨d, hd⟩ : ∃ d, h[p]? = some d :=
      ⟨_, List.getElem?_eq_getElem (Nat.lt_of_lt_of_eq hp hl.symm)⟩
    simp only [hd]
    -- a node that was already visited
    have hvis : Vis h p → VPost r h (· = p) (h, none) := by
      intro hv
      refine ⟨.refl h, fun _ q hq => Or.inl hq, ?_, by simp⟩
      rintro _ q rfl
      exact hv
    have hgo : d.kind.isChar = false →
        (if d.validated then .ok (h, none)
          else validateRefs (validate r n) r d.kind.refs
            (h.update p fun d => { d with validated := true })).Spec False False (VPost r h (· = p)) := by
      intro hk
      split
      · rename_i hv
        exact hvis ⟨d, hd, Or.inl hv⟩
      · rename_i hv
        have hst : VStep h (h.update p fun d => { d with validated := true }) := by
          refine ⟨Heap.length_update .., fun q e he => ?_⟩
          by_cases hq : p = q
          · subst hq
            rw [Heap.getElem?_update_self, he]
            exact ⟨true, rfl, fun _ => rfl⟩
          · rw [Heap.getElem?_update_ne _ _ hq]
            exact ⟨e.validated, he, id⟩
        have hun : unval (h.update p fun d => { d with validated := true }) + 1 = unval h :=
          countP_modify_lt _ _ h p d hd (by simpa using hv) (by simp)
        refine (validateRefs_spec (K := n) hlk (fun q h' h1 h2 h3 => validate_spec hlk n q h' h1 h2 h3)
          d.kind.refs _ (by rw [Heap.length_update]; exact hl) (by omega)).imp ?_
        rintro ⟨h2, e2⟩ ⟨k1, k2, k3, k4⟩
        simp only at k1 k2 k3 k4
        have hst2 := hst.trans k1
        have hpv : Vis (h.update p fun d => { d with validated := true }) p := by
          refine ⟨{ d with validated := true }, ?_, Or.inl rfl⟩
          rw [Heap.getElem?_update_self, hd]; rfl
        refine ⟨hst2, ?_, ?_, ?_⟩
        · intro he q hq
          rcases k2 he q hq with h' | h'
          · by_cases hpq : p = q
            · subst hpq
              right
              intro d' hd' m hm
              obtain ⟨d0, b, e1, rfl, -⟩ := hst2.back hd'
              rw [hd] at e1; cases e1
              exact k3 he m hm
            · left
              obtain ⟨e, he', h1⟩ := h'
              rw [Heap.getElem?_update_ne _ _ hpq] at he'
              exact ⟨e, he', h1⟩
          · exact Or.inr h'
        · rintro he q rfl
          exact k1.vis hpv
        · intro e he
          rcases k4 e he with ⟨m, hm, g1, g2⟩ | ⟨m, hm, p', g1, q, d', m', g2, g3, g4⟩
          · exact ⟨p, p, d, m, rfl, .refl, hd, hm, g1, g2⟩
          · obtain ⟨d0, b, g5, rfl, -⟩ := hst.back g3
            exact ⟨p, q, d0, m', rfl, .step hd hm g1 (g2.back hst), g5, g4⟩
    cases hk : d.kind with
    | char neg cs rs => exact hvis ⟨d, hd, Or.inr (by rw [hk]; rfl)⟩
    | choice os ds =>
      simp only
      have := hgo (by rw [hk]; rfl)
      rw [hk] at this
      exact this
    | seq orig items ds rs ac =>
      simp only
      have := hgo (by rw [hk]; rfl)
      rw [hk] at this
      exact this

theorem validateAll_spec {r : Registry} {L : Nat} (hlk : ∀ n p, r.lookup n = some p → p < L) (n : Nat) :
    ∀ (ps : List Ptr) (h : Heap), (∀ p ∈ ps, p < L) → h.length = L → unval h < n →
      (Syntax.validateAll r n ps h).Spec False False (VPost r h (· ∈ ps))
  | [], h, _, _, _ => ⟨.refl h, fun _ q hq => Or.inl hq, by simp, by simp⟩
  | p :: ps, h, hps, hl, hK => by
    unfold Syntax.validateAll
    refine Res.Spec.bind (validate_spec hlk n p h (hps p (by simp)) hl hK) ?_
    rintro ⟨h1, e1⟩ hp
    have hst := hp.step
    simp only at hst
    cases e1 with
    | some e =>
      refine ⟨hst, by simp, by simp, ?_⟩
      intro e' he'
      obtain ⟨p', q, d, m, rfl, g⟩ := hp.err e' he'
      exact ⟨p', q, d, m, by simp, g⟩
    | none =>
      have hu := hst.unval
      refine (validateAll_spec hlk n ps h1 (fun q hq => hps q (by simp [hq])) (by rw [hst.len]; exact hl)
        (by omega)).imp ?_
      rintro ⟨h2, e2⟩ k
      have hst' := k.step
      simp only at hst'
      refine ⟨hst.trans hst', ?_, ?_, ?_⟩
      · intro he q hq
        rcases k.newly he q hq with h' | h'
        · rcases hp.newly rfl q h' with h'' | h''
          · exact Or.inl h''
          · exact Or.inr (h''.mono hst')
        · exact Or.inr h'
      · intro he q hq
        rcases List.mem_cons.1 hq with rfl | hq
        · exact hst'.vis (hp.ok rfl _ rfl)
        · exact k.ok he q hq
      · intro e he
        obtain ⟨p', q, d, m, g0, g1, g2, g3⟩ := k.err e he
        obtain ⟨d0, b, g5, rfl, -⟩ := hst.back g2
        exact ⟨p', q, d0, m, by simp [g0], g1.back hst, g5, g3⟩

end Treerack
