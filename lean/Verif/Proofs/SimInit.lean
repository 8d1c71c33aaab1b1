import Verif.Proofs.Simulation
import Verif.Proofs.Prepare

/-
Two syntaxes whose definitions correspond to each other are validated and initialized in the same way.
-/

namespace Treerack

/-- Corresponding kinds of definitions: the same references, and corresponding resolved references. -/
inductive DKindRel (R : Ptr → Ptr → Prop) : DKind → DKind → Prop
  | char (neg : Bool) (chars : List Rune) (ranges : List (Rune × Rune)) :
      DKindRel R (.char neg chars ranges) (.char neg chars ranges)
  | choice (options : List Name) {ds es : List Ptr} : Pairs R ds es → DKindRel R (.choice options ds) (.choice options es)
  | seq (orig orig' items : List SeqItem) {ds es : List Ptr} (ranges : List (Int × Int)) (ac : Bool) : Pairs R ds es →
      DKindRel R (.seq orig items ds ranges ac) (.seq orig' items es ranges ac)

/-- Corresponding definitions. -/
structure ObjRel (R : Ptr → Ptr → Prop) (I : Nat → Nat → Prop) (r₁ r₂ : Registry) (d e : Def) : Prop where
  name : d.name = e.name
  id : I d.id e.id
  commit : d.commit = e.commit
  validated : d.validated = e.validated
  initialized : d.initialized = e.initialized
  gens : Pairs I d.gens e.gens
  kind : DKindRel R d.kind e.kind
  refs : ∀ n ∈ d.kind.refs, OptRel R (r₁.lookup n) (r₂.lookup n)

/-- Corresponding heaps. -/
structure HeapRel (R : Ptr → Ptr → Prop) (I : Nat → Nat → Prop) (r₁ r₂ : Registry) (h₁ h₂ : Heap) : Prop where
  oneR : OneToOne R
  oneI : OneToOne I
  obj : ∀ p q, R p q → ∃ d e, h₁[p]? = some d ∧ h₂[q]? = some e ∧ ObjRel R I r₁ r₂ d e

section

variable {R : Ptr → Ptr → Prop} {I : Nat → Nat → Prop} {r₁ r₂ : Registry} {h₁ h₂ : Heap}

theorem HeapRel.update (h : HeapRel R I r₁ r₂ h₁ h₂) {p q : Ptr} (hpq : R p q) {f g : Def → Def}
    (hfg : ∀ d e, ObjRel R I r₁ r₂ d e → ObjRel R I r₁ r₂ (f d) (g e)) :
    HeapRel R I r₁ r₂ (h₁.update p f) (h₂.update q g) := by
  refine ⟨h.oneR, h.oneI, fun p' q' h' => ?_⟩
  obtain ⟨d, e, hd, he, ho⟩ := h.obj p' q' h'
  have hone := h.oneR _ _ _ _ hpq h'
  rw [Heap.getElem?_update, Heap.getElem?_update, hd, he]
  by_cases hc : p = p'
  · rw [if_pos hc, if_pos (hone.1 hc.symm).symm]
    exact ⟨f d, g e, rfl, rfl, hfg d e ho⟩
  · rw [if_neg hc, if_neg fun hb => hc (hone.2 hb.symm).symm]
    exact ⟨d, e, rfl, rfl, ho⟩

theorem DKindRel.refs {k k' : DKind} (h : DKindRel R k k') : k.refs = k'.refs := by
  cases h <;> rfl

theorem DKindRel.isChar {k k' : DKind} (h : DKindRel R k k') : k.isChar = k'.isChar := by
  cases h <;> rfl

theorem ObjRel.setValidated {d e : Def} (h : ObjRel R I r₁ r₂ d e) :
    ObjRel R I r₁ r₂ { d with validated := true } { e with validated := true } :=
  ⟨h.name, h.id, h.commit, rfl, h.initialized, h.gens, h.kind, h.refs⟩

theorem ObjRel.setInitialized {d e : Def} (h : ObjRel R I r₁ r₂ d e) :
    ObjRel R I r₁ r₂ { d with initialized := true } { e with initialized := true } :=
  ⟨h.name, h.id, h.commit, h.validated, rfl, h.gens, h.kind, h.refs⟩

theorem ObjRel.addGen {d e : Def} (h : ObjRel R I r₁ r₂ d e) {a b : Nat} (hab : I a b) :
    ObjRel R I r₁ r₂ { d with gens := d.gens ++ [a] } { e with gens := e.gens ++ [b] } :=
  ⟨h.name, h.id, h.commit, h.validated, h.initialized, h.gens.append (.cons hab .nil), h.kind, h.refs⟩

theorem initRanges_refs (d : Def) : d.initRanges.kind.refs = d.kind.refs := by
  unfold Def.initRanges
  split
  · rename_i o i ds r a hk
    rw [hk]
    simp only [DKind.refs, List.map_map]
    apply List.map_congr_left
    intro x _
    exact normalizeItemRange_name x
  · rfl

theorem ObjRel.initRanges {d e : Def} (h : ObjRel R I r₁ r₂ d e) :
    ObjRel R I r₁ r₂ d.initRanges e.initRanges := by
  refine ⟨?_, ?_, ?_, ?_, ?_, ?_, ?_, ?_⟩
  · rw [initRanges_name, initRanges_name]; exact h.name
  · rw [initRanges_id, initRanges_id]; exact h.id
  · rw [initRanges_commit, initRanges_commit]; exact h.commit
  · rw [initRanges_validated, initRanges_validated]; exact h.validated
  · rw [initRanges_initialized, initRanges_initialized]; exact h.initialized
  · rw [initRanges_gens, initRanges_gens]; exact h.gens
  · have hk := h.kind
    unfold Def.initRanges
    cases d with
    | mk dn dc dk did dg dv di =>
    cases e with
    | mk en ec ek eid eg ev ei =>
    simp only at hk
    cases hk with
    | char neg cs rs => exact .char neg cs rs
    | choice os ho => exact .choice os ho
    | seq o o' i rs ac hp => exact .seq _ _ _ _ _ hp
  · rw [initRanges_refs]; exact h.refs

theorem ObjRel.appendChild {d e : Def} (h : ObjRel R I r₁ r₂ d e) {p q : Ptr} (hpq : R p q) :
    ObjRel R I r₁ r₂ (d.appendChild p) (e.appendChild q) := by
  have hk := h.kind
  have hr := h.refs
  have ⟨h1, h2, h3, h4, h5, h6, _, _⟩ := h
  unfold Def.appendChild
  cases d with
  | mk dn dc dk did dg dv di =>
  cases e with
  | mk en ec ek eid eg ev ei =>
  simp only at hk
  cases hk with
  | char neg cs rs => exact h
  | choice os ho => exact ⟨h1, h2, h3, h4, h5, h6, .choice os (ho.append (.cons hpq .nil)), hr⟩
  | seq o o' i rs ac hp => exact ⟨h1, h2, h3, h4, h5, h6, .seq _ _ _ _ _ (hp.append (.cons hpq .nil)), hr⟩

theorem ObjRel.setAllChars {d e : Def} (h : ObjRel R I r₁ r₂ d e) (b : Bool) :
    ObjRel R I r₁ r₂ (d.setAllChars b) (e.setAllChars b) := by
  have hk := h.kind
  have hr := h.refs
  have ⟨h1, h2, h3, h4, h5, h6, _, _⟩ := h
  unfold Def.setAllChars
  cases d with
  | mk dn dc dk did dg dv di =>
  cases e with
  | mk en ec ek eid eg ev ei =>
  simp only at hk
  cases hk with
  | char neg cs rs => exact h
  | choice os ho => exact h
  | seq o o' i rs ac hp => exact ⟨h1, h2, h3, h4, h5, h6, .seq _ _ _ _ _ hp, hr⟩

/-! ### Validation -/

/-- Recursive calls of `validate` keep the relation, as far as they return. -/
def VRecRel (R : Ptr → Ptr → Prop) (I : Nat → Nat → Prop) (r₁ r₂ : Registry)
    (f g : Ptr → Heap → Res (Heap × Option SynErr)) : Prop :=
  ∀ p q h₁ h₂ x y, R p q → HeapRel R I r₁ r₂ h₁ h₂ → f p h₁ = .ok x → g q h₂ = .ok y →
    x.2 = y.2 ∧ HeapRel R I r₁ r₂ x.1 y.1

theorem validateRefs_rel {f g : Ptr → Heap → Res (Heap × Option SynErr)} (hrec : VRecRel R I r₁ r₂ f g) :
    ∀ (ns : List Name) (h₁ h₂ : Heap) (x y : Heap × Option SynErr), (∀ n ∈ ns, OptRel R (r₁.lookup n) (r₂.lookup n)) →
      HeapRel R I r₁ r₂ h₁ h₂ → validateRefs f r₁ ns h₁ = .ok x → validateRefs g r₂ ns h₂ = .ok y →
      x.2 = y.2 ∧ HeapRel R I r₁ r₂ x.1 y.1
  | [], h₁, h₂, x, y, _, hh, hx, hy => by cases hx; cases hy; exact ⟨rfl, hh⟩
  | n :: ns, h₁, h₂, x, y, hl, hh, hx, hy => by
    unfold validateRefs at hx hy
    have hn := hl n (by simp)
    generalize r₁.lookup n = a at hn hx
    generalize r₂.lookup n = b at hn hy
    cases hn with
    | none => cases hx; cases hy; exact ⟨rfl, hh⟩
    | some hpq =>
      simp only at hx hy
      obtain ⟨⟨h1, e1⟩, hx1, hx⟩ := Res.bind_eq_ok hx
      obtain ⟨⟨h2, e2⟩, hy1, hy⟩ := Res.bind_eq_ok hy
      obtain ⟨he, hh'⟩ := hrec _ _ _ _ _ _ hpq hh hx1 hy1
      simp only at he hh' hx hy
      subst he
      cases e1 with
      | some e => cases hx; cases hy; exact ⟨rfl, hh'⟩
      | none => exact validateRefs_rel hrec ns _ _ _ _ (fun n hn => hl n (by simp [hn])) hh' hx hy

theorem validate_rel : ∀ n m, VRecRel R I r₁ r₂ (validate r₁ n) (validate r₂ m)
  | 0, _, _, _, _, _, _, _, _, _, hx, _ => by cases hx
  | _ + 1, 0, _, _, _, _, _, _, _, _, _, hy => by cases hy
  | n + 1, m + 1, p, q, h₁, h₂, x, y, hpq, hh, hx, hy => by
    obtain ⟨d, e, hd, he, ho⟩ := hh.obj p q hpq
    unfold validate at hx hy
    rw [hd] at hx
    rw [he] at hy
    simp only at hx hy
    have hk := ho.kind
    have hr := ho.refs
    have hup := hh.update hpq (f := fun d => { d with validated := true })
      (g := fun d => { d with validated := true }) (fun _ _ h => h.setValidated)
    rw [← ho.validated] at hy
    generalize d.kind = k at hk hx hr
    generalize e.kind = k' at hk hy
    cases hk with
    | char neg cs rs => cases hx; cases hy; exact ⟨rfl, hh⟩
    | choice os hp =>
      simp only at hx hy
      cases hv : d.validated
      · rw [hv] at hx hy
        simp only [Bool.false_eq_true, if_false] at hx hy
        exact validateRefs_rel (validate_rel n m) os _ _ _ _ hr hup hx hy
      · rw [hv] at hx hy
        simp only [if_true] at hx hy
        cases hx; cases hy; exact ⟨rfl, hh⟩
    | seq o o' is rs ac hp =>
      simp only at hx hy
      cases hv : d.validated
      · rw [hv] at hx hy
        simp only [Bool.false_eq_true, if_false] at hx hy
        exact validateRefs_rel (validate_rel n m) _ _ _ _ _ hr hup hx hy
      · rw [hv] at hx hy
        simp only [if_true] at hx hy
        cases hx; cases hy; exact ⟨rfl, hh⟩

theorem validateAll_rel (n m : Nat) {ps qs : List Ptr} (hp : Pairs R ps qs) : ∀ (h₁ h₂ : Heap) (x y : Heap × Option SynErr),
      HeapRel R I r₁ r₂ h₁ h₂ → Syntax.validateAll r₁ n ps h₁ = .ok x → Syntax.validateAll r₂ m qs h₂ = .ok y →
      x.2 = y.2 ∧ HeapRel R I r₁ r₂ x.1 y.1 := by
  induction hp with
  | nil => intro h₁ h₂ x y hh hx hy; cases hx; cases hy; exact ⟨rfl, hh⟩
  | cons hpq _ ih =>
    intro h₁ h₂ x y hh hx hy
    unfold Syntax.validateAll at hx hy
    obtain ⟨⟨h1, e1⟩, hx1, hx⟩ := Res.bind_eq_ok hx
    obtain ⟨⟨h2, e2⟩, hy1, hy⟩ := Res.bind_eq_ok hy
    obtain ⟨he, hh'⟩ := validate_rel n m _ _ _ _ _ _ hpq hh hx1 hy1
    simp only at he hh' hx hy
    subst he
    cases e1 with
    | some e => cases hx; cases hy; exact ⟨rfl, hh'⟩
    | none => exact ih _ _ _ _ hh' hx hy

/-! ### Initialization -/

/-- Recursive calls of `init` or of `addGeneralization` keep the relation, as far as they return. -/
def IRecRel (R : Ptr → Ptr → Prop) (I : Nat → Nat → Prop) (r₁ r₂ : Registry) (f g : Ptr → Heap → Res Heap) : Prop :=
  ∀ p q h₁ h₂ x y, R p q → HeapRel R I r₁ r₂ h₁ h₂ → f p h₁ = .ok x → g q h₂ = .ok y → HeapRel R I r₁ r₂ x y

theorem addGenAll_rel {f g : Ptr → Heap → Res Heap} (hrec : IRecRel R I r₁ r₂ f g) {ps qs : List Ptr}
    (hp : Pairs R ps qs) : ∀ (h₁ h₂ x y : Heap), HeapRel R I r₁ r₂ h₁ h₂ → addGenAll f ps h₁ = .ok x →
      addGenAll g qs h₂ = .ok y → HeapRel R I r₁ r₂ x y := by
  induction hp with
  | nil => intro h₁ h₂ x y hh hx hy; cases hx; cases hy; exact hh
  | cons hpq _ ih =>
    intro h₁ h₂ x y hh hx hy
    unfold addGenAll at hx hy
    obtain ⟨h1, hx1, hx⟩ := Res.bind_eq_ok hx
    obtain ⟨h2, hy1, hy⟩ := Res.bind_eq_ok hy
    exact ih _ _ _ _ (hrec _ _ _ _ _ _ hpq hh hx1 hy1) hx hy

theorem Pairs.contains (hI : OneToOne I) {as bs : List Nat} (h : Pairs I as bs) {a b : Nat} (hab : I a b) :
    as.contains a = bs.contains b := by
  induction h with
  | nil => rfl
  | cons h' _ ih =>
    simp only [List.contains_cons, ih]
    congr 1
    have := hI _ _ _ _ hab h'
    exact Bool.eq_iff_iff.2 (by
      simp only [beq_iff_eq]
      exact ⟨fun h => (this.1 h.symm).symm, fun h => (this.2 h.symm).symm⟩)

theorem addGeneralization_rel {a b : Nat} (hab : I a b) :
    ∀ n m, IRecRel R I r₁ r₂ (addGeneralization a n) (addGeneralization b m)
  | 0, _, _, _, _, _, _, _, _, _, hx, _ => by cases hx
  | _ + 1, 0, _, _, _, _, _, _, _, _, _, hy => by cases hy
  | n + 1, m + 1, p, q, h₁, h₂, x, y, hpq, hh, hx, hy => by
    obtain ⟨d, e, hd, he, ho⟩ := hh.obj p q hpq
    unfold addGeneralization at hx hy
    rw [hd] at hx
    rw [he] at hy
    simp only at hx hy
    have hk := ho.kind
    have hup := hh.update hpq (f := fun d => { d with gens := d.gens ++ [a] })
      (g := fun d => { d with gens := d.gens ++ [b] }) (fun _ _ h => h.addGen hab)
    rw [← ho.gens.contains hh.oneI hab] at hy
    generalize d.kind = k at hk hx
    generalize e.kind = k' at hk hy
    cases hk with
    | char neg cs rs => cases hx; cases hy; exact hh
    | choice os hp =>
      simp only at hx hy
      cases hv : d.gens.contains a
      · rw [hv] at hx hy
        simp only [Bool.false_eq_true, if_false] at hx hy
        exact addGenAll_rel (addGeneralization_rel hab n m) hp _ _ _ _ hup hx hy
      · rw [hv] at hx hy
        simp only [if_true] at hx hy
        cases hx; cases hy; exact hh
    | seq o o' is rs ac hp =>
      simp only at hx hy
      cases hv : d.gens.contains a
      · rw [hv] at hx hy
        simp only [Bool.false_eq_true, if_false] at hx hy
        cases hx; cases hy; exact hup
      · rw [hv] at hx hy
        simp only [if_true] at hx hy
        cases hx; cases hy; exact hh

theorem initOptions_rel {f g : Ptr → Heap → Res Heap} (hrec : IRecRel R I r₁ r₂ f g) {a b : Nat} (hab : I a b)
    {n m : Nat} {p q : Ptr} (hpq : R p q) : ∀ (os : List Name) (h₁ h₂ x y : Heap),
      (∀ o ∈ os, OptRel R (r₁.lookup o) (r₂.lookup o)) → HeapRel R I r₁ r₂ h₁ h₂ →
      initOptions f (fun g => addGeneralization g n) r₁ p a os h₁ = .ok x →
      initOptions g (fun g => addGeneralization g m) r₂ q b os h₂ = .ok y → HeapRel R I r₁ r₂ x y
  | [], h₁, h₂, x, y, _, hh, hx, hy => by cases hx; cases hy; exact hh
  | o :: os, h₁, h₂, x, y, hl, hh, hx, hy => by
    unfold initOptions at hx hy
    have hn := hl o (by simp)
    generalize r₁.lookup o = a' at hn hx
    generalize r₂.lookup o = b' at hn hy
    cases hn with
    | none => cases hx
    | some hd =>
      simp only at hx hy
      obtain ⟨h1, hx1, hx⟩ := Res.bind_eq_ok hx
      obtain ⟨h2, hy1, hy⟩ := Res.bind_eq_ok hy
      obtain ⟨h1', hx2, hx⟩ := Res.bind_eq_ok hx
      obtain ⟨h2', hy2, hy⟩ := Res.bind_eq_ok hy
      have k1 := hrec _ _ _ _ _ _ hd (hh.update hpq (fun _ _ h => h.appendChild hd)) hx1 hy1
      have k2 := addGeneralization_rel hab n m _ _ _ _ _ _ hd k1 hx2 hy2
      exact initOptions_rel hrec hab hpq os _ _ _ _ (fun n hn => hl n (by simp [hn])) k2 hx hy

theorem isCharDef_rel (hh : HeapRel R I r₁ r₂ h₁ h₂) {p q : Ptr} (hpq : R p q) : isCharDef h₁ p = isCharDef h₂ q := by
  obtain ⟨d, e, hd, he, ho⟩ := hh.obj p q hpq
  have hk := ho.kind
  unfold isCharDef
  rw [hd, he]
  cases d with
  | mk dn dc dk did dg dv di =>
  cases e with
  | mk en ec ek eid eg ev ei =>
  simp only at hk
  cases hk <;> rfl

theorem initItems_rel {f g : Ptr → Heap → Res Heap} (hrec : IRecRel R I r₁ r₂ f g) {p q : Ptr} (hpq : R p q) :
    ∀ (is : List Name) (ac : Bool) (h₁ h₂ : Heap) (x y : Heap × Bool),
      (∀ o ∈ is, OptRel R (r₁.lookup o) (r₂.lookup o)) → HeapRel R I r₁ r₂ h₁ h₂ →
      initItems f r₁ p is ac h₁ = .ok x → initItems g r₂ q is ac h₂ = .ok y → x.2 = y.2 ∧ HeapRel R I r₁ r₂ x.1 y.1
  | [], ac, h₁, h₂, x, y, _, hh, hx, hy => by cases hx; cases hy; exact ⟨rfl, hh⟩
  | i :: is, ac, h₁, h₂, x, y, hl, hh, hx, hy => by
    unfold initItems at hx hy
    have hn := hl i (by simp)
    generalize r₁.lookup i = a' at hn hx
    generalize r₂.lookup i = b' at hn hy
    cases hn with
    | none => cases hx
    | some hd =>
      simp only at hx hy
      obtain ⟨h1, hx1, hx⟩ := Res.bind_eq_ok hx
      obtain ⟨h2, hy1, hy⟩ := Res.bind_eq_ok hy
      have k1 := hrec _ _ _ _ _ _ hd (hh.update hpq (fun _ _ h => h.appendChild hd)) hx1 hy1
      rw [← isCharDef_rel k1 hd] at hy
      exact initItems_rel hrec hpq is _ _ _ _ _ (fun n hn => hl n (by simp [hn])) k1 hx hy

theorem initDef_rel (m m' : Nat) : ∀ n n', IRecRel R I r₁ r₂ (initDef r₁ m n) (initDef r₂ m' n')
  | 0, _, _, _, _, _, _, _, _, _, hx, _ => by cases hx
  | _ + 1, 0, _, _, _, _, _, _, _, _, _, hy => by cases hy
  | n + 1, n' + 1, p, q, h₁, h₂, x, y, hpq, hh, hx, hy => by
    obtain ⟨d, e, hd, he, ho⟩ := hh.obj p q hpq
    unfold initDef at hx hy
    rw [hd] at hx
    rw [he] at hy
    simp only at hx hy
    have hk := ho.kind
    have hr := ho.refs
    have hup := hh.update hpq (f := fun d => { d with initialized := true })
      (g := fun d => { d with initialized := true }) (fun _ _ h => h.setInitialized)
    have hup' := hh.update hpq (f := fun d => { d with initialized := true }.initRanges)
      (g := fun d => { d with initialized := true }.initRanges) (fun _ _ h => h.setInitialized.initRanges)
    rw [← ho.initialized] at hy
    generalize d.kind = k at hk hx hr
    generalize e.kind = k' at hk hy
    cases hk with
    | char neg cs rs => cases hx; cases hy; exact hh
    | choice os hp =>
      simp only at hx hy
      cases hv : d.initialized
      · rw [hv] at hx hy
        simp only [Bool.false_eq_true, if_false] at hx hy
        exact initOptions_rel (initDef_rel m m' n n') ho.id hpq os _ _ _ _ hr hup hx hy
      · rw [hv] at hx hy
        simp only [if_true] at hx hy
        cases hx; cases hy; exact hh
    | seq o o' is rs ac hp =>
      simp only at hx hy
      cases hv : d.initialized
      · rw [hv] at hx hy
        simp only [Bool.false_eq_true, if_false] at hx hy
        obtain ⟨⟨h1, a1⟩, hx1, hx⟩ := Res.bind_eq_ok hx
        obtain ⟨⟨h2, a2⟩, hy1, hy⟩ := Res.bind_eq_ok hy
        obtain ⟨ha, k1⟩ := initItems_rel (initDef_rel m m' n n') hpq _ _ _ _ _ _ hr hup' hx1 hy1
        simp only at ha k1 hx hy
        subst ha
        cases hx; cases hy
        exact k1.update hpq (fun _ _ h => h.setAllChars _)
      · rw [hv] at hx hy
        simp only [if_true] at hx hy
        cases hx; cases hy; exact hh

theorem initAll_rel (m m' n n' : Nat) {ps qs : List Ptr} (hp : Pairs R ps qs) : ∀ (h₁ h₂ x y : Heap),
      HeapRel R I r₁ r₂ h₁ h₂ → Syntax.initAll r₁ m n ps h₁ = .ok x → Syntax.initAll r₂ m' n' qs h₂ = .ok y →
      HeapRel R I r₁ r₂ x y := by
  induction hp with
  | nil => intro h₁ h₂ x y hh hx hy; cases hx; cases hy; exact hh
  | cons hpq _ ih =>
    intro h₁ h₂ x y hh hx hy
    unfold Syntax.initAll at hx hy
    obtain ⟨h1, hx1, hx⟩ := Res.bind_eq_ok hx
    obtain ⟨h2, hy1, hy⟩ := Res.bind_eq_ok hy
    exact ih _ _ _ _ (initDef_rel m m' n n' _ _ _ _ _ _ hpq hh hx1 hy1) hx hy

end

/-- The parsers of corresponding objects correspond to each other. -/
theorem HeapRel.env {R : Ptr → Ptr → Prop} {I : Nat → Nat → Prop} {r₁ r₂ : Registry} {s₁ s₂ : Syntax}
    (h : HeapRel R I r₁ r₂ s₁.heap s₂.heap) (hk : Pairs R s₁.keywords s₂.keywords) :
    EnvRel True True R I s₁.env s₂.env := by
  have hobj : ∀ p q, R p q → ∃ d e : Def, s₁.env.defs[p]? = some d.toPDef ∧ s₂.env.defs[q]? = some e.toPDef ∧
      KindRel True R d.toPDef.kind e.toPDef.kind ∧ DefRel True True R I d.toPDef e.toPDef := by
    intro p q hpq
    obtain ⟨d, e, hd, he, ho⟩ := h.obj p q hpq
    have hk := ho.kind
    have hc : d.commitType = e.commitType := by
      unfold Def.commitType
      have := ho.commit
      generalize d.kind = k at hk
      generalize e.kind = k' at hk
      cases hk <;> simp [this]
    refine ⟨d, e, by simp [Syntax.env, hd], by simp [Syntax.env, he], ?_,
      ⟨ho.id, hc, fun _ _ => ho.name, fun _ _ => ho.name, ho.gens⟩⟩
    unfold Def.toPDef
    simp only
    generalize d.kind = k at hk
    generalize e.kind = k' at hk
    cases hk with
    | char neg cs rs => exact .char fun _ => ⟨rfl, rfl, rfl⟩
    | choice os hp => exact .choice hp
    | seq o o' is rs ac hp => exact .seq _ _ hp
  refine ⟨h.oneI, fun p q hpq => ?_, fun _ p q d e os os' hpq hd he hk hk' => ?_, fun _ => hk⟩
  · obtain ⟨d, e, hd, he, h1, h2⟩ := hobj p q hpq
    exact ⟨_, _, hd, he, h1, fun _ => h2⟩
  · obtain ⟨d1, e1, hd1, he1, h1, -⟩ := hobj p q hpq
    rw [hd] at hd1
    rw [he] at he1
    cases hd1
    cases he1
    rw [hk, hk'] at h1
    cases h1 with
    | choice ho =>
      refine ho.imp fun o o' hoo => ?_
      obtain ⟨a, b, ha, hb, -, g2⟩ := hobj o o' hoo
      exact ⟨_, _, ha, hb, g2.id⟩

theorem HeapRel.sameName {R : Ptr → Ptr → Prop} {I : Nat → Nat → Prop} {r₁ r₂ : Registry} {s₁ s₂ : Syntax}
    (h : HeapRel R I r₁ r₂ s₁.heap s₂.heap) {p q : Ptr} (hpq : R p q) :
    ∃ d e, s₁.env.defs[p]? = some d ∧ s₂.env.defs[q]? = some e ∧ I d.id e.id ∧ d.pname = e.pname := by
  obtain ⟨d, e, hd, he, ho⟩ := h.obj p q hpq
  exact ⟨d.toPDef, e.toPDef, by simp [Syntax.env, hd], by simp [Syntax.env, he], ho.id, ho.name⟩

/-- The last part of `Init` returns the same error, or leads to corresponding parsers. -/
theorem finishInit_rel {R : Ptr → Ptr → Prop} {I : Nat → Nat → Prop} {s₁ s₂ : Syntax} {p q : Ptr}
    (hp : PrepBase s₁ p) (hq : PrepBase s₂ q) (hpq : R p q) (hk : Pairs R s₁.keywords s₂.keywords)
    (h : HeapRel R I s₁.registry s₂.registry s₁.heap s₂.heap) :
    ∃ t₁ t₂ e, s₁.finishInit p = .ok (t₁, e) ∧ s₂.finishInit q = .ok (t₂, e) ∧ t₁.root = s₁.root ∧ t₂.root = s₂.root ∧
      (e = none → EnvRel True True R I t₁.env t₂.env ∧
        ∃ d e, t₁.env.defs[p]? = some d ∧ t₂.env.defs[q]? = some e ∧ I d.id e.id ∧ d.pname = e.pname) := by
  have hok : ∀ {α : Type} {x : Res α} {P : α → Prop}, x.Spec False False P → ∃ a, x = .ok a := by
    intro α x P hx
    cases x with
    | ok a => exact ⟨a, rfl⟩
    | panic => exact hx.elim
    | oof => exact hx.elim
  obtain ⟨x, hx⟩ := hok (finishInit_spec hp)
  obtain ⟨y, hy⟩ := hok (finishInit_spec hq)
  rw [hx, hy]
  have hx' := hx
  have hy' := hy
  unfold Syntax.finishInit at hx hy
  obtain ⟨⟨h1, e1⟩, hx1, hx⟩ := Res.bind_eq_ok hx
  obtain ⟨⟨h2, e2⟩, hy1, hy⟩ := Res.bind_eq_ok hy
  have hall : Pairs R (s₁.keywords ++ [p]) (s₂.keywords ++ [q]) := hk.append (.cons hpq .nil)
  obtain ⟨he, hh⟩ := validateAll_rel _ _ hall _ _ _ _ h hx1 hy1
  simp only at he hh hx hy
  subst he
  cases e1 with
  | some e =>
    cases hx; cases hy
    exact ⟨_, _, some e, rfl, rfl, rfl, rfl, by intro h; cases h⟩
  | none =>
    simp only at hx hy
    obtain ⟨h1', hx2, hx⟩ := Res.bind_eq_ok hx
    obtain ⟨h2', hy2, hy⟩ := Res.bind_eq_ok hy
    have k := initAll_rel _ _ _ _ hall _ _ _ _ hh hx2 hy2
    cases hx; cases hy
    exact ⟨_, _, none, rfl, rfl, rfl, rfl, fun _ => ⟨HeapRel.env (s₁ := { s₁ with heap := h1', initialized := true })
      (s₂ := { s₂ with heap := h2', initialized := true }) k hk, HeapRel.sameName
      (s₁ := { s₁ with heap := h1', initialized := true }) (s₂ := { s₂ with heap := h2', initialized := true }) k hpq⟩⟩

end Treerack
