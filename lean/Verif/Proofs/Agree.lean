import Verif.Proofs.SimInit
import Verif.Spec.Act

/-
Two syntaxes that agree about the definitions that are used parse alike.
-/

namespace Treerack
open Spec

/-- The object of a name, without its id. -/
def Syntax.object (s : Syntax) (n : Name) : Option (Commit × DKind) :=
  (s.registry.lookup n).bind fun p => (s.heap[p]?).map fun d => (d.commit, d.kind)

/-- Pointers of the same name. -/
def SamePtr (N : Name → Prop) (s t : Syntax) (p q : Ptr) : Prop :=
  ∃ n, N n ∧ s.registry.lookup n = some p ∧ t.registry.lookup n = some q

/-- The syntaxes have the same definitions for the names in `N`, which are all those that are used. -/
structure AgreeOn (N : Name → Prop) (s t : Syntax) : Prop where
  invS : SInv s
  invT : SInv t
  root : OptRel (SamePtr N s t) s.root t.root
  keywords : Pairs (SamePtr N s t) s.keywords t.keywords
  same : ∀ n, N n → s.object n = t.object n
  closed : ∀ n ct k, N n → s.object n = some (ct, k) → ∀ m ∈ k.refs, N m

/-- The same, without whitespace definitions. -/
structure Agree (N : Name → Prop) (s t : Syntax) : Prop extends AgreeOn N s t where
  wsS : ¬ s.HasWhitespace
  wsT : ¬ t.HasWhitespace

theorem SInv.object_some {s : Syntax} (hs : SInv s) {n : Name} {p : Ptr} (h : s.registry.lookup n = some p) :
    ∃ d, s.heap[p]? = some d ∧ d.name = n ∧ s.object n = some (d.commit, d.kind) := by
  obtain ⟨-, d, hd, hn⟩ := (hs.lookup n p).1 h
  exact ⟨d, hd, hn, by simp [Syntax.object, h, hd]⟩

theorem SInv.object_none {s : Syntax} (hs : SInv s) {n : Name} : s.object n = none ↔ s.registry.lookup n = none := by
  cases h : s.registry.lookup n with
  | none => simp [Syntax.object, h]
  | some p =>
    obtain ⟨d, -, -, ho⟩ := hs.object_some h
    simp [ho]

theorem Raw.noDefs {R : Ptr → Ptr → Prop} {k : DKind} (h : k.Raw) : DKindRel R k k := by
  cases k with
  | char => exact .char ..
  | choice os ds => cases h; exact .choice _ .nil
  | seq o i ds r a =>
    obtain ⟨rfl, rfl, rfl, rfl⟩ := h
    exact .seq _ _ _ _ _ .nil

namespace AgreeOn

variable {N : Name → Prop} {s t : Syntax} (h : AgreeOn N s t)

include h

theorem lookups {n : Name} (hn : N n) : OptRel (SamePtr N s t) (s.registry.lookup n) (t.registry.lookup n) := by
  have ho := h.same n hn
  cases hs : s.registry.lookup n with
  | none =>
    rw [h.invS.object_none.2 hs] at ho
    rw [h.invT.object_none.1 ho.symm]
    exact .none
  | some p =>
    cases ht : t.registry.lookup n with
    | none =>
      rw [h.invT.object_none.2 ht] at ho
      rw [h.invS.object_none.1 ho] at hs; cases hs
    | some q => exact .some ⟨n, hn, hs, ht⟩

/-- Ids of the same name. -/
def _root_.Treerack.SameId (N : Name → Prop) (s t : Syntax) (a b : Nat) : Prop :=
  ∃ p q d e, SamePtr N s t p q ∧ s.heap[p]? = some d ∧ t.heap[q]? = some e ∧ d.id = a ∧ e.id = b

theorem onePtr : OneToOne (SamePtr N s t) := by
  rintro p q p' q' ⟨n, hn, h1, h2⟩ ⟨m, hm, h3, h4⟩
  obtain ⟨d, hd, hdn, -⟩ := h.invS.object_some h1
  obtain ⟨e, he, hen, -⟩ := h.invT.object_some h2
  obtain ⟨d', hd', hdn', -⟩ := h.invS.object_some h3
  obtain ⟨e', he', hen', -⟩ := h.invT.object_some h4
  constructor
  · rintro rfl
    rw [hd] at hd'; cases hd'
    have : n = m := hdn.symm.trans hdn'
    subst this
    rw [h2] at h4; exact (Option.some.inj h4).symm
  · rintro rfl
    rw [he] at he'; cases he'
    have : n = m := hen.symm.trans hen'
    subst this
    rw [h1] at h3; exact (Option.some.inj h3).symm

theorem oneId : OneToOne (SameId N s t) := by
  rintro a b a' b' ⟨p, q, d, e, hpq, h1, h2, rfl, rfl⟩ ⟨p', q', d', e', hpq', h3, h4, rfl, rfl⟩
  have hone := h.onePtr _ _ _ _ hpq hpq'
  have mem : ∀ {p q : Ptr}, SamePtr N s t p q → p ∈ s.registry.definitions ∧ q ∈ t.registry.definitions := by
    rintro p q ⟨n, -, g1, g2⟩
    exact ⟨((h.invS.lookup n p).1 g1).1, ((h.invT.lookup n q).1 g2).1⟩
  constructor
  · intro hi
    have := h.invS.ids_inj (mem hpq').1 (mem hpq).1 h3 h1 hi
    have := hone.1 this
    subst this
    rw [h2] at h4; cases h4; rfl
  · intro hi
    have := h.invT.ids_inj (mem hpq').2 (mem hpq).2 h4 h2 hi
    have := hone.2 this
    subst this
    rw [h1] at h3; cases h3; rfl

theorem obj {p q : Ptr} (hpq : SamePtr N s t p q) : ∃ d e, s.heap[p]? = some d ∧ t.heap[q]? = some e ∧
    ObjRel (SamePtr N s t) (SameId N s t) s.registry t.registry d e := by
  obtain ⟨n, hn, h1, h2⟩ := hpq
  obtain ⟨d, hd, hdn, hdo⟩ := h.invS.object_some h1
  obtain ⟨e, he, hen, heo⟩ := h.invT.object_some h2
  have ho := h.same n hn
  rw [hdo, heo] at ho
  have hc : d.commit = e.commit := congrArg Prod.fst (Option.some.inj ho)
  have hk : d.kind = e.kind := congrArg Prod.snd (Option.some.inj ho)
  obtain ⟨r1, r2, r3, r4⟩ := h.invS.raw p d hd
  obtain ⟨r5, r6, r7, r8⟩ := h.invT.raw q e he
  refine ⟨d, e, hd, he, hdn.trans hen.symm, ⟨p, q, d, e, ⟨n, hn, h1, h2⟩, hd, he, rfl, rfl⟩, hc, r1.trans r5.symm,
    r2.trans r6.symm, ?_, ?_, ?_⟩
  · rw [r3, r7]; exact .nil
  · rw [← hk]; exact Raw.noDefs r4
  · intro m hm
    exact h.lookups (h.closed n d.commit d.kind hn hdo m hm)

theorem heapRel : HeapRel (SamePtr N s t) (SameId N s t) s.registry t.registry s.preHeap t.preHeap := by
  refine ⟨h.onePtr, h.oneId, fun p q hpq => ?_⟩
  obtain ⟨d, e, hd, he, ho⟩ := h.obj hpq
  obtain ⟨n, -, h1, h2⟩ := hpq
  refine ⟨d.initRanges, e.initRanges, ?_, ?_, ho.initRanges⟩
  · rw [h.invS.preHeap_get, if_pos ((h.invS.lookup n p).1 h1).1, hd]; rfl
  · rw [h.invT.preHeap_get, if_pos ((h.invT.lookup n q).1 h2).1, he]; rfl

end AgreeOn

/-- Syntaxes that agree return the same results. -/
theorem Agree.result {N : Name → Prop} {s t : Syntax} (h : Agree N s t) (fuel : Nat) (input : List Rune) (rend : Option Nat) :
    s.result fuel input rend = t.result fuel input rend := by
  have hS : s.Init = _ := s.Init_eq
  have hT : t.Init = _ := t.Init_eq
  rw [if_neg (by simp [h.invS.initFailed]), if_neg (by simp [h.invS.initialized])] at hS
  rw [if_neg (by simp [h.invT.initFailed]), if_neg (by simp [h.invT.initialized])] at hT
  have hroot := h.root
  unfold Syntax.result Syntax.Parse
  cases hrs : s.root with
  | none =>
    rw [hrs] at hroot hS
    cases hrt : t.root with
    | none => rw [hrt] at hT; rw [hS, hT]; rfl
    | some q => rw [hrt] at hroot; cases hroot
  | some p =>
    rw [hrs] at hroot hS
    cases hrt : t.root with
    | none => rw [hrt] at hroot; cases hroot
    | some q =>
      rw [hrt] at hroot hT
      cases hroot with
      | some hpq =>
        obtain ⟨d, e, hd, he, ho⟩ := h.obj hpq
        simp only at hS hT
        rw [hd] at hS
        rw [he] at hT
        have hk : d.kind.isChar = e.kind.isChar := ho.kind.isChar
        have hct : d.commitType = e.commitType := by
          cases hc : d.kind.isChar with
          | true => rw [commitType_char hc, commitType_char (hk ▸ hc)]
          | false => rw [commitType_notChar hc, commitType_notChar (hk ▸ hc), ho.commit]
        simp only [hct, ho.name] at hS
        simp only at hT
        cases hcc : e.commitType.incompatible with
        | true =>
          simp only [hcc, if_true] at hS hT
          rw [hS, hT]; rfl
        | false =>
          simp only [hcc, Bool.false_eq_true, if_false] at hS hT
          rw [prepare_noWs h.invS h.wsS] at hS
          rw [prepare_noWs h.invT h.wsT] at hT
          obtain ⟨t₁, t₂, er, e1, e2, e3, e4, e5⟩ := finishInit_rel (Built.prepBase_noWs h.invS hrs)
            (Built.prepBase_noWs h.invT hrt) hpq h.keywords h.heapRel
          simp only [Res.bind] at hS hT
          rw [hS, hT, e1, e2]
          cases er with
          | some er => rfl
          | none =>
            simp only [Res.bind]
            rw [e3, e4, hrs, hrt]
            obtain ⟨g1, _, _, g2, g3, g4, g5⟩ := e5 rfl
            simp only
            rw [parseInput_rel g1 hpq g2 g3 g4 g5]
            cases parseInput t₂.env fuel q input rend with
            | ok y => cases y <;> rfl
            | panic => rfl
            | oof => rfl

end Treerack
