import Verif.Spec.Reference
import Verif.Proofs.RefCalls

/-
The names of the aliases do not matter in the reference semantics.
-/

namespace Treerack.Spec

variable {N : Type} {G G' : Grammar N} {input : List Rune} {B : N → Nat → Nat → Prop}

/-- The same definition, except the name of an alias. -/
structure RelabeledDef (d d' : GDef N) : Prop where
  expr : d'.expr = d.expr
  wrap : ∀ input i j ns, d'.wrap input i j ns = d.wrap input i j ns

theorem RelabeledDef.refl (d : GDef N) : RelabeledDef d d := ⟨rfl, fun _ _ _ _ => rfl⟩

theorem RelabeledDef.symm {d d' : GDef N} (h : RelabeledDef d d') : RelabeledDef d' d := ⟨h.expr.symm, fun _ _ _ _ => (h.wrap ..).symm⟩

theorem RelabeledDef.wrap' {d d' : GDef N} (h : RelabeledDef d d') (input : List Rune) (i j : Nat) : d'.wrap input i j = d.wrap input i j :=
  funext fun _ => h.wrap ..

structure Relabeled (G G' : Grammar N) : Prop where
  to : ∀ {n d}, G n = some d → ∃ d', G' n = some d' ∧ RelabeledDef d d'
  back : ∀ {n d'}, G' n = some d' → ∃ d, G n = some d ∧ RelabeledDef d d'

theorem Relabeled.symm (h : Relabeled G G') : Relabeled G' G :=
  ⟨fun h1 => let ⟨d, h2, h3⟩ := h.back h1; ⟨d, h2, h3.symm⟩, fun h1 => let ⟨d, h2, h3⟩ := h.to h1; ⟨d, h2, h3.symm⟩⟩

theorem Relabeled.recurs (h : Relabeled G G') {n s : N} (hr : Recurs G n s) : Recurs G' n s := by
  obtain ⟨d, os, e, tail, h1, h2, h3, h4, h5⟩ := hr
  obtain ⟨d', k1, k2⟩ := h.to h1
  obtain ⟨e', k3, k4⟩ := h.to h4
  exact ⟨d', os, e', tail, k1, k2.expr.trans h2, h3, k3, k4.expr.trans h5⟩

theorem Relabeled.recurs_iff (h : Relabeled G G') {n s : N} : Recurs G n s ↔ Recurs G' n s := ⟨h.recurs, h.symm.recurs⟩

theorem Relabeled.growth (h : Relabeled G G') {n : N} {os fs bs ls : List N} (hg : Growth G n os fs bs ls) :
    Growth G' n os fs bs ls :=
  ⟨hg.options, fun o ho => h.recurs (hg.firsts o ho), fun o ho hr => hg.bases o ho (h.recurs_iff.2 hr),
    fun o ho => h.recurs (hg.lasts o ho), hg.canonical⟩

mutual

theorem Relabeled.ref (h : Relabeled G G') : ∀ {n : N} {i : Nat} {r : Match}, Ref G B input n i r → Ref G' B input n i r
  | _, _, _, .char h1 h2 h3 h4 => by
    obtain ⟨d', k1, k2⟩ := h.to h1
    exact .char k1 (k2.expr.trans h2) h3 h4
  | _, _, _, .noChar h1 h2 h3 => by
    obtain ⟨d', k1, k2⟩ := h.to h1
    exact .noChar k1 (k2.expr.trans h2) h3
  | _, i, _, .choice h1 h2 h3 h4 => by
    have ih := h.refOptions h4
    obtain ⟨d', k1, k2⟩ := h.to h1
    simp only [← k2.wrap]
    exact .choice k1 (k2.expr.trans h2) (fun o ho => h3 o (h.recurs_iff.2 ho)) ih
  | _, _, _, .noBase h1 h2 ⟨t, hr⟩ h3 h4 => by
    have ih := h.refOptions h4
    obtain ⟨d', k1, k2⟩ := h.to h1
    exact .noBase k1 (k2.expr.trans h2) ⟨t, h.recurs hr⟩ (h.growth h3) ih
  | _, _, _, .grow h1 h2 ⟨t, hr⟩ h3 h4 h5 => by
    obtain ⟨d', k1, k2⟩ := h.to h1
    have ih := h.refChain k2 h4
    have ih2 := h.refFails h5
    exact .grow k1 (k2.expr.trans h2) ⟨t, h.recurs hr⟩ (h.growth h3) ih ih2
  | _, _, _, .seq h1 h2 h3 h4 => by
    have ih := h.refItems h3
    obtain ⟨d', k1, k2⟩ := h.to h1
    simp only [← k2.wrap]
    exact .seq k1 (k2.expr.trans h2) ih h4
  | _, _, _, .blocked h1 h2 h3 h4 => by
    have ih := h.refItems h3
    obtain ⟨d', k1, k2⟩ := h.to h1
    exact .blocked k1 (k2.expr.trans h2) ih h4

theorem Relabeled.refOptions (h : Relabeled G G') : ∀ {os : List N} {i : Nat} {r : Match},
    RefOptions G B input os i r → RefOptions G' B input os i r
  | _, _, _, .nil => .nil
  | _, _, _, .cons h1 h2 => .cons (h.ref h1) (h.refOptions h2)

theorem Relabeled.refChain (h : Relabeled G G') : ∀ {d d' : GDef N} {ss bs : List N} {i k j : Nat} {ns : List Node},
    RelabeledDef d d' → RefChain G B input d ss bs i k j ns → RefChain G' B input d' ss bs i k j ns
  | _, _, _, _, _, _, _, _, hd, .base h1 => by
    have ih := h.refOptions h1
    rw [← hd.wrap]
    exact .base ih
  | _, _, _, _, _, _, _, _, hd, .skip h1 h2 h3 h4 h5 => by
    have ih := h.refChain hd h1
    have ih2 := h.refItems h5
    obtain ⟨e', k1, k2⟩ := h.to h3
    exact .skip ih h2 k1 (k2.expr.trans h4) ih2
  | _, _, _, _, _, _, _, _, hd, .step h1 h2 h3 h4 h5 h6 => by
    have ih := h.refChain hd h1
    have ih2 := h.refItems h5
    obtain ⟨e', k1, k2⟩ := h.to h3
    rw [← hd.wrap, ← k2.wrap]
    exact .step ih h2 k1 (k2.expr.trans h4) ih2 h6

theorem Relabeled.refFails (h : Relabeled G G') : ∀ {ss : List N} {j : Nat}, RefFails G B input ss j → RefFails G' B input ss j
  | _, _, .nil => .nil
  | _, _, .cons h1 h2 h3 h4 => by
    have ih := h.refItems h3
    have ih2 := h.refFails h4
    obtain ⟨e', k1, k2⟩ := h.to h1
    exact .cons k1 (k2.expr.trans h2) ih ih2

theorem Relabeled.refItems (h : Relabeled G G') : ∀ {items : List (N × Int × Int)} {k i : Nat} {r : Match},
    RefItems G B input items k i r → RefItems G' B input items k i r
  | _, _, _, _, .nil => .nil
  | _, _, _, _, .fail h1 h2 => .fail (h.ref h1) h2
  | _, _, _, _, .done h1 h2 h3 => .done (h.ref h1) h2 (h.refItems h3)
  | _, _, _, _, .empty h1 h2 => .empty (h.ref h1) (h.refItems h2)
  | _, _, _, _, .last h1 h2 h3 h4 h5 => .last (h.ref h1) h2 h3 h4 (h.refItems h5)
  | _, _, _, _, .more h1 h2 h3 h4 => .more (h.ref h1) h2 h3 (h.refItems h4)

end

theorem Relabeled.ref_iff (h : Relabeled G G') {n : N} {i : Nat} {r : Match} : Ref G B input n i r ↔ Ref G' B input n i r :=
  ⟨h.ref, h.symm.ref⟩

theorem Relabeled.nullable (h : Relabeled G G') {n : N} (hn : Nullable G n) : Nullable G' n := by
  induction hn with
  | choice h1 h2 h3 _ ih =>
    obtain ⟨d', k1, k2⟩ := h.to h1
    exact .choice k1 (k2.expr.trans h2) h3 ih
  | seq h1 h2 _ ih =>
    obtain ⟨d', k1, k2⟩ := h.to h1
    exact .seq k1 (k2.expr.trans h2) ih

theorem Relabeled.leftCall (h : Relabeled G G') {n m : N} (hn : LeftCall G n m) : LeftCall G' n m := by
  cases hn with
  | option h1 h2 h3 h4 =>
    obtain ⟨d', k1, k2⟩ := h.to h1
    exact .option k1 (k2.expr.trans h2) h3 (mt h.recurs_iff.2 h4)
  | item h1 h2 h3 =>
    obtain ⟨d', k1, k2⟩ := h.to h1
    exact .item k1 (k2.expr.trans h2) fun y hy hp => h.nullable (h3 y hy hp)

theorem Relabeled.leftCalls (h : Relabeled G G') {n m : N} (hn : LeftCalls G n m) : LeftCalls G' n m := by
  induction hn with
  | one h1 => exact .one (h.leftCall h1)
  | step h1 _ ih => exact .step (h.leftCall h1) ih

theorem Relabeled.recursion (h : Relabeled G G') (hr : OnlyDirectRecursion G) : OnlyDirectRecursion G' where
  free := fun n hn => hr.free n (h.symm.leftCalls hn)
  grows := by
    rintro n d os hd hos ⟨s, hs⟩
    obtain ⟨d', k1, k2⟩ := h.back hd
    obtain ⟨⟨fs, bs, ls, g1⟩, g2, g3⟩ := hr.grows n d' os k1 (k2.expr.symm.trans hos) ⟨s, h.symm.recurs hs⟩
    refine ⟨⟨fs, bs, ls, h.growth g1⟩, fun t e tail ht he hi => ?_, fun hn => g3 (h.symm.nullable hn)⟩
    obtain ⟨e', k3, k4⟩ := h.back he
    obtain ⟨x, h1, h2, h3⟩ := g2 t e' tail (h.symm.recurs ht) k3 (k4.expr.symm.trans hi)
    exact ⟨x, h1, h2, fun hn => h3 (h.symm.nullable hn)⟩
  sole := by
    intro n s m d h1 h2 h3
    obtain ⟨d', k1, k2⟩ := h.back h2
    exact hr.sole n s m d' (h.symm.recurs h1) k1 (by rw [← k2.expr]; exact h3)

/-- The aliases get the names `l`. -/
def relabel (l : N → Name) (G : Grammar N) : Grammar N := fun n =>
  (G n).map fun d => if d.alias then { d with name := l n } else d

theorem relabeled (l : N → Name) (G : Grammar N) : Relabeled G (relabel l G) := by
  have key : ∀ n (d : GDef N), RelabeledDef d (if d.alias then { d with name := l n } else d) := by
    intro n d
    by_cases h : d.alias = true
    · rw [if_pos h]
      refine ⟨rfl, fun _ _ _ _ => ?_⟩
      simp only [GDef.wrap, h, if_true]
    · rw [if_neg h]; exact .refl d
  refine ⟨fun {n d} h => ⟨_, by unfold relabel; rw [h]; rfl, key n d⟩, fun {n d'} h => ?_⟩
  obtain ⟨d, h1, rfl⟩ := Option.map_eq_some_iff.1 h
  exact ⟨d, h1, key n d⟩

end Treerack.Spec
