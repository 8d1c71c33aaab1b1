import Verif.Proofs.GenProgram
import Verif.Proofs.RefCalls

/-
An initialized syntax has what the generator relies on, when every character is used only by its own
class or character sequence.
-/

namespace Treerack

open Spec

/-- A single character. -/
def Spec.Expr.isChar {N : Type} : Expr N → Bool
  | .char _ _ _ => true
  | _ => false

/-- Every character is used in a single place, and it is not an option. -/
structure CharUse (G : Grammar Name) : Prop where
  once : ∀ {n m x gd ge gx} {i j : Nat}, G n = some gd → G m = some ge → gd.expr.refs[i]? = some x →
    ge.expr.refs[j]? = some x → G x = some gx → gx.expr.isChar = true → n = m ∧ i = j
  options : ∀ {n gd os o go}, G n = some gd → gd.expr = .choice os → o ∈ os → G o = some go →
    go.expr.isChar = false

theorem gdef_isChar (d : Def) : d.gdef.expr.isChar = d.kind.isChar := by
  unfold Def.gdef
  cases d.kind <;> rfl

theorem gdef_exprRefs (d : Def) : d.gdef.expr.refs = d.kind.refs := by
  unfold Def.gdef Expr.refs DKind.refs
  cases d.kind <;> simp [Function.comp_def]

/-- The reference of a child. -/
theorem Done.child_at {r : Registry} {h0 : Heap} {d : Def} (hres : d.kind.Resolved r h0) {q : Ptr} {i : Nat}
    (hq : d.toPDef.kind.children[i]? = some q) : ∃ n, d.kind.refs[i]? = some n ∧ r.lookup n = some q := by
  have key : ∀ {α : Type} (xs : List α) (f : α → Option Ptr) (ds : List Ptr), xs.map f = ds.map some → ds[i]? = some q →
      ∃ x, xs[i]? = some x ∧ f x = some q := by
    intro α xs f ds h1 h2
    have h3 : (xs.map f)[i]? = some (some q) := by rw [h1, List.getElem?_map, h2]; rfl
    rw [List.getElem?_map, Option.map_eq_some_iff] at h3
    exact h3
  unfold Def.toPDef at hq
  cases hk : d.kind with
  | char => simp [hk, PKind.children] at hq
  | choice os ds =>
    rw [hk] at hres
    simp only [hk, PKind.children] at hq
    exact key os _ ds hres hq
  | seq orig items ds rs ac =>
    rw [hk] at hres
    simp only [hk, PKind.children] at hq
    obtain ⟨x, h1, h2⟩ := key items _ ds hres.1 hq
    exact ⟨x.name, by simp [DKind.refs, h1], h2⟩

theorem InitOK.generatable {s s' : Syntax} {root : Ptr} (P : Prepared s root) (I : InitOK s root s')
    (hkw : ∀ k ∈ s.keywords, ∀ d, s.heap[k]? = some d → d.kind.isChar = false) (U : CharUse s.grammar) :
    Generatable s'.env root := by
  -- the definition before the initialization
  have hdef : ∀ {p : Ptr} {d : PDef}, Reach s'.env root p → s'.env.defs[p]? = some d → ∃ e e0 : Def, d = e.toPDef ∧
      s.heap[p]? = some e0 ∧ e.sk = e0.sk ∧ p ∈ s.registry.definitions ∧ e.kind.Resolved s.registry s.heap ∧
      s.grammar e0.name = some e0.gdef ∧ s.registry.lookup e0.name = some p := by
    intro p d hp hd
    obtain ⟨e, e1, rfl⟩ := Syntax.env_get hd
    obtain ⟨e0, g1, g2⟩ := I.sk.symm.to e1
    have hm := P.used_mem (I.reach hp)
    obtain ⟨e', k1, -, k2, -⟩ := I.done _ (I.reach hp)
    rw [e1] at k1
    obtain rfl := Option.some.inj k1
    have hl := P.lookup_name p e0 hm g1
    exact ⟨e, e0, rfl, g1, g2.symm, hm, k2, by simp [Syntax.grammar, hl, g1], hl⟩
  have hchar : ∀ {e e0 : Def}, e.sk = e0.sk → e.toPDef.kind.isChar = e0.gdef.expr.isChar := by
    intro e e0 he
    rw [toPDef_isChar, gdef_isChar, Def.sk_isChar he]
  have hchild : ∀ {p q : Ptr} {e e0 : Def} {i : Nat}, e.sk = e0.sk → e.kind.Resolved s.registry s.heap →
      e.toPDef.kind.children[i]? = some q → ∃ n, e0.gdef.expr.refs[i]? = some n ∧ s.registry.lookup n = some q := by
    intro p q e e0 i h1 h2 h3
    obtain ⟨n, h4, h5⟩ := Done.child_at h2 h3
    exact ⟨n, by rw [gdef_exprRefs, ← Def.sk_refs h1]; exact h4, h5⟩
  refine ⟨⟨?_, fun hp hd hq => .child hp hd hq, ?_, ?_, ?_⟩, ?_, ?_, ?_, ?_⟩
  · intro p hp
    obtain ⟨d', k1, -⟩ := I.done _ (I.reach hp)
    exact ⟨d'.toPDef, by simp [Syntax.env, k1]⟩
  · intro p q d e hp hq hd he _ _ hn
    obtain ⟨d1, d2, rfl, -, g2, -, -, -, g6⟩ := hdef hp hd
    obtain ⟨e1, e2, rfl, -, k2, -, -, -, k6⟩ := hdef hq he
    have h1 : d2.name = e2.name := by rw [← Def.sk_name g2, ← Def.sk_name k2]; exact hn
    rw [h1, k6] at g6
    exact (Option.some.inj g6).symm
  · intro p q d e hp hq hd he hn
    obtain ⟨d1, d2, rfl, g1, g2, g3, -⟩ := hdef hp hd
    obtain ⟨e1, e2, rfl, k1, k2, k3, -⟩ := hdef hq he
    exact P.ids p q d2 e2 g3 k3 g1 k1 (by rw [← Def.sk_id g2, ← Def.sk_id k2]; exact hn)
  · intro p q c d e f i j hp hq hd he hc hc' hf hfc
    have hrc : Reach s'.env root c := .child hp hd (List.mem_of_getElem? hc)
    obtain ⟨d1, d2, rfl, g1, g2, g3, g4, g5, g6⟩ := hdef hp hd
    obtain ⟨e1, e2, rfl, k1, k2, k3, k4, k5, k6⟩ := hdef hq he
    obtain ⟨f1, f2, rfl, m1, m2, m3, m4, m5, m6⟩ := hdef hrc hf
    obtain ⟨x, x1, x2⟩ := hchild (p := p) g2 g4 hc
    obtain ⟨y, y1, y2⟩ := hchild (p := q) k2 k4 hc'
    have hx := P.name_lookup _ _ _ x2 m1
    have hy := P.name_lookup _ _ _ y2 m1
    rw [← hx] at x1
    rw [← hy] at y1
    obtain ⟨h1, h2⟩ := U.once g5 k5 x1 y1 m5 (by rw [← hchar m2]; exact hfc)
    refine ⟨?_, h2⟩
    rw [h1, k6] at g6
    exact (Option.some.inj g6).symm
  · intro p d hp hd
    obtain ⟨e, e0, rfl, -⟩ := hdef hp hd
    rfl
  · intro d hd
    obtain ⟨e, e0, rfl, g1, g2, -⟩ := hdef .root hd
    obtain ⟨d0, k1, k2, -⟩ := P.rootDef
    rw [g1] at k1
    obtain rfl := Option.some.inj k1
    rw [toPDef_isChar, Def.sk_isChar g2]; exact k2
  · intro k hk d hd
    obtain ⟨e, e0, rfl, g1, g2, -⟩ := hdef (.keyword hk) hd
    rw [toPDef_isChar, Def.sk_isChar g2]
    refine hkw k ?_ e0 g1
    have : s'.keywords = s.keywords := by rw [I.same]
    rw [← this]; exact hk
  · intro p d os hp hd hk o ho e he
    obtain ⟨i, hi⟩ := List.getElem?_of_mem ho
    have hrc : Reach s'.env root o := .child hp hd (by rw [hk]; exact ho)
    obtain ⟨d1, d2, rfl, g1, g2, g3, g4, g5, g6⟩ := hdef hp hd
    obtain ⟨f1, f2, rfl, m1, m2, m3, m4, m5, m6⟩ := hdef hrc he
    obtain ⟨x, x1, x2⟩ := hchild (p := p) (i := i) g2 g4 (by rw [hk]; exact hi)
    have hx := P.name_lookup _ _ _ x2 m1
    rw [← hx] at x1
    rw [hchar m2]
    have hsk : d1.sk.kind = d2.sk.kind := by rw [g2]
    simp only [Def.sk] at hsk
    obtain ⟨os', ho'⟩ : ∃ os', d2.gdef.expr = .choice os' := by
      unfold Def.toPDef at hk
      unfold Def.gdef
      cases h1 : d1.kind <;> cases h2 : d2.kind <;> simp_all [DKind.sk]
    refine U.options g5 ho' ?_ m5
    rw [ho'] at x1
    exact List.mem_of_getElem? x1

/-- The name of a character has a single owner. -/
theorem charName_inj {n m : Name} {i j : Nat} (h : charName n i = charName m j) : n = m ∧ i = j := by
  rw [charName_eq, charName_eq] at h
  have hp := congrArg List.reverse h
  unfold childName at hp
  simp only [List.reverse_append, List.reverse_cons, List.nil_append, List.append_assoc, List.cons_append] at hp
  have hn : ∀ k, NoColon (itoa k).reverse := fun k hk => itoa_noColon k (List.mem_reverse.1 hk)
  obtain ⟨h1, h2⟩ := split_colon (hn i) (hn j) hp
  exact ⟨List.reverse_inj.1 h2, itoa_inj (List.reverse_inj.1 h1)⟩

end Treerack
