import Verif.Proofs.Link
import Verif.Proofs.Morphism
import Verif.Spec.Api

/-
The linked parsers derive what the named definitions derive.
-/

namespace Treerack
open Spec

theorem bounds_normalize (i : SeqItem) :
    bounds (normalizeItemRange i).min (normalizeItemRange i).max = bounds i.min i.max ∧
    bounds i.min i.max = itemRange (normalizeItemRange i) := by
  rcases i with ⟨n, mn, mx⟩
  rw [normalizeItemRange_eq]
  simp only [bounds, itemRange]
  by_cases h0 : mn = 0 ∧ mx = 0
  · obtain ⟨rfl, rfl⟩ := h0; simp
  · simp only [if_neg h0, and_true]
    by_cases h1 : mn ≤ 0 <;> by_cases h2 : mx ≤ 0
    · simp [h1, h2]
    · have : ¬ mx = 0 := by omega
      simp [h1, h2, this]
    · have : ¬ mn = 0 := by omega
      simp [h1, h2]
    · have : ¬ mn = 0 := by omega
      simp [h1, h2, this]

theorem Def.gdef_sk {d e : Def} (h : d.sk = e.sk) : d.gdef = e.gdef := by
  have h1 := Def.sk_name h
  have h2 := Def.sk_commit h
  have h3 := Def.sk_isChar h
  have hk : d.sk.kind = e.sk.kind := by rw [h]
  simp only [Def.sk] at hk
  unfold Def.gdef Def.commitType
  rw [h1]
  have key : ∀ items : List SeqItem, items.map (fun i => (i.name, bounds i.min i.max)) =
      (items.map normalizeItemRange).map (fun i => (i.name, bounds i.min i.max)) := by
    intro items
    simp [normalizeItemRange_name, (bounds_normalize _).1]
  cases hd : d.kind <;> cases he : e.kind <;> rw [hd, he] at hk <;> simp [DKind.sk] at hk
  · obtain ⟨rfl, rfl, rfl⟩ := hk; rfl
  · subst hk; simp [h2]
  · simp only [h2, GDef.mk.injEq, Expr.seq.injEq, true_and]
    rw [key, hk.2, ← key]

theorem Syntax.grammar_sk {s s' : Syntax} (h : SameSk s.heap s'.heap) (hr : s'.registry = s.registry) :
    s'.grammar = s.grammar := by
  funext n
  unfold Syntax.grammar
  rw [hr]
  cases s.registry.lookup n with
  | none => rfl
  | some p =>
    simp only [Option.bind_some]
    have := h p
    cases h1 : s.heap[p]? <;> cases h2 : s'.heap[p]? <;> rw [h1, h2] at this <;> simp at this
    simp [Def.gdef_sk this]

/-- The name of the definition at an address. -/
def Syntax.nameAt (s : Syntax) (p : Ptr) : Name := ((s.heap[p]?).map Def.name).getD []

theorem map_lookup_eq {f : Name → Option Ptr} {g : Ptr → Name} (h : ∀ n p, f n = some p → g p = n) :
    ∀ (os : List Name) (ds : List Ptr), os.map f = ds.map some → os = ds.map g
  | [], [], _ => rfl
  | [], _ :: _, e => by simp at e
  | _ :: _, [], e => by simp at e
  | o :: os, d :: ds, e => by
    simp only [List.map_cons, List.cons.injEq] at e
    simp only [List.map_cons, List.cons.injEq]
    exact ⟨(h o d e.1).symm, map_lookup_eq h os ds e.2⟩

theorem map_items_eq {f : Name → Option Ptr} {g : Ptr → Name} (h : ∀ n p, f n = some p → g p = n) :
    ∀ (items : List SeqItem) (ds : List Ptr) (rs t : List (Int × Int)),
      items.map (fun i => f i.name) = ds.map some → (∀ i ∈ items, normalizeItemRange i = i) →
      rs = items.map itemRange ++ t →
      items.map (fun i => (i.name, bounds i.min i.max)) =
        (ds.zip rs).map (fun x => (g x.1, x.2.1, x.2.2))
  | [], [], _, _, _, _, _ => by simp
  | [], _ :: _, _, _, e, _, _ => by simp at e
  | _ :: _, [], _, _, e, _, _ => by simp at e
  | i :: items, d :: ds, rs, t, e, hn, hr => by
    simp only [List.map_cons, List.cons.injEq] at e
    subst hr
    simp only [List.map_cons, List.cons_append, List.zip_cons_cons, List.cons.injEq, Prod.mk.injEq]
    refine ⟨⟨(h _ d e.1).symm, ?_⟩, map_items_eq h items ds _ t e.2 (fun x hx => hn x (by simp [hx])) rfl⟩
    rw [(bounds_normalize i).2, hn i (by simp)]

theorem map_fix {f : SeqItem → SeqItem} : ∀ {l : List SeqItem}, l.map f = l → ∀ i ∈ l, f i = i
  | [], _, _, h => by cases h
  | a :: l, e, i, h => by
    simp only [List.map_cons, List.cons.injEq] at e
    rcases List.mem_cons.1 h with rfl | h
    · exact e.1
    · exact map_fix e.2 i h

theorem InitOK.morphism {s : Syntax} {root : Ptr} {s' : Syntax} (hp : Prepared s root)
    (hi : InitOK s root s') :
    Morphism s'.env.grammar s.grammar (Reach s'.env root) s'.nameAt := by
  have hreg : s'.registry = s.registry := by rw [hi.same]
  rw [← Syntax.grammar_sk hi.sk hreg]
  have hlook : ∀ n p, s.registry.lookup n = some p → s'.nameAt p = n := by
    intro n p h
    have hl := hp.lookup_lt n p h
    obtain ⟨d', g1, g2⟩ := hi.sk.to (List.getElem?_eq_getElem hl)
    simp only [Syntax.nameAt, g1, Option.map_some, Option.getD_some]
    rw [Def.sk_name g2]
    exact hp.name_lookup n p _ h (List.getElem?_eq_getElem hl)
  refine ⟨?_, ?_⟩
  · intro p hr
    have hu := hi.reach hr
    obtain ⟨d, k1, -, k2, k3⟩ := hi.done _ hu
    have hd : s'.env.defs[p]? = some d.toPDef := by simp [Syntax.env, k1]
    refine ⟨_, Env.grammar_some hd, ?_⟩
    obtain ⟨d0, g1, g2⟩ := hi.sk.symm.to k1
    have hl := hp.lookup_name p d0 (hp.used_mem hu) g1
    have hn : s'.nameAt p = d.name := by simp [Syntax.nameAt, k1]
    rw [hn]
    unfold Syntax.grammar
    rw [hreg, ← Def.sk_name g2, hl]
    simp only [Option.bind_some, k1, Option.map_some]
    congr 1
    unfold Def.gdef GDef.map
    simp only [GDef.mk.injEq]
    refine ⟨rfl, rfl, ?_⟩
    unfold Def.toPDef
    cases hk : d.kind with
    | char => rfl
    | choice os ds =>
      rw [hk] at k2
      simp only [DKind.Resolved] at k2
      simp only [PKind.expr, Expr.map, Expr.choice.injEq]
      exact map_lookup_eq hlook os ds k2
    | seq orig items ds rs ac =>
      rw [hk] at k2
      simp only [DKind.Resolved] at k2
      obtain ⟨a1, a2, ⟨t, a3⟩, -⟩ := k2
      simp only [PKind.expr, Expr.map, Expr.seq.injEq]
      exact map_items_eq hlook items ds rs t a1 (fun i hi' => map_fix a2.symm i hi') a3
  · intro p gd hr hg q hq
    obtain ⟨d, k1, -, k2, k3⟩ := hi.done _ (hi.reach hr)
    have hd : s'.env.defs[p]? = some d.toPDef := by simp [Syntax.env, k1]
    rw [Env.grammar_some hd] at hg
    cases hg
    refine .child hr hd ?_
    cases hk : d.toPDef.kind with
    | char => rw [hk] at hq; simp [PKind.expr, Expr.refs] at hq
    | choice os => rw [hk] at hq; exact hq
    | seq is rs ac =>
      rw [hk] at hq
      simp only [PKind.expr, Expr.refs] at hq
      obtain ⟨x, h1, rfl⟩ := List.mem_map.1 hq
      exact (List.of_mem_zip h1).1

end Treerack
