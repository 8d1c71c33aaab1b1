import Verif.Proofs.Document
import Verif.Proofs.Step
import Verif.Proofs.RefCalls

/-
The grammar of the definition calls of a document derives what the document means.
-/

namespace Treerack
open Spec

theorem charNames_derive {G : Grammar Name} {input : List Rune} : ∀ (l : List (Name × Rune)),
    (∀ x ∈ l, ∃ nm al, G x.1 = some { name := nm, alias := al, expr := .char false [x.2] [] }) →
    ∀ i j, ItemsOf (Derives G input) (l.map fun x => once x.1) i j ↔
      j = i + l.length ∧ (input.drop i).take l.length = l.map Prod.snd
  | [], _, i, j => by
    simp only [List.map_nil, List.length_nil, Nat.add_zero, List.take_zero, and_true]
    exact ⟨fun h => by cases h; rfl, fun h => by subst h; exact .nil⟩
  | x :: l, hl, i, j => by
    obtain ⟨nm, al, hG⟩ := hl x (List.mem_cons_self ..)
    have ih := charNames_derive (input := input) l (fun y hy => hl y (List.mem_cons_of_mem _ hy))
    have hx : ∀ a b, Derives G input x.1 a b ↔ input[a]? = some x.2 ∧ b = a + 1 := by
      intro a b
      rw [derives_iff]
      constructor
      · rintro ⟨d, h1, h2⟩
        rw [hG] at h1
        obtain rfl := Option.some.inj h1
        obtain ⟨t, h3, h4, rfl⟩ := h2
        simp only [InClass, List.mem_singleton, List.not_mem_nil, false_and, exists_false, or_false, iff_true] at h4
        exact ⟨by rw [h3, h4], rfl⟩
      · rintro ⟨h1, rfl⟩
        exact ⟨_, hG, _, h1, by simp [InClass], rfl⟩
    have htake : (input.drop i).take (l.length + 1) = x.2 :: l.map Prod.snd ↔
        input[i]? = some x.2 ∧ (input.drop (i + 1)).take l.length = l.map Prod.snd := by
      rw [← List.drop_drop]
      cases hd : input.drop i with
      | nil =>
        have : input[i]? = none := by
          rw [List.getElem?_eq_none_iff]
          exact List.drop_eq_nil_iff.1 hd
        simp [this]
      | cons y ys =>
        have : input[i]? = some y := by
          have := congrArg (·[0]?) hd
          simpa using this
        simp [this]
    simp only [List.map_cons, List.length_cons]
    rw [htake]
    constructor
    · intro h
      cases h with
      | @cons n mn mx items k i m j h1 h2 h3 =>
        have hk : k = 1 := by
          rcases h2 with h2 | h2
          · have := h2.2 (by omega)
            omega
          · omega
        subst hk
        rw [TimesOf.one, hx] at h1
        obtain ⟨h1, rfl⟩ := h1
        rw [ih] at h3
        exact ⟨by omega, h1, h3.2⟩
    · rintro ⟨rfl, h1, h2⟩
      refine .cons (k := 1) (m := i + 1) (TimesOf.one.2 ((hx _ _).2 ⟨h1, rfl⟩)) (Or.inl ⟨by simp, by simp⟩) ?_
      rw [ih]
      exact ⟨by omega, h2⟩

/-- One occurrence. -/
theorem itemsOf_once {D : Name → Nat → Nat → Prop} {n : Name} {i j : Nat} : ItemsOf D [once n] i j ↔ D n i j := by
  constructor
  · intro h
    cases h with
    | @cons n mn mx items k i m j h1 h2 h3 =>
      have hk : k = 1 := by
        rcases h2 with h2 | h2
        · have := h2.2 (by omega)
          omega
        · omega
      subst hk
      cases h3
      exact TimesOf.one.1 h1
  · intro h
    exact .cons (k := 1) (TimesOf.one.2 h) (Or.inl ⟨by simp, by simp⟩) .nil

theorem inRange_bounds (mn mx : Int) (k : Nat) : InRange (bounds mn mx).1 (bounds mn mx).2 k ↔
    (mn = 0 ∧ mx = 0 ∧ k = 1) ∨ (¬ (mn = 0 ∧ mx = 0) ∧ ((mn ≤ k ∧ (0 < mx → (k : Int) ≤ mx)) ∨ (0 < mx ∧ mx < mn ∧ (k : Int) = mx))) := by
  unfold bounds InRange
  by_cases h : mn = 0 ∧ mx = 0
  · rw [if_pos h]; simp only; omega
  · rw [if_neg h]
    simp only
    by_cases h1 : mn ≤ 0
    · by_cases h2 : mx ≤ 0
      · rw [if_pos h1, if_pos h2]; omega
      · rw [if_pos h1, if_neg h2]; omega
    · by_cases h2 : mx ≤ 0
      · rw [if_neg h1, if_pos h2]; omega
      · rw [if_neg h1, if_neg h2]; omega

theorem itemRange_allowed {q : Option Quantifier} (hq : ∀ x, q = some x → x.Sound) (k : Nat) :
    InRange (bounds (Spec.itemRange q).1 (Spec.itemRange q).2).1 (bounds (Spec.itemRange q).1 (Spec.itemRange q).2).2 k ↔ allowed q k := by
  rw [inRange_bounds]
  cases q with
  | none => simp [Spec.itemRange, allowed]
  | some x =>
    have := hq x rfl
    cases x <;> simp only [Quantifier.Sound] at this <;>
      simp only [Spec.itemRange, Quantifier.range, allowed, Quantifier.allows] <;> first | omega | (simp only [iff_true]; omega)

/-- The definitions of the calls are in the grammar. -/
def Stands (G : Grammar Name) (cs : List Call) : Prop := ∀ c ∈ cs, ∀ x ∈ c.defs, G x.1 = some x.2

theorem Stands.left {G : Grammar Name} {a b : List Call} (h : Stands G (a ++ b)) : Stands G a :=
  fun c hc => h c (List.mem_append_left _ hc)
theorem Stands.right {G : Grammar Name} {a b : List Call} (h : Stands G (a ++ b)) : Stands G b :=
  fun c hc => h c (List.mem_append_right _ hc)

/-- A symbol that is defined is defined in the document. -/
def Resolved (G : Grammar Name) (doc : Document) (m : Name) : Prop := ∀ gd, G m = some gd → ∃ d ∈ doc, d.name = m

structure Body (G : Grammar Name) (doc : Document) (n : Name) (ct : Commit) (e : DExpr) : Prop where
  stands : Stands G (e.calls n ct)
  symbols : ∀ m ∈ e.symbols, Resolved G doc m
  sound : e.Sound

structure ItemsBody (G : Grammar Name) (doc : Document) (n : Name) (ct : Commit) (i : Nat) (e : DItems) : Prop where
  stands : Stands G (e.calls n ct i)
  symbols : ∀ m ∈ e.symbols, Resolved G doc m
  sound : e.Sound

structure OptionsBody (G : Grammar Name) (doc : Document) (n : Name) (ct : Commit) (i : Nat) (e : DOptions) : Prop where
  stands : Stands G (e.calls n ct i)
  symbols : ∀ m ∈ e.symbols, Resolved G doc m
  sound : e.Sound

/-- The name refers to a definition with the expression. -/
inductive RefTo (G : Grammar Name) (doc : Document) : Name → DExpr → Prop
  | symbol {m : Name} : Resolved G doc m → RefTo G doc m (.symbol m)
  | body {n : Name} {ct : Commit} {e : DExpr} : Body G doc n ct e → RefTo G doc n e

theorem ItemsBody.cons {G : Grammar Name} {doc : Document} {n : Name} {ct : Commit} {i : Nat} {e : DExpr} {q : Option Quantifier}
    {rest : DItems} (h : ItemsBody G doc n ct i (.cons e q rest)) :
    RefTo G doc (memberName n i e) e ∧ (∀ x, q = some x → x.Sound) ∧ ItemsBody G doc n ct (i + 1) rest := by
  obtain ⟨h1, h2, h3⟩ := h
  simp only [DItems.symbols, List.mem_append] at h2
  simp only [DItems.Sound] at h3
  have hs : ∀ {x : List Call}, Stands G (x ++ rest.calls n ct (i + 1)) → ItemsBody G doc n ct (i + 1) rest :=
    fun h => ⟨h.right, fun m hm => h2 m (Or.inr hm), h3.2.2⟩
  have hb : ∀ m ∈ e.symbols, Resolved G doc m := fun m hm => h2 m (Or.inl hm)
  refine ⟨?_, h3.2.1, ?_⟩
  · cases e <;> first
      | exact RefTo.symbol (m := ‹Name›) (hb ‹Name› (List.mem_singleton.2 rfl))
      | (simp only [DItems.calls] at h1; exact .body ⟨h1.left, hb, h3.1⟩)
  · cases e <;> simp only [DItems.calls] at h1 <;> first | exact hs h1 | exact hs (x := []) h1

theorem OptionsBody.cons {G : Grammar Name} {doc : Document} {n : Name} {ct : Commit} {i : Nat} {e : DExpr}
    {rest : DOptions} (h : OptionsBody G doc n ct i (.cons e rest)) :
    RefTo G doc (memberName n i e) e ∧ OptionsBody G doc n ct (i + 1) rest := by
  obtain ⟨h1, h2, h3⟩ := h
  simp only [DOptions.symbols, List.mem_append] at h2
  simp only [DOptions.Sound] at h3
  have hs : ∀ {x : List Call}, Stands G (x ++ rest.calls n ct (i + 1)) → OptionsBody G doc n ct (i + 1) rest :=
    fun h => ⟨h.right, fun m hm => h2 m (Or.inr hm), h3.2⟩
  have hb : ∀ m ∈ e.symbols, Resolved G doc m := fun m hm => h2 m (Or.inl hm)
  refine ⟨?_, ?_⟩
  · cases e <;> first
      | exact RefTo.symbol (m := ‹Name›) (hb ‹Name› (List.mem_singleton.2 rfl))
      | (simp only [DOptions.calls] at h1; exact .body ⟨h1.left, hb, h3.1⟩)
  · cases e <;> simp only [DOptions.calls] at h1 <;> first | exact hs h1 | exact hs (x := []) h1

/-- The right hand sides. -/
theorem Body.any {G : Grammar Name} {doc : Document} {n : Name} {ct : Commit} (h : Body G doc n ct .any) :
    (∃ al, G (charName n 0) = some { name := charName n 0, alias := al, expr := .char true [] [] }) ∧
    ∃ gd, G n = some gd ∧ gd.expr = .seq [once (charName n 0)] := by
  have := h.stands _ (by simp only [DExpr.calls]; exact List.mem_singleton.2 rfl)
  exact ⟨⟨_, this _ (List.mem_cons_self ..)⟩, _, this _ (List.mem_cons_of_mem _ (List.mem_cons_self ..)), rfl⟩

theorem Body.class_ {G : Grammar Name} {doc : Document} {n : Name} {ct : Commit} {neg : Bool} {cs : List Rune}
    {rs : List (Rune × Rune)} (h : Body G doc n ct (.class_ neg cs rs)) :
    (∃ al, G (charName n 0) = some { name := charName n 0, alias := al, expr := .char neg cs rs }) ∧
    ∃ gd, G n = some gd ∧ gd.expr = .seq [once (charName n 0)] := by
  have := h.stands _ (by simp only [DExpr.calls]; exact List.mem_singleton.2 rfl)
  exact ⟨⟨_, this _ (List.mem_cons_self ..)⟩, _, this _ (List.mem_cons_of_mem _ (List.mem_cons_self ..)), rfl⟩

theorem Body.chars {G : Grammar Name} {doc : Document} {n : Name} {ct : Commit} {cs : List Rune}
    (h : Body G doc n ct (.chars cs)) :
    (∀ x ∈ cs.zipIdx, ∃ nm al, G (charName n x.2) = some { name := nm, alias := al, expr := .char false [x.1] [] }) ∧
    ∃ gd, G n = some gd ∧ gd.expr = .seq ((cs.zipIdx.map fun x => (charName n x.2, x.1)).map fun x => once x.1) := by
  have := h.stands _ (by simp only [DExpr.calls]; exact List.mem_singleton.2 rfl)
  refine ⟨fun x hx => ⟨_, _, this (charDef (charName n x.2) false [x.1] []) ?_⟩, _, this _ (List.mem_append_right _ (List.mem_singleton.2 rfl)), ?_⟩
  · simp only [Call.defs, List.mem_append]
    exact Or.inl (List.mem_map.2 ⟨x, hx, rfl⟩)
  · simp only [Expr.seq.injEq]
    rw [List.map_map]
    rw [show ((fun x : Name × Rune => once x.1) ∘ fun x : Rune × Nat => (charName n x.2, x.1)) =
      (fun i => once (charName n i)) ∘ Prod.snd from rfl, ← List.map_map, List.zipIdx_map_snd, List.range_eq_range']

theorem Body.symbol {G : Grammar Name} {doc : Document} {n m : Name} {ct : Commit} (h : Body G doc n ct (.symbol m)) :
    ∃ gd, G n = some gd ∧ gd.expr = .seq [once m] := by
  have := h.stands _ (by simp only [DExpr.calls]; exact List.mem_singleton.2 rfl)
  exact ⟨_, this _ (List.mem_cons_self ..), rfl⟩

def SeqItem.bounded (it : SeqItem) : Name × Int × Int := (it.name, bounds it.min it.max)

theorem Body.seq {G : Grammar Name} {doc : Document} {n : Name} {ct : Commit} {items : DItems} (h : Body G doc n ct (.seq items)) :
    ItemsBody G doc n ct 0 items ∧ ∃ gd, G n = some gd ∧ gd.expr = .seq ((items.refs n 0).map SeqItem.bounded) := by
  have h1 := h.stands
  simp only [DExpr.calls] at h1
  have := h1.right _ (List.mem_singleton.2 rfl)
  refine ⟨⟨h1.left, h.symbols, h.sound⟩, _, this _ (List.mem_cons_self ..), rfl⟩

theorem Body.choice {G : Grammar Name} {doc : Document} {n : Name} {ct : Commit} {os : DOptions} (h : Body G doc n ct (.choice os)) :
    OptionsBody G doc n ct 0 os ∧ ∃ gd, G n = some gd ∧ gd.expr = .choice (os.refs n 0) := by
  have h1 := h.stands
  simp only [DExpr.calls] at h1
  have := h1.right _ (List.mem_singleton.2 rfl)
  refine ⟨⟨h1.left, h.symbols, h.sound⟩, _, this _ (List.mem_cons_self ..), rfl⟩

section

variable {G : Grammar Name} {doc : Document} {input : List Rune}
variable (hdoc : ∀ d ∈ doc, ∃ ct, Body G doc d.name ct d.expr)
include hdoc

mutual

theorem Means.derives : ∀ {e : DExpr} {i j : Nat}, Means doc input e i j → ∀ {n : Name}, RefTo G doc n e →
    Derives G input n i j
  | _, i, _, .any ht, n, hr => by
    cases hr with
    | body hb =>
      obtain ⟨⟨al, h1⟩, gd, h2, h3⟩ := hb.any
      exact derives_iff.2 ⟨gd, h2, by rw [h3]; exact itemsOf_once.2 (derives_iff.2 ⟨_, h1, _, ht, by simp [InClass], rfl⟩)⟩
  | _, i, _, .class_ ht hc, n, hr => by
    cases hr with
    | body hb =>
      obtain ⟨⟨al, h1⟩, gd, h2, h3⟩ := hb.class_
      exact derives_iff.2 ⟨gd, h2, by rw [h3]; exact itemsOf_once.2 (derives_iff.2 ⟨_, h1, _, ht, hc, rfl⟩)⟩
  | _, i, _, .chars (cs := cs) ht, n, hr => by
    cases hr with
    | body hb =>
      obtain ⟨h1, gd, h2, h3⟩ := hb.chars
      refine derives_iff.2 ⟨gd, h2, ?_⟩
      rw [h3]
      refine (charNames_derive _ ?_ _ _).2 ⟨by simp, ?_⟩
      · intro x hx
        obtain ⟨y, hy, rfl⟩ := List.mem_map.1 hx
        exact h1 y hy
      · simp only [List.length_map, List.length_zipIdx, List.map_map]
        rw [show (Prod.snd ∘ fun x : Rune × Nat => (charName n x.2, x.1)) = Prod.fst from rfl, List.zipIdx_map_fst]
        exact ht
  | _, i, j, .symbol hd hm, n, hr => by
    obtain ⟨ct, hb'⟩ := hdoc _ hd
    have hm' := Means.derives hm (.body hb')
    cases hr with
    | symbol _ => exact hm'
    | body hb =>
      obtain ⟨gd, h2, h3⟩ := hb.symbol
      exact derives_iff.2 ⟨gd, h2, by rw [h3]; exact itemsOf_once.2 hm'⟩
  | _, i, j, .seq hm, n, hr => by
    cases hr with
    | body hb =>
      obtain ⟨h1, gd, h2, h3⟩ := hb.seq
      exact derives_iff.2 ⟨gd, h2, by rw [h3]; exact MeansItems.derives hm h1⟩
  | _, i, j, .choice hm, n, hr => by
    cases hr with
    | body hb =>
      obtain ⟨h1, gd, h2, h3⟩ := hb.choice
      exact derives_iff.2 ⟨gd, h2, by rw [h3]; exact MeansOptions.derives hm h1⟩

theorem MeansItems.derives : ∀ {items : DItems} {i j : Nat}, MeansItems doc input items i j → ∀ {n : Name} {ct : Commit} {x : Nat},
    ItemsBody G doc n ct x items → ItemsOf (Derives G input) ((items.refs n x).map SeqItem.bounded) i j
  | _, _, _, .nil, _, _, _, _ => .nil
  | _, _, _, .cons h1 h2 h3, _, _, _, hb => by
    obtain ⟨k1, k2, k3⟩ := hb.cons
    exact .cons (MeansTimes.derives h1 k1) ((itemRange_allowed k2 _).2 h2) (MeansItems.derives h3 k3)

theorem MeansTimes.derives : ∀ {e : DExpr} {k i j : Nat}, MeansTimes doc input e k i j → ∀ {n : Name},
    RefTo G doc n e → TimesOf (Derives G input n) k i j
  | _, _, _, _, .zero, _, _ => .zero
  | _, _, _, _, .succ h1 h2, _, hr => .succ (MeansTimes.derives h1 hr) (Means.derives h2 hr)

theorem MeansOptions.derives : ∀ {os : DOptions} {i j : Nat}, MeansOptions doc input os i j → ∀ {n : Name} {ct : Commit} {x : Nat},
    OptionsBody G doc n ct x os → ∃ o ∈ os.refs n x, Derives G input o i j
  | _, _, _, .here h, _, _, _, hb => ⟨_, List.mem_cons_self .., Means.derives h hb.cons.1⟩
  | _, _, _, .there h, _, _, _, hb => by
    obtain ⟨o, h1, h2⟩ := MeansOptions.derives h hb.cons.2
    exact ⟨o, List.mem_cons_of_mem _ h1, h2⟩

end

omit hdoc in
theorem itemsOf_means {P : Name → Nat → Nat → Prop} (hP : ∀ n i j, P n i j → ∀ e, RefTo G doc n e → Means doc input e i j) :
    ∀ (items : DItems) {i j : Nat} {n : Name} {ct : Commit} {x : Nat}, ItemsBody G doc n ct x items →
    ItemsOf P ((items.refs n x).map SeqItem.bounded) i j → MeansItems doc input items i j
  | .nil, _, _, _, _, _, _, h => by cases h; exact .nil
  | .cons e q rest, i, j, n, ct, x, hb, h => by
    obtain ⟨k1, k2, k3⟩ := hb.cons
    simp only [DItems.refs, List.map_cons] at h
    generalize hy : SeqItem.bounded _ = y at h
    obtain ⟨y1, y2, y3⟩ := y
    simp only [SeqItem.bounded, Prod.mk.injEq, Prod.ext_iff] at hy
    obtain ⟨rfl, rfl, rfl⟩ := hy
    cases h with
    | @cons _ mn mx items k i m j h1 h2 h3 =>
      refine .cons (k := k) ?_ ((itemRange_allowed k2 _).1 h2) (itemsOf_means hP rest k3 h3)
      clear h2 h3
      generalize memberName n x e = r at h1 k1
      induction h1 with
      | zero => exact .zero
      | succ _ d ih => exact .succ ih (hP _ _ _ d _ k1)

omit hdoc in
theorem options_means {P : Name → Nat → Nat → Prop} (hP : ∀ n i j, P n i j → ∀ e, RefTo G doc n e → Means doc input e i j) :
    ∀ (os : DOptions) {i j : Nat} {n : Name} {ct : Commit} {x : Nat}, OptionsBody G doc n ct x os →
    (∃ o ∈ os.refs n x, P o i j) → MeansOptions doc input os i j
  | .nil, _, _, _, _, _, _, h => by obtain ⟨o, h, -⟩ := h; cases h
  | .cons e rest, i, j, n, ct, x, hb, ⟨o, h1, h2⟩ => by
    obtain ⟨k1, k2⟩ := hb.cons
    rcases List.mem_cons.1 h1 with rfl | h1
    · exact .here (hP _ _ _ h2 _ k1)
    · exact .there (options_means hP rest k2 ⟨o, h1, h2⟩)

theorem Derives.means {n : Name} {i j : Nat} (h : Derives G input n i j) :
    ∀ {e : DExpr}, RefTo G doc n e → Means doc input e i j := by
  refine Derives.induct' (P := fun n i j => ∀ {e : DExpr}, RefTo G doc n e → Means doc input e i j) ?_ h
  intro n gd i j hG hs
  have key : ∀ {e : DExpr} {ct : Commit}, Body G doc n ct e → Means doc input e i j := by
    intro e ct hb
    cases e with
    | any =>
      obtain ⟨⟨al, h1⟩, gd', h2, h3⟩ := hb.any
      obtain rfl := Option.some.inj (hG.symm.trans h2)
      rw [h3] at hs
      obtain ⟨d, k1, k2⟩ := derives_iff.1 (itemsOf_once.1 hs).1
      obtain rfl := Option.some.inj (h1.symm.trans k1)
      obtain ⟨t, k3, -, rfl⟩ := k2
      exact .any k3
    | class_ neg cs rs =>
      obtain ⟨⟨al, h1⟩, gd', h2, h3⟩ := hb.class_
      obtain rfl := Option.some.inj (hG.symm.trans h2)
      rw [h3] at hs
      obtain ⟨d, k1, k2⟩ := derives_iff.1 (itemsOf_once.1 hs).1
      obtain rfl := Option.some.inj (h1.symm.trans k1)
      obtain ⟨t, k3, k4, rfl⟩ := k2
      exact .class_ k3 k4
    | chars cs =>
      obtain ⟨h1, gd', h2, h3⟩ := hb.chars
      obtain rfl := Option.some.inj (hG.symm.trans h2)
      rw [h3] at hs
      have := (charNames_derive (input := input) _ (by
        intro x hx
        obtain ⟨y, hy, rfl⟩ := List.mem_map.1 hx
        exact h1 y hy) _ _).1 (ItemsOf.mono hs fun _ _ _ _ h => h.1)
      simp only [List.length_map, List.length_zipIdx, List.map_map] at this
      rw [show (Prod.snd ∘ fun x : Rune × Nat => (charName n x.2, x.1)) = Prod.fst from rfl, List.zipIdx_map_fst] at this
      rw [this.1]
      exact .chars this.2
    | symbol m =>
      obtain ⟨gd', h2, h3⟩ := hb.symbol
      obtain rfl := Option.some.inj (hG.symm.trans h2)
      rw [h3] at hs
      exact (itemsOf_once.1 hs).2 (.symbol (hb.symbols m (by simp [DExpr.symbols])))
    | seq items =>
      obtain ⟨h1, gd', h2, h3⟩ := hb.seq
      obtain rfl := Option.some.inj (hG.symm.trans h2)
      rw [h3] at hs
      exact .seq (itemsOf_means (fun _ _ _ h _ hr => h.2 hr) items h1 hs)
    | choice os =>
      obtain ⟨h1, gd', h2, h3⟩ := hb.choice
      obtain rfl := Option.some.inj (hG.symm.trans h2)
      rw [h3] at hs
      obtain ⟨o, k1, k2⟩ := hs
      exact .choice (options_means (P := fun n i j => Derives G input n i j ∧ ∀ {e : DExpr}, RefTo G doc n e → Means doc input e i j)
        (fun _ _ _ h _ hr => h.2 hr) os h1 ⟨o, k1, k2⟩)
  intro e hr
  cases hr with
  | symbol hm =>
    obtain ⟨d, hd, rfl⟩ := hm gd hG
    obtain ⟨ct, hb⟩ := hdoc d hd
    exact .symbol hd (key hb)
  | body hb => exact key hb

end

/-! ### The names in the calls of a document -/

theorem colon_charName (n : Name) (i : Nat) : colon ∈ charName n i := by
  simp [charName, colon, runes]

mutual

theorem calls_names : ∀ (e : DExpr) {n : Name} {ct : Commit}, ∀ c ∈ e.calls n ct, c.name = n ∨ colon ∈ c.name
  | .any, n, ct, c, h => by simp only [DExpr.calls, List.mem_singleton] at h; subst h; exact Or.inl rfl
  | .class_ .., n, ct, c, h => by simp only [DExpr.calls, List.mem_singleton] at h; subst h; exact Or.inl rfl
  | .chars .., n, ct, c, h => by simp only [DExpr.calls, List.mem_singleton] at h; subst h; exact Or.inl rfl
  | .symbol .., n, ct, c, h => by simp only [DExpr.calls, List.mem_singleton] at h; subst h; exact Or.inl rfl
  | .seq items, n, ct, c, h => by
    simp only [DExpr.calls, List.mem_append, List.mem_singleton] at h
    rcases h with h | rfl
    · exact Or.inr (itemsCalls_names items c h)
    · exact Or.inl rfl
  | .choice os, n, ct, c, h => by
    simp only [DExpr.calls, List.mem_append, List.mem_singleton] at h
    rcases h with h | rfl
    · exact Or.inr (optionsCalls_names os c h)
    · exact Or.inl rfl

theorem itemsCalls_names : ∀ (items : DItems) {n : Name} {ct : Commit} {i : Nat}, ∀ c ∈ items.calls n ct i, colon ∈ c.name
  | .nil, _, _, _, _, h => by simp [DItems.calls] at h
  | .cons e q rest, n, ct, i, c, h => by
    have key : c ∈ e.calls (charName n i) (memberFlags ct) ∨ c ∈ rest.calls n ct (i + 1) := by
      cases e <;> simp only [DItems.calls, List.mem_append] at h <;> first | exact h | exact Or.inr h
    rcases key with h | h
    · rcases calls_names e c h with h1 | h1
      · rw [h1]; exact colon_charName ..
      · exact h1
    · exact itemsCalls_names rest c h

theorem optionsCalls_names : ∀ (os : DOptions) {n : Name} {ct : Commit} {i : Nat}, ∀ c ∈ os.calls n ct i, colon ∈ c.name
  | .nil, _, _, _, _, h => by simp [DOptions.calls] at h
  | .cons e rest, n, ct, i, c, h => by
    have key : c ∈ e.calls (charName n i) (memberFlags ct) ∨ c ∈ rest.calls n ct (i + 1) := by
      cases e <;> simp only [DOptions.calls, List.mem_append] at h <;> first | exact h | exact Or.inr h
    rcases key with h | h
    · rcases calls_names e c h with h1 | h1
      · rw [h1]; exact colon_charName ..
      · exact h1
    · exact optionsCalls_names rest c h

end

/-- A defined name without a colon is the name of a definition of the document. -/
theorem resolved (doc : Document) {m : Name} (hm : NoColon m) : Resolved (grammarOf (documentCalls doc)) doc m := by
  intro gd hg
  obtain ⟨c, hc, hx⟩ := grammarOf_mem hg
  have hn : m = c.name ∨ colon ∈ m := by
    cases c with
    | anyChar n ct =>
      simp only [Call.defs, List.mem_cons, charDef, Prod.mk.injEq, List.not_mem_nil, or_false] at hx
      rcases hx with ⟨rfl, -⟩ | ⟨rfl, -⟩
      · exact Or.inr (colon_charName ..)
      · exact Or.inl rfl
    | class_ n ct neg cs rs =>
      simp only [Call.defs, List.mem_cons, charDef, Prod.mk.injEq, List.not_mem_nil, or_false] at hx
      rcases hx with ⟨rfl, -⟩ | ⟨rfl, -⟩
      · exact Or.inr (colon_charName ..)
      · exact Or.inl rfl
    | charSequence n ct cs =>
      simp only [Call.defs, List.mem_append, List.mem_map, charDef, Prod.mk.injEq, List.mem_singleton] at hx
      rcases hx with ⟨x, -, rfl, -⟩ | ⟨rfl, -⟩
      · exact Or.inr (colon_charName ..)
      · exact Or.inl rfl
    | sequence n ct items =>
      simp only [Call.defs, Prod.mk.injEq, List.mem_singleton] at hx
      exact Or.inl hx.1
    | choice n ct os =>
      simp only [Call.defs, Prod.mk.injEq, List.mem_singleton] at hx
      exact Or.inl hx.1
  rcases hn with rfl | hn
  · obtain ⟨d, hd, hc⟩ := List.mem_flatMap.1 hc
    rcases calls_names _ _ hc with h | h
    · exact ⟨d, hd, h.symm⟩
    · exact (hm h).elim
  · exact (hm hn).elim

theorem document_bodies {doc : Document} {s : Syntax} (h : Made (documentCalls doc) s)
    (hsym : ∀ d ∈ doc, ∀ m ∈ d.expr.symbols, NoColon m) (hsound : ∀ d ∈ doc, d.expr.Sound) :
    ∀ d ∈ doc, ∃ ct, Body (grammarOf (documentCalls doc)) doc d.name ct d.expr := by
  intro d hd
  refine ⟨{ d.flags with userDefined := true }, ?_, fun m hm => resolved doc (hsym d hd m hm), hsound d hd⟩
  · intro c hc x hx
    exact call_grammar h (List.mem_flatMap.2 ⟨d, hd, hc⟩) hx

/-- The grammar of the calls derives what the document means. -/
theorem document_language {doc : Document} {s : Syntax} (h : Made (documentCalls doc) s)
    (hsym : ∀ d ∈ doc, ∀ m ∈ d.expr.symbols, NoColon m) (hsound : ∀ d ∈ doc, d.expr.Sound) {d : DDef} (hd : d ∈ doc)
    (input : List Rune) (i j : Nat) :
    Derives (grammarOf (documentCalls doc)) input d.name i j ↔ Means doc input d.expr i j := by
  have hb := document_bodies h hsym hsound
  obtain ⟨ct, hd'⟩ := hb d hd
  exact ⟨fun hx => Derives.means hb hx (.body hd'), fun hx => Means.derives hb hx (.body hd')⟩

/-! ### The root of a document -/

mutual

/-- The last call of an expression is the one of the definition itself, the others are not marked. -/
theorem calls_main : ∀ (e : DExpr) (n : Name) (ct : Commit), ∃ pre c, e.calls n ct = pre ++ [c] ∧ c.name = n ∧ c.commit = ct ∧
    ∀ x ∈ pre, x.commit.root = false ∧ x.commit.whitespace = false ∧ x.commit.keyword = false
  | .any, n, ct => ⟨[], _, by simp only [DExpr.calls]; rfl, rfl, rfl, by simp⟩
  | .class_ .., n, ct => ⟨[], _, by simp only [DExpr.calls]; rfl, rfl, rfl, by simp⟩
  | .chars .., n, ct => ⟨[], _, by simp only [DExpr.calls]; rfl, rfl, rfl, by simp⟩
  | .symbol .., n, ct => ⟨[], _, by simp only [DExpr.calls]; rfl, rfl, rfl, by simp⟩
  | .seq items, n, ct => ⟨_, _, by simp only [DExpr.calls]; rfl, rfl, rfl, itemsCalls_unmarked items n ct 0⟩
  | .choice os, n, ct => ⟨_, _, by simp only [DExpr.calls]; rfl, rfl, rfl, optionsCalls_unmarked os n ct 0⟩

theorem itemsCalls_unmarked : ∀ (items : DItems) (n : Name) (ct : Commit) (i : Nat), ∀ x ∈ items.calls n ct i,
    x.commit.root = false ∧ x.commit.whitespace = false ∧ x.commit.keyword = false
  | .nil, _, _, _, _, h => by simp [DItems.calls] at h
  | .cons e q rest, n, ct, i, c, h => by
    have key : c ∈ e.calls (charName n i) (memberFlags ct) ∨ c ∈ rest.calls n ct (i + 1) := by
      cases e <;> simp only [DItems.calls, List.mem_append] at h <;> first | exact h | exact Or.inr h
    rcases key with h | h
    · obtain ⟨pre, c', h1, h2, h3, h4⟩ := calls_main e (charName n i) (memberFlags ct)
      rw [h1, List.mem_append, List.mem_singleton] at h
      rcases h with h | rfl
      · exact h4 c h
      · rw [h3]; exact ⟨rfl, rfl, rfl⟩
    · exact itemsCalls_unmarked rest n ct (i + 1) c h

theorem optionsCalls_unmarked : ∀ (os : DOptions) (n : Name) (ct : Commit) (i : Nat), ∀ x ∈ os.calls n ct i,
    x.commit.root = false ∧ x.commit.whitespace = false ∧ x.commit.keyword = false
  | .nil, _, _, _, _, h => by simp [DOptions.calls] at h
  | .cons e rest, n, ct, i, c, h => by
    have key : c ∈ e.calls (charName n i) (memberFlags ct) ∨ c ∈ rest.calls n ct (i + 1) := by
      cases e <;> simp only [DOptions.calls, List.mem_append] at h <;> first | exact h | exact Or.inr h
    rcases key with h | h
    · obtain ⟨pre, c', h1, h2, h3, h4⟩ := calls_main e (charName n i) (memberFlags ct)
      rw [h1, List.mem_append, List.mem_singleton] at h
      rcases h with h | rfl
      · exact h4 c h
      · rw [h3]; exact ⟨rfl, rfl, rfl⟩
    · exact optionsCalls_unmarked rest n ct (i + 1) c h

end

theorem documentCalls_marked (doc : Document) : ((documentCalls doc).filter fun c => c.commit.root).map Call.name =
    (doc.filter fun d => d.flags.root).map DDef.name := by
  induction doc with
  | nil => rfl
  | cons d doc ih =>
    unfold documentCalls at ih ⊢
    rw [List.flatMap_cons, List.filter_append, List.map_append, ih]
    obtain ⟨pre, c, h1, h2, h3, h4⟩ := calls_main d.expr d.name { d.flags with userDefined := true }
    rw [h1, List.filter_append]
    have : pre.filter (fun c => c.commit.root) = [] := by
      rw [List.filter_eq_nil_iff]
      intro x hx
      simp [(h4 x hx).1]
    rw [this]
    cases hr : d.flags.root with
    | true => simp [List.filter_cons, h3, hr, h2]
    | false => simp [List.filter_cons, h3, hr]

theorem documentCalls_last (doc : Document) : (documentCalls doc).getLast?.map Call.name = doc.getLast?.map DDef.name := by
  rcases List.eq_nil_or_concat doc with rfl | ⟨l, d, rfl⟩
  · rfl
  · unfold documentCalls
    obtain ⟨pre, c, h1, h2, h3, h4⟩ := calls_main d.expr d.name { d.flags with userDefined := true }
    rw [List.concat_eq_append, List.flatMap_append, List.flatMap_cons, h1]
    simp [h2]

theorem document_root (doc : Document) : rootOf (documentCalls doc) = (docRoot doc).map DDef.name := by
  unfold rootOf docRoot
  have h := congrArg List.head? (documentCalls_marked doc)
  rw [List.head?_map, List.head?_map] at h
  cases h1 : ((documentCalls doc).filter fun c => c.commit.root).head? with
  | none =>
    rw [h1] at h
    cases h2 : (doc.filter fun d => d.flags.root).head? with
    | none => exact documentCalls_last doc
    | some d => rw [h2] at h; cases h
  | some c =>
    rw [h1] at h
    cases h2 : (doc.filter fun d => d.flags.root).head? with
    | none => rw [h2] at h; cases h
    | some d => rw [h2] at h; exact h

theorem docRoot_mem {doc : Document} {d : DDef} (h : docRoot doc = some d) : d ∈ doc := by
  unfold docRoot at h
  split at h
  · rename_i d' hd
    cases h
    exact (List.mem_filter.1 (List.mem_of_mem_head? hd)).1
  · exact List.mem_of_getLast? h

theorem documentCalls_commit {doc : Document} {f : Commit → Bool} (hf : ∀ ct, f { ct with userDefined := true } = f ct)
    (hm : ∀ ct : Commit, f ct = true → ct.root = true ∨ ct.whitespace = true ∨ ct.keyword = true) :
    (∀ c ∈ documentCalls doc, f c.commit = false) ↔ ∀ d ∈ doc, f d.flags = false := by
  constructor
  · intro h d hd
    obtain ⟨pre, c, h1, h2, h3, h4⟩ := calls_main d.expr d.name { d.flags with userDefined := true }
    have := h c (List.mem_flatMap.2 ⟨d, hd, by rw [h1]; simp⟩)
    rw [h3, hf] at this
    exact this
  · intro h c hc
    obtain ⟨d, hd, hc⟩ := List.mem_flatMap.1 hc
    obtain ⟨pre, c', h1, h2, h3, h4⟩ := calls_main d.expr d.name { d.flags with userDefined := true }
    rw [h1, List.mem_append, List.mem_singleton] at hc
    rcases hc with hc | rfl
    · cases hx : f c.commit with
      | false => rfl
      | true =>
        obtain ⟨a, b, e⟩ := h4 c hc
        rcases hm _ hx with k | k | k
        · rw [a] at k; cases k
        · rw [b] at k; cases k
        · rw [e] at k; cases k
    · rw [h3, hf]; exact h d hd

end Treerack
