import Verif.Proofs.Exact

/-
Under the same conditions, the tree that is built is the tree of the reference semantics.
-/

namespace Treerack
open Spec

/-- The assumptions about the records that the tree is built from. -/
structure BCtxt (env : Env) (R : Ptr → Prop) (input : List Rune) (f : Ptr → Nat → Match) (root : Ptr) (S : Results) : Prop where
  ctxt : Ctxt env R input f root
  good : Good env R input f S
  pc : ∀ o id, S.pcount o id = 0
  plainOption : ∀ {p d os o e}, R p → env.defs[p]? = some d → d.kind = .choice os → o ∈ os → env.defs[o]? = some e →
    e.kind.isChar = false
  plainItem : ∀ {p d is rs q e}, R p → env.defs[p]? = some d → d.kind = .seq is rs false → q ∈ is → env.defs[q]? = some e →
    e.kind.isChar = false

/-- The records that concern `p` at the position, and those of the later positions, are untouched. -/
structure Intact (env : Env) (R : Ptr → Prop) (S : Results) (p : Ptr) (i : Nat) (r : Results) : Prop where
  later : ∀ o, i < o → ∀ id, r.pcount o id = 0 ∧ ∀ to, r.Has o id to ↔ S.Has o id to
  here : ∀ {q e}, R q → env.defs[q]? = some e → e.kind.isChar = false → LeftReach env p q →
    r.pcount i e.id = 0 ∧ ∀ to, r.Has i e.id to ↔ S.Has i e.id to

/-- What building `p` at the position of `c` does. -/
structure BuiltAs (input : List Rune) (f : Ptr → Nat → Match) (p : Ptr) (c : Ctx) (x : Option (List Node) × Ctx) : Prop where
  none : f p c.offset = none → x = (none, c)
  some : ∀ j ns, f p c.offset = some (j, ns) → x.1 = some ns ∧ x.2.offset = j
  toks : x.2.tokens = input
  pc : ∀ o id, x.2.res.pcount o id = c.res.pcount o id
  plen : c.res.isPending.length ≤ x.2.res.isPending.length
  has : ∀ o, x.2.offset ≤ o → ∀ id to, x.2.res.Has o id to ↔ c.res.Has o id to
  once : x.2.res.Once

section
variable {env : Env} {R : Ptr → Prop} {input : List Rune} {f : Ptr → Nat → Match} {root : Ptr} {S : Results}

/-- The meaning of nested calls. -/
def BRecE (env : Env) (R : Ptr → Prop) (input : List Rune) (f : Ptr → Nat → Match) (S : Results)
    (rec : Ptr → Ctx → Res (Option (List Node) × Ctx)) : Prop :=
  ∀ p c d, R p → ¬ IsTail env p → env.defs[p]? = some d → d.kind.isChar = false → c.tokens = input → Recorded env f S p c.offset →
    c.res.Once → Intact env R S p c.offset c.res → (rec p c).Spec False True (BuiltAs input f p c)

/-- The first of the longest. -/
theorem better_first {l : List (Ptr × Match)} {x : Nat × List Node} (h : (l.map (·.2)).foldr better none = some x) :
    ∃ a o b, l = a ++ (o, some x) :: b ∧ ∀ q ∈ a, ∀ y, q.2 = some y → y.1 < x.1 := by
  induction l generalizing x with
  | nil => cases h
  | cons q l ih =>
    obtain ⟨o, m⟩ := q
    simp only [List.map_cons, List.foldr_cons] at h
    cases m with
    | none =>
      simp only [better] at h
      obtain ⟨a, o', b, h1, h2⟩ := ih h
      refine ⟨(o, none) :: a, o', b, by rw [h1]; rfl, ?_⟩
      intro q hq y hy
      rcases List.mem_cons.1 hq with rfl | hq
      · cases hy
      · exact h2 q hq y hy
    | some z =>
      cases hb : (l.map (·.2)).foldr better none with
      | none =>
        rw [hb] at h
        simp only [better] at h
        cases h
        exact ⟨[], o, l, rfl, by simp⟩
      | some w =>
        rw [hb] at h
        simp only [better] at h
        split at h
        · cases h
          obtain ⟨a, o', b, h1, h2⟩ := ih hb
          refine ⟨(o, some z) :: a, o', b, by rw [h1]; rfl, ?_⟩
          intro q hq y hy
          rcases List.mem_cons.1 hq with rfl | hq
          · cases hy; assumption
          · exact h2 q hq y hy
        · cases h
          exact ⟨[], o, l, rfl, by simp⟩

/-- Items that are characters have no nodes. -/
theorem RefItems.chars {G : Grammar Ptr} {B : Ptr → Nat → Nat → Prop} : ∀ {items : List (Ptr × Int × Int)} {k i : Nat} {m : Match}, RefItems G B input items k i m →
    (∀ x ∈ items, ∃ d neg cs rs, G x.1 = some d ∧ d.expr = .char neg cs rs) → ∀ j ns, m = some (j, ns) → ns = []
  | _, _, _, _, .nil, _, _, _, h => by cases h; rfl
  | _, _, _, _, .fail _ _, _, _, _, h => by cases h
  | _, _, _, _, .done _ _ h3, hc, _, _, h => RefItems.chars h3 (fun x hx => hc x (by simp [hx])) _ _ h
  | _, _, _, _, .empty h1 h2, hc, _, _, h => by
    exfalso
    obtain ⟨d, neg, cs, rs, g1, g2⟩ := hc _ List.mem_cons_self
    simp only at g1
    generalize hm : some (_, _) = m' at h1
    cases h1 with
    | char k1 k2 => simp at hm
    | noChar => cases hm
    | choice k1 k2 => rw [g1] at k1; cases k1; rw [g2] at k2; cases k2
    | noBase => cases hm
    | grow k1 k2 => rw [g1] at k1; cases k1; rw [g2] at k2; cases k2
    | seq k1 k2 => rw [g1] at k1; cases k1; rw [g2] at k2; cases k2
    | blocked => cases hm
  | _, _, _, _, .last (ns := ns') (m := m) h1 h2 h3 h4 h5, hc, j, ns, h => by
    have ih := RefItems.chars h5 (fun x hx => hc x (by simp [hx]))
    obtain ⟨d, neg, cs, rs, g1, g2⟩ := hc _ List.mem_cons_self
    simp only at g1
    have hn : ns' = [] := by
      generalize hm : some (_, ns') = m' at h1
      cases h1 with
      | char k1 k2 => cases hm; rfl
      | noChar => cases hm
      | choice k1 k2 => rw [g1] at k1; cases k1; rw [g2] at k2; cases k2
      | noBase => cases hm
      | grow k1 k2 => rw [g1] at k1; cases k1; rw [g2] at k2; cases k2
      | seq k1 k2 => rw [g1] at k1; cases k1; rw [g2] at k2; cases k2
      | blocked => cases hm
    obtain ⟨ns'', hx⟩ := prepend_some h
    simp only at hx
    subst hx
    have := ih _ _ rfl
    subst this
    cases h
    simp [hn]
  | _, _, _, _, .more (ns := ns') (m := m) h1 h2 h3 h5, hc, j, ns, h => by
    have ih := RefItems.chars h5 hc
    obtain ⟨d, neg, cs, rs, g1, g2⟩ := hc _ List.mem_cons_self
    simp only at g1
    have hn : ns' = [] := by
      generalize hm : some (_, ns') = m' at h1
      cases h1 with
      | char k1 k2 => cases hm; rfl
      | noChar => cases hm
      | choice k1 k2 => rw [g1] at k1; cases k1; rw [g2] at k2; cases k2
      | noBase => cases hm
      | grow k1 k2 => rw [g1] at k1; cases k1; rw [g2] at k2; cases k2
      | seq k1 k2 => rw [g1] at k1; cases k1; rw [g2] at k2; cases k2
      | blocked => cases hm
    obtain ⟨ns'', hx⟩ := prepend_some h
    simp only at hx
    subst hx
    have := ih _ _ rfl
    subst this
    cases h
    simp [hn]

/-- The longest record. -/
theorem BCtxt.longest (B : BCtxt env R input f root S) {p : Ptr} {d : PDef} (hR : R p) (hn : ¬ IsTail env p) (hd : env.defs[p]? = some d)
    (hk : d.kind.isChar = false) {i : Nat} {r : Results} (hrec : Recorded env f S p i) (hi : Intact env R S p i r) :
    r.longestMatch i d.id = (f p i).map (·.1) := by
  have hh := (hi.here hR hd hk (Or.inl rfl)).2
  have hS : ∀ to, S.Has i d.id to → ∃ t ns, f p i = some (t, ns) ∧ to ≤ t := by
    intro to hto
    cases hkd : d.kind with
    | char => rw [hkd] at hk; cases hk
    | choice os => exact B.good.chLe B.ctxt hR hd hkd hto
    | seq is rs ac =>
      obtain ⟨ns, h1⟩ := B.good.seqHas hR hn hd hkd hto
      exact ⟨to, ns, h1, Nat.le_refl _⟩
  cases hf : f p i with
  | none =>
    refine (Results.longestMatch_none ..).2 fun t ht => ?_
    obtain ⟨t', ns, h1, -⟩ := hS t ((hh t).1 ht)
    rw [hf] at h1; cases h1
  | some x =>
    refine (Results.longestMatch_some ..).2 ⟨(hh _).2 (hrec d hd hk x.1 x.2 hf), fun t ht => ?_⟩
    obtain ⟨t', ns, h1, h2⟩ := hS t ((hh t).1 ht)
    rw [hf] at h1; cases h1
    exact h2

theorem LeftReach.step {p o q : Ptr} (h : LeftCall env.grammar p o) (hl : LeftReach env o q) : LeftReach env p q := by
  rcases hl with rfl | hl | ⟨a, hr, rfl | hl⟩
  · exact Or.inr (Or.inl (.one h))
  · exact Or.inr (Or.inl (.step h hl))
  · exact Or.inr (Or.inr ⟨_, hr, Or.inr (.one h)⟩)
  · exact Or.inr (Or.inr ⟨_, hr, Or.inr (.step h hl)⟩)

theorem Generalizes.leftCalls (K : Ctxt env R input f root) {q p : Ptr} (h : Generalizes env q p) (hq : R q) (hp : ¬ IsTail env p) :
    LeftCalls env.grammar q p := by
  induction h with
  | option h1 h2 h3 => exact .one (.option (env.grammar_some h1) (by simp [h2, PKind.expr]) h3 fun hr => hp ⟨_, hr⟩)
  | nested h1 h2 h3 hg ih =>
    have hR := K.closed.child hq h1 (by rw [h2]; exact h3)
    obtain ⟨e, he⟩ := K.closed.def_ hR
    obtain ⟨os, hos⟩ := hg.isChoice he
    exact .step (.option (env.grammar_some h1) (by simp [h2, PKind.expr]) h3 fun hr => choice_not_tail he hos ⟨_, hr⟩) (ih hR hp)

theorem LeftCalls.last {G : Grammar Ptr} {p q : Ptr} (h : LeftCalls G p q) : ∃ m, (m = p ∨ LeftCalls G p m) ∧ LeftCall G m q := by
  induction h with
  | one h => exact ⟨_, Or.inl rfl, h⟩
  | step h _ ih =>
    obtain ⟨m, rfl | h1, h2⟩ := ih
    · exact ⟨m, Or.inr (.one h), h2⟩
    · exact ⟨m, Or.inr (.step h h1), h2⟩

theorem LeftCall.children {p q : Ptr} (h : LeftCall env.grammar p q) : ∃ d, env.defs[p]? = some d ∧ q ∈ d.kind.children := by
  have key : ∀ {e : GDef Ptr}, env.grammar p = some e → ∃ d, env.defs[p]? = some d ∧ e.expr = d.kind.expr := by
    intro e he
    unfold Env.grammar at he
    cases hd : env.defs[p]? with
    | none => rw [hd] at he; cases he
    | some d => rw [hd] at he; cases he; exact ⟨d, rfl, rfl⟩
  cases h with
  | option h1 h2 h3 =>
    obtain ⟨d, h4, h5⟩ := key h1
    refine ⟨d, h4, ?_⟩
    rw [h2] at h5
    cases hk : d.kind with
    | char => simp [hk, PKind.expr] at h5
    | choice => simp only [hk, PKind.expr, Expr.choice.injEq] at h5; subst h5; exact h3
    | seq => simp [hk, PKind.expr] at h5
  | item h1 h2 h3 =>
    rename_i e front rest y
    obtain ⟨d, h4, h5⟩ := key h1
    refine ⟨d, h4, ?_⟩
    rw [h2] at h5
    cases hk : d.kind with
    | char => simp [hk, PKind.expr] at h5
    | choice => simp [hk, PKind.expr] at h5
    | seq is rs ac =>
      simp only [hk, PKind.expr, Expr.seq.injEq] at h5
      have : (y.1, y.2) ∈ is.zip rs := by rw [← h5]; simp
      exact (List.of_mem_zip this).1

theorem Ctxt.calls (K : Ctxt env R input f root) {p q : Ptr} (hR : R p) (h : LeftCalls env.grammar p q) : R q := by
  induction h with
  | one h => obtain ⟨d, h1, h2⟩ := LeftCall.children h; exact K.closed.child hR h1 h2
  | step h _ ih => obtain ⟨d, h1, h2⟩ := LeftCall.children h; exact ih (K.closed.child hR h1 h2)

/-- The left recursive option of a choice is not counted as called. -/
theorem Ctxt.not_called (K : Ctxt env R input f root) {a m s : Ptr} (hr : Recurs env.grammar a s) (hR : R m)
    (h : LeftCall env.grammar m s) : False := by
  obtain ⟨d, h1, h2⟩ := LeftCall.children h
  obtain rfl := K.sole hr hR h1 h2
  cases h with
  | option _ _ _ h => exact h hr
  | item g1 g2 =>
    obtain ⟨_, _, _, _, g3, g4, -⟩ := hr
    rw [g1] at g3; cases g3
    rw [g2] at g4; cases g4

/-- The marks and the records of a definition and of its generalizations do not concern what it calls. -/
theorem BCtxt.strict (B : BCtxt env R input f root S) {p o q : Ptr} {d e : PDef} (hR : R p) (hn : ¬ IsTail env p)
    (hd : env.defs[p]? = some d) (hk : d.kind.isChar = false) (hc : LeftCall env.grammar p o) (hq : R q)
    (he : env.defs[q]? = some e) (hke : e.kind.isChar = false) (hl : LeftReach env o q) : e.id ∉ d.id :: d.gens := by
  intro hm
  have h1 : q = p ∨ Generalizes env q p := by
    rcases List.mem_cons.1 hm with hm | hm
    · exact Or.inl (B.ctxt.ids hq hR he hd hke hk hm)
    · obtain ⟨q', e', g1, g2, g3, g4⟩ := B.ctxt.gens hR hd hk hm
      have := B.ctxt.ids g1 hq g2 he (g4.nonchar g2) hke g3
      subst this
      exact Or.inr g4
  have hnq : ¬ IsTail env q := by
    rcases h1 with rfl | g
    · exact hn
    · obtain ⟨os, hos⟩ := g.isChoice he
      exact choice_not_tail he hos
  have hpq : LeftCalls env.grammar p q := by
    rcases hl with rfl | hl | ⟨a, hr, -⟩
    · exact .one hc
    · exact .step hc hl
    · exact absurd ⟨a, hr⟩ hnq
  rcases h1 with rfl | g
  · exact B.ctxt.free hR hpq
  · exact B.ctxt.free hR (hpq.trans (g.leftCalls B.ctxt hq hn))

/-- The same for the left recursive option. -/
theorem BCtxt.strict_tail (B : BCtxt env R input f root S) {a o q : Ptr} {x : Growing} {e : PDef} (hR : R a) (hx : x.Of env a)
    (hc : LeftCall env.grammar a o) (hq : R q) (he : env.defs[q]? = some e) (hke : e.kind.isChar = false)
    (hl : LeftReach env o q) : e.id ∉ x.e.id :: x.e.gens := by
  have hRs := hx.reach B.ctxt hR
  have hks : x.e.kind.isChar = false := by rw [hx.ks]; rfl
  have hna : ¬ IsTail env a := choice_not_tail hx.da hx.ka
  have hRo : R o := B.ctxt.calls hR (.one hc)
  intro hm
  rcases List.mem_cons.1 hm with hm | hm
  · obtain rfl := B.ctxt.ids hq hRs he hx.ds hke hks hm
    rcases hl with rfl | hl | ⟨b, hr, hl⟩
    · exact B.ctxt.not_called hx.recurs hR hc
    · obtain ⟨m, h1, h2⟩ := LeftCalls.last hl
      refine B.ctxt.not_called hx.recurs ?_ h2
      rcases h1 with rfl | h1
      · exact hRo
      · exact B.ctxt.calls hRo h1
    · obtain rfl := Recurs.unique hr hx.recurs
      rcases hl with rfl | hl
      · exact B.ctxt.free hR (.one hc)
      · exact B.ctxt.free hR (.step hc hl)
  · obtain ⟨q', e', g1, g2, g3, g4⟩ := B.ctxt.gens hRs hx.ds hks hm
    have := B.ctxt.ids g1 hq g2 he (g4.nonchar g2) hke g3
    subst this
    obtain ⟨os, hos⟩ := g4.isChoice he
    have hpq : LeftCalls env.grammar a q' := by
      rcases hl with rfl | hl | ⟨b, hr, -⟩
      · exact .one hc
      · exact .step hc hl
      · exact absurd ⟨b, hr⟩ (choice_not_tail he hos)
    rcases B.ctxt.generalizes_tail g4 hq hx.recurs with rfl | g
    · exact B.ctxt.free hR hpq
    · exact B.ctxt.free hR (hpq.trans (g.leftCalls B.ctxt hq hna))

/-- Dropping the match of a definition and of its generalizations. -/
theorem dropAll_iff (o t : Nat) : ∀ (ids : List Nat) (r : Results), o < r.matches_.length → r.Once →
    ∃ r', dropAll o t ids r = .ok r' ∧ r'.isPending = r.isPending ∧ r'.Once ∧
      ∀ off id to, r'.Has off id to ↔ r.Has off id to ∧ ¬ (off = o ∧ id ∈ ids ∧ to = t)
  | [], r, _, h => ⟨r, rfl, rfl, h, by simp⟩
  | i :: ids, r, h, ho => by
    obtain ⟨r1, h1⟩ := Results.dropMatchTo_spec r o i t h
    obtain ⟨a1, a2, a3, -⟩ := Results.dropMatchTo_ok h1
    obtain ⟨r2, b1, b2, b3, b4⟩ := dropAll_iff o t ids r1 (by omega) (ho.drop h1)
    refine ⟨r2, by simp [dropAll, h1, b1], b2.trans a2, b3, ?_⟩
    intro off id to
    rw [b4]
    constructor
    · rintro ⟨g1, g2⟩
      refine ⟨Results.has_of_drop h1 g1, ?_⟩
      rintro ⟨rfl, g3, rfl⟩
      rcases List.mem_cons.1 g3 with rfl | g3
      · exact ho.gone h1 g1
      · exact g2 ⟨rfl, g3, rfl⟩
    · rintro ⟨g1, g2⟩
      refine ⟨Results.has_drop_of_ne h1 g1 ?_, fun g3 => g2 ⟨g3.1, List.mem_cons_of_mem _ g3.2.1, g3.2.2⟩⟩
      by_cases q1 : off = o
      · by_cases q2 : id = i
        · by_cases q3 : to = t
          · exact absurd ⟨q1, by simp [q2], q3⟩ g2
          · exact Or.inr (Or.inr q3)
        · exact Or.inr (Or.inl q2)
      · exact Or.inl q1

/-- Entering a definition: the calls inside find what they need, and the marks are removed afterwards. -/
theorem BCtxt.enter (B : BCtxt env R input f root S) {p : Ptr} {d : PDef} (hR : R p) (hn : ¬ IsTail env p) (hd : env.defs[p]? = some d)
    (hk : d.kind.isChar = false) {c : Ctx} {to : Nat} {ns : List Node} (hf : f p c.offset = some (to, ns))
    (hrec : Recorded env f S p c.offset) (ho : c.res.Once) (hi : Intact env R S p c.offset c.res) :
    ∃ r, (if decide (to > c.offset) = true then dropAll c.offset to (d.id :: d.gens) c.res
        else .ok (markAll c.offset (d.id :: d.gens) c.res)) = .ok r ∧
      (∀ o, LeftCall env.grammar p o → Intact env R S o c.offset r) ∧
      (∀ o, c.offset < o → ∀ id, r.pcount o id = 0 ∧ ∀ t, r.Has o id t ↔ S.Has o id t) ∧
      (to = c.offset → ∀ o id t, r.Has o id t ↔ c.res.Has o id t) ∧ r.Once ∧
      ∀ r2 : Results, (∀ o id, r2.pcount o id = r.pcount o id) → r.isPending.length ≤ r2.isPending.length → r2.Once →
        ∃ r3, (if decide (to > c.offset) = true then .ok r2 else unmarkAll c.offset (d.id :: d.gens) r2) = .ok r3 ∧
          (∀ o id, r3.pcount o id = c.res.pcount o id) ∧ c.res.isPending.length ≤ r3.isPending.length ∧
          (∀ o id t, r3.Has o id t ↔ r2.Has o id t) ∧ r3.Once := by
  have hh := hi.here hR hd hk (Or.inl rfl)
  by_cases hp : to > c.offset
  · simp only [hp, decide_true, if_true]
    have hhas : c.res.Has c.offset d.id to := (hh.2 to).2 (hrec d hd hk to ns hf)
    obtain ⟨r, h1, h2, h3, h4⟩ := dropAll_iff c.offset to (d.id :: d.gens) c.res (Results.has_lt hhas) ho
    have hpc : ∀ o id, r.pcount o id = c.res.pcount o id := by intro o id; simp [Results.pcount, h2]
    have hlater : ∀ o, c.offset < o → ∀ id, r.pcount o id = 0 ∧ ∀ t, r.Has o id t ↔ S.Has o id t := by
      intro o ho id
      obtain ⟨l1, l2⟩ := hi.later o ho id
      refine ⟨by rw [hpc, l1], fun t => ?_⟩
      rw [← l2]
      exact ⟨fun x => ((h4 ..).1 x).1, fun x => (h4 ..).2 ⟨x, fun y => by omega⟩⟩
    refine ⟨r, h1, ?_, hlater, fun he => by omega, h3, ?_⟩
    · intro o hc
      refine ⟨hlater, ?_⟩
      intro q e hq he hke hl
      have hns := B.strict hR hn hd hk hc hq he hke hl
      have hpq : LeftReach env p q := .step hc hl
      obtain ⟨g1, g2⟩ := hi.here hq he hke hpq
      refine ⟨by rw [hpc, g1], fun t => ?_⟩
      rw [← g2]
      exact ⟨fun x => ((h4 ..).1 x).1, fun x => (h4 ..).2 ⟨x, fun y => hns y.2.1⟩⟩
    · intro r2 k1 k2 k3
      exact ⟨r2, rfl, fun o id => (k1 o id).trans (hpc o id), by rw [h2] at k2; exact k2, fun _ _ _ => Iff.rfl, k3⟩
  · have he := B.ctxt.bounded hR hf
    have he : to = c.offset := by omega
    simp only [hp, decide_false, Bool.false_eq_true, if_false]
    obtain ⟨m1, m2, m3, m4, m5⟩ := markAll_spec c.offset (d.id :: d.gens) c.res
    have hlater : ∀ o, c.offset < o → ∀ id, (markAll c.offset (d.id :: d.gens) c.res).pcount o id = 0 ∧
        ∀ t, (markAll c.offset (d.id :: d.gens) c.res).Has o id t ↔ S.Has o id t := by
      intro o ho id
      obtain ⟨l1, l2⟩ := hi.later o ho id
      refine ⟨?_, fun t => ?_⟩
      · rw [m5, l1, if_neg (by omega)]
      · rw [← l2]; exact Results.Has.congr m1
    refine ⟨_, rfl, ?_, hlater, fun _ _ _ _ => Results.Has.congr m1, ho.congr m1, ?_⟩
    · intro o hc
      refine ⟨hlater, ?_⟩
      intro q e hq he hke hl
      have hns := B.strict hR hn hd hk hc hq he hke hl
      have hpq : LeftReach env p q := .step hc hl
      obtain ⟨g1, g2⟩ := hi.here hq he hke hpq
      refine ⟨?_, fun t => ?_⟩
      · rw [m5, g1, List.count_eq_zero_of_not_mem hns]; simp
      · rw [← g2]; exact Results.Has.congr m1
    · intro r2 k1 k2 k3
      obtain ⟨r3, u1, u2, u3, u4, u5⟩ := unmarkAll_spec c.offset (d.id :: d.gens) r2 (fun i hi => by have := m4 i hi; omega)
      refine ⟨r3, u1, ?_, by omega, fun _ _ _ => Results.Has.congr u2, k3.congr u2⟩
      intro o id
      rw [u5, k1, m5]
      omega

/-- The first option that ends at the end of the match. -/
theorem findOption_exact {r : Results} {i to : Nat} {ns : List Node} :
    ∀ (os : List Ptr) {a b : List (Ptr × Match)} {o : Ptr}, (os.map fun o => (o, f o i)) = a ++ (o, some (to, ns)) :: b →
      (∀ q ∈ a, ∀ y, q.2 = some y → y.1 < to) →
      (∀ o ∈ os, ∃ e, env.defs[o]? = some e ∧ (r.Has i e.id to ↔ ∃ ns, f o i = some (to, ns))) →
      findOption env r i to os = .ok (some o)
  | [], a, b, o, h, _, _ => by cases a <;> simp at h
  | x :: os, a, b, o, h, ha, hos => by
    obtain ⟨e, he, hx⟩ := hos x (by simp)
    unfold findOption
    rw [he]
    simp only
    cases a with
    | nil =>
      simp only [List.map_cons, List.nil_append, List.cons.injEq, Prod.mk.injEq] at h
      obtain ⟨⟨rfl, h1⟩, -⟩ := h
      rw [if_pos ((Results.hasMatchTo_iff ..).2 (hx.2 ⟨ns, h1⟩))]
    | cons q a =>
      simp only [List.map_cons, List.cons_append, List.cons.injEq] at h
      obtain ⟨rfl, h1⟩ := h
      rw [if_neg ?_]
      · exact findOption_exact os h1 (fun q hq => ha q (by simp [hq])) fun o ho => hos o (by simp [ho])
      · rw [Results.hasMatchTo_iff, hx]
        rintro ⟨ns', h2⟩
        have := ha (x, f x i) (by simp) _ h2
        simp at this

theorem choiceBuild_exact (B : BCtxt env R input f root S) {p : Ptr} {d : PDef} {os : List Ptr} (hR : R p)
    (hd : env.defs[p]? = some d) (hk : d.kind = .choice os) (hn : ∀ o, ¬ Recurs env.grammar p o)
    {rec : Ptr → Ctx → Res (Option (List Node) × Ctx)}
    (hrec : BRecE env R input f S rec) {c : Ctx} (ht : c.tokens = input) (hr : Recorded env f S p c.offset)
    (ho : c.res.Once) (hi : Intact env R S p c.offset c.res) :
    (choiceBuild rec env d os c).Spec False True (BuiltAs input f p c) := by
  have hk' : d.kind.isChar = false := by rw [hk]; rfl
  have hh := hi.here hR hd hk' (Or.inl rfl)
  unfold choiceBuild
  rw [B.longest hR (choice_not_tail hd hk) hd hk' hr hi]
  cases hf : f p c.offset with
  | none =>
    exact ⟨fun _ => rfl, fun j ns h => (by rw [hf] at h; cases h), ht, fun _ _ => rfl, Nat.le_refl _, fun _ _ _ _ => Iff.rfl, ho⟩
  | some x =>
    obtain ⟨to, ns⟩ := x
    simp only [Option.map_some]
    rw [if_neg (by rw [(Results.pending_false_iff ..).2 hh.1]; simp)]
    obtain ⟨r, h1, h2, h3, h4, hro, h5⟩ := B.enter hR (choice_not_tail hd hk) hd hk' hf hr ho hi
    rw [h1]
    simp only [Res.bind_ok]
    -- the option
    obtain ⟨m, g1, g2⟩ := B.ctxt.choice hR hd hk hn c.offset
    have hRo : ∀ o ∈ os, R o := fun o ho => B.ctxt.closed.child hR hd (by rw [hk]; exact ho)
    have hlo : ∀ o ∈ os, LeftCall env.grammar p o := fun o ho =>
      .option (env.grammar_some hd) (by simp [hk, PKind.expr]) ho (hn o)
    have hto : ∀ o ∈ os, ¬ IsTail env o := fun o ho => B.ctxt.option_not_tail hR hd hk ho (hn o)
    have g3 := RefOptions.of_fun g1 fun o ho => B.ctxt.ref (hRo o ho) c.offset
    rw [hf] at g2
    cases m with
    | none => cases g2
    | some y =>
      obtain ⟨to', ns'⟩ := y
      simp only [Option.map_some, Option.some.injEq, Prod.mk.injEq] at g2
      obtain ⟨rfl, rfl⟩ := g2
      have g4 : (((os.map fun o => (o, f o c.offset))).map (·.2)).foldr better none = some (to, ns') := by
        rw [g3, List.map_map]; rfl
      obtain ⟨a, o, b, g5, g6⟩ := better_first g4
      have hmem : o ∈ os ∧ f o c.offset = some (to, ns') := by
        have : (o, some (to, ns')) ∈ os.map fun o => (o, f o c.offset) := by rw [g5]; simp
        obtain ⟨o', ho', h⟩ := List.mem_map.1 this
        simp only [Prod.mk.injEq] at h
        obtain ⟨rfl, h⟩ := h
        exact ⟨ho', h⟩
      have hSh : S.Has c.offset d.id to := hr d hd hk' _ _ hf
      have hkids := B.good.chKids hR hd hk (B.pc _ _) hSh
      have hfo := findOption_exact (env := env) (r := r) os g5 g6 (by
        intro o' ho'
        obtain ⟨e, he⟩ := B.ctxt.closed.def_ (hRo o' ho')
        have hke := B.plainOption hR hd hk ho' he
        refine ⟨e, he, ?_⟩
        rw [((h2 o' (hlo o' ho')).here (hRo o' ho') he hke (Or.inl rfl)).2]
        constructor
        · intro hx
          cases hkd : e.kind with
          | char => rw [hkd] at hke; cases hke
          | seq is rs ac => exact B.good.seqHas (hRo o' ho') (hto o' ho') he hkd hx
          | choice os' =>
            obtain ⟨t, ns'', k1, k2⟩ := B.good.chLe B.ctxt (hRo o' ho') he hkd hx
            have := B.ctxt.choice_end hR hd hk hn c.offset
            rw [hf] at this
            have := this.2 o' ho' _ k1
            simp only at this
            rw [show to = t by omega]
            exact ⟨ns'', k1⟩
        · rintro ⟨ns'', k1⟩
          exact hkids o' ho' e he hke _ _ k1)
      rw [hfo]
      simp only [Res.bind_ok]
      obtain ⟨e, he⟩ := B.ctxt.closed.def_ (hRo o hmem.1)
      refine Res.Spec.bind (hrec o { c with res := r } e (hRo o hmem.1) (hto o hmem.1) he (B.plainOption hR hd hk hmem.1 he) ht
        (hkids o hmem.1) hro (h2 o (hlo o hmem.1))) ?_
      rintro ⟨n', c'⟩ hb
      obtain ⟨b1, b2⟩ := hb.some _ _ hmem.2
      simp only at b1 b2
      subst b1
      obtain ⟨r3, k1, k2, k3, k4, k5⟩ := h5 c'.res hb.pc hb.plen hb.once
      simp only [Option.getD_some]
      rw [k1]
      simp only [Res.bind_ok]
      have hhas : ∀ o, to ≤ o → ∀ id t, r3.Has o id t ↔ c.res.Has o id t := by
        intro o ho id t
        have h6 := B.ctxt.bounded hR hf
        rw [k4, hb.has o (by simp only [b2]; exact ho)]
        by_cases heq : to = c.offset
        · exact h4 heq o id t
        · simp only
          rw [(h3 o (by omega) id).2, (hi.later o (by omega) id).2]
      have htk := hb.toks
      simp only at htk
      split
      · rename_i hal
        refine ⟨fun h => (by rw [hf] at h; cases h), ?_, htk, k2, k3, by simpa [b2] using hhas, k5⟩
        intro j ns h
        rw [hf] at h
        cases h
        exact ⟨by simp [GDef.wrap, hal], b2⟩
      · rename_i hal
        refine ⟨fun h => (by rw [hf] at h; cases h), ?_, htk, k2, k3, by simpa [b2] using hhas, k5⟩
        intro j ns h
        rw [hf] at h
        cases h
        exact ⟨by simp [GDef.wrap, hal, htk], b2⟩

/-- The loop of a sequence. -/
theorem seqBuildLoop_exact (B : BCtxt env R input f root S) {p : Ptr} {d : PDef} {is : List Ptr} {rs : List (Int × Int)}
    (hR : R p) (hd : env.defs[p]? = some d) (hk : d.kind = .seq is rs false)
    {rec : Ptr → Ctx → Res (Option (List Node) × Ctx)} (hrec : BRecE env R input f S rec) {from_ : Nat} {r : Results}
    {L : Prop} (h2 : L → ∀ o, LeftCall env.grammar p o → Intact env R S o from_ r)
    (h3 : ∀ o, from_ < o → ∀ id, r.pcount o id = 0 ∧ ∀ t, r.Has o id t ↔ S.Has o id t) :
    ∀ (n : Nat) (front its : List (Ptr × Int × Int)) (k : Nat) (nodes : List Node) (c : Ctx) (j : Nat) (ns : List Node),
      is.zip rs = front ++ its →
      (from_ = c.offset → L ∧ k = 0 ∧ ∀ y ∈ front, 0 < y.2.1 → Nullable env.grammar y.1) → from_ ≤ c.offset →
      c.tokens = input → (∀ o id, c.res.pcount o id = r.pcount o id) → r.isPending.length ≤ c.res.isPending.length →
      c.res.Once → (∀ o, c.offset ≤ o → ∀ id t, c.res.Has o id t ↔ r.Has o id t) →
      RefItems env.grammar (env.blocked input) input its k c.offset (some (j, ns)) →
      (∀ q l, Visits f its k c.offset q l → Recorded env f S q l) →
      (seqBuildLoop rec n its k nodes c).Spec False True fun x =>
        x.1 = nodes ++ ns ∧ x.2.offset = j ∧ x.2.tokens = input ∧ (∀ o id, x.2.res.pcount o id = r.pcount o id) ∧
        r.isPending.length ≤ x.2.res.isPending.length ∧ x.2.res.Once ∧ ∀ o, j ≤ o → ∀ id t, x.2.res.Has o id t ↔ r.Has o id t
  | 0, _, _, _, _, _, _, _, _, _, _, _, _, _, _, _, _, _ => trivial
  | n + 1, front, [], k, nodes, c, j, ns, _, _, _, ht, hpc, hpl, ho, hh, href, _ => by
    cases href
    exact ⟨by simp, rfl, ht, hpc, hpl, ho, hh⟩
  | n + 1, front, (item, (mn, mx)) :: rest, k, nodes, c, j, ns, hall, hleft, hle, ht, hpc, hpl, ho, hh, href, hvis => by
    have hmem : item ∈ is := by
      have : (item, (mn, mx)) ∈ is.zip rs := by rw [hall]; simp
      exact (List.of_mem_zip this).1
    have hRi : R item := B.ctxt.closed.child hR hd (by rw [hk]; exact hmem)
    obtain ⟨e, he⟩ := B.ctxt.closed.def_ hRi
    have hke := B.plainItem hR hd hk hmem he
    have hin : Intact env R S item c.offset c.res := by
      by_cases heq : from_ = c.offset
      · have h4 := h2 (hleft heq).1 item (.item (x := (item, (mn, mx))) (env.grammar_some hd) (by simp [hk, PKind.expr, hall]; rfl) (hleft heq).2.2)
        refine ⟨?_, ?_⟩
        · intro o ho id
          obtain ⟨l1, l2⟩ := h4.later o (by omega) id
          exact ⟨by rw [hpc, l1], fun t => by rw [hh o (by omega), l2]⟩
        · intro q e' hq he' hke' hl
          obtain ⟨l1, l2⟩ := h4.here hq he' hke' hl
          exact ⟨by rw [hpc, ← heq, l1], fun t => by rw [hh _ (Nat.le_refl _), ← heq, l2]⟩
      · refine ⟨?_, ?_⟩
        · intro o ho id
          obtain ⟨l1, l2⟩ := h3 o (by omega) id
          exact ⟨by rw [hpc, l1], fun t => by rw [hh o (by omega), l2]⟩
        · intro q e' hq he' hke' hl
          obtain ⟨l1, l2⟩ := h3 c.offset (by omega) e'.id
          exact ⟨by rw [hpc, l1], fun t => by rw [hh _ (Nat.le_refl _), l2]⟩
    have hri : Ref env.grammar (env.blocked input) input item c.offset (f item c.offset) := B.ctxt.ref hRi _
    have hrest : is.zip rs = (front ++ [(item, (mn, mx))]) ++ rest := by simp [hall]
    unfold seqBuildLoop
    simp only
    refine Res.Spec.bind (hrec item c e hRi (B.ctxt.item_not_tail hR hd hk hmem) he hke ht (hvis _ _ .here) ho hin) ?_
    rintro ⟨ns0, c'⟩ hb
    have hpc' : ∀ o id, c'.res.pcount o id = r.pcount o id := fun o id => (hb.pc o id).trans (hpc o id)
    have hpl' : r.isPending.length ≤ c'.res.isPending.length := Nat.le_trans hpl hb.plen
    -- by the rule that applies
    generalize hm : some (j, ns) = m at href
    cases href with
    | fail g1 g2 => cases hm
    | done g1 g2 g3 =>
      have hn := hri.unique g1
      have := hb.none hn
      simp only [Prod.mk.injEq] at this
      obtain ⟨rfl, rfl⟩ := this
      subst hm
      simp only
      refine seqBuildLoop_exact B hR hd hk hrec h2 h3 n _ rest 0 nodes c' j ns hrest ?_ hle ht hpc hpl ho hh g3
        (fun q l hv => hvis q l (.done hn hv))
      intro hx
      obtain ⟨kl, k1, k2⟩ := hleft hx
      refine ⟨kl, rfl, fun y hy => ?_⟩
      simp only [List.mem_append, List.mem_singleton] at hy
      rcases hy with hy | rfl
      · exact k2 y hy
      · intro hpos; simp only at hpos; omega
    | empty g1 g2 =>
      rename_i ns1 m1
      have hn := hri.unique g1
      obtain ⟨b1, b2⟩ := hb.some _ _ hn
      simp only at b1 b2
      subst b1
      obtain ⟨ns2, hm1⟩ := prepend_some hm.symm
      simp only at hm1
      subst hm1
      simp only [prepend, Option.map_some, Option.some.injEq, Prod.mk.injEq, true_and] at hm
      subst hm
      simp only [b2, Nat.lt_irrefl, gt_iff_lt, if_false]
      refine (seqBuildLoop_exact B hR hd hk hrec h2 h3 n _ rest 0 _ c' j ns2 hrest ?_ (by omega) hb.toks hpc' hpl' hb.once ?_
        (by rw [b2]; exact g2) (fun q l hv => hvis q l (.empty hn (by rw [← b2]; exact hv)))).imp ?_
      · intro hx
        obtain ⟨kl, k1, k2⟩ := hleft (by omega)
        refine ⟨kl, rfl, fun y hy => ?_⟩
        simp only [List.mem_append, List.mem_singleton] at hy
        rcases hy with hy | rfl
        · exact k2 y hy
        · intro _; exact g1.nullable _ rfl
      · intro o ho id t
        rw [hb.has o (by simp only; omega), hh o (by omega)]
      · rintro x ⟨y1, y2⟩
        exact ⟨by rw [y1, List.append_assoc], y2⟩
    | last g1 g2 g3 g4 g5 =>
      rename_i j1 ns1 m1
      have hn := hri.unique g1
      obtain ⟨b1, b2⟩ := hb.some _ _ hn
      simp only at b1 b2
      subst b1
      obtain ⟨ns2, hm1⟩ := prepend_some hm.symm
      simp only at hm1
      subst hm1
      simp only [prepend, Option.map_some, Option.some.injEq, Prod.mk.injEq, true_and] at hm
      subst hm
      simp only [b2, gt_iff_lt, g2, if_true]
      rw [if_pos (by simp [g3, g4])]
      refine (seqBuildLoop_exact B hR hd hk hrec h2 h3 n _ rest 0 _ c' j ns2 hrest (by omega) (by omega) hb.toks hpc' hpl' hb.once ?_
        (by rw [b2]; exact g5) (fun q l hv => hvis q l (.last hn g2 g3 g4 (by rw [← b2]; exact hv)))).imp ?_
      · intro o ho id t
        rw [hb.has o (by simp only; omega), hh o (by omega)]
      · rintro x ⟨y1, y2⟩
        exact ⟨by rw [y1, List.append_assoc], y2⟩
    | more g1 g2 g3 g5 =>
      rename_i j1 ns1 m1
      have hn := hri.unique g1
      obtain ⟨b1, b2⟩ := hb.some _ _ hn
      simp only at b1 b2
      subst b1
      obtain ⟨ns2, hm1⟩ := prepend_some hm.symm
      simp only at hm1
      subst hm1
      simp only [prepend, Option.map_some, Option.some.injEq, Prod.mk.injEq, true_and] at hm
      subst hm
      simp only [b2, gt_iff_lt, g2, if_true]
      rw [if_neg (by simpa using g3)]
      refine (seqBuildLoop_exact B hR hd hk hrec h2 h3 n front _ (k + 1) _ c' j ns2 hall (by omega) (by omega) hb.toks hpc' hpl' hb.once ?_
        (by rw [b2]; exact g5) (fun q l hv => hvis q l (.more hn g2 g3 (by rw [← b2]; exact hv)))).imp ?_
      · intro o ho id t
        rw [hb.has o (by simp only; omega), hh o (by omega)]
      · rintro x ⟨y1, y2⟩
        exact ⟨by rw [y1, List.append_assoc], y2⟩

theorem seqBuild_exact (B : BCtxt env R input f root S) {p : Ptr} {d : PDef} {is : List Ptr} {rs : List (Int × Int)}
    {ac : Bool} (hR : R p) (hn : ¬ IsTail env p) (hd : env.defs[p]? = some d) (hk : d.kind = .seq is rs ac)
    {rec : Ptr → Ctx → Res (Option (List Node) × Ctx)} (hrec : BRecE env R input f S rec) {lfuel : Nat} {c : Ctx}
    (ht : c.tokens = input) (hr : Recorded env f S p c.offset) (ho : c.res.Once) (hi : Intact env R S p c.offset c.res) :
    (seqBuild rec lfuel d is rs ac c).Spec False True (BuiltAs input f p c) := by
  have hk' : d.kind.isChar = false := by rw [hk]; rfl
  have hh := hi.here hR hd hk' (Or.inl rfl)
  obtain ⟨m, g1, g2⟩ := B.ctxt.seq hR hd hk c.offset
  unfold seqBuild
  rw [B.longest hR hn hd hk' hr hi]
  cases hf : f p c.offset with
  | none =>
    exact ⟨fun _ => rfl, fun j ns h => (by rw [hf] at h; cases h), ht, fun _ _ => rfl, Nat.le_refl _, fun _ _ _ _ => Iff.rfl, ho⟩
  | some x =>
    obtain ⟨to, ns⟩ := x
    rw [hf] at g2
    obtain ⟨-, g2⟩ | ⟨_, _, -, -, g2⟩ := g2
    rotate_left
    · cases g2
    cases m with
    | none => cases g2
    | some y =>
      obtain ⟨to', ns'⟩ := y
      simp only [Option.map_some, Option.some.injEq, Prod.mk.injEq] at g2
      obtain ⟨rfl, rfl⟩ := g2
      simp only [Option.map_some]
      cases ac with
      | true =>
        simp only [if_true]
        have hne : ns' = [] := by
          refine RefItems.chars g1 ?_ _ _ rfl
          intro x hx
          obtain ⟨q, mn, mx⟩ := x
          have hmem := (List.of_mem_zip hx).1
          obtain ⟨d', e1, e2⟩ := B.ctxt.closed.chars hR hd hk hmem
          cases hkd : d'.kind with
          | char neg cs rs => exact ⟨_, neg, cs, rs, env.grammar_some e1, by simp [hkd, PKind.expr]⟩
          | choice => rw [hkd] at e2; cases e2
          | seq => rw [hkd] at e2; cases e2
        subst hne
        split
        · rename_i hal
          refine ⟨fun h => (by rw [hf] at h; cases h), ?_, ht, fun _ _ => rfl, Nat.le_refl _, fun _ _ _ _ => Iff.rfl, ho⟩
          intro j ns h
          rw [hf] at h
          cases h
          exact ⟨by simp [GDef.wrap, hal], rfl⟩
        · rename_i hal
          refine ⟨fun h => (by rw [hf] at h; cases h), ?_, ht, fun _ _ => rfl, Nat.le_refl _, fun _ _ _ _ => Iff.rfl, ho⟩
          intro j ns h
          rw [hf] at h
          cases h
          exact ⟨by simp [GDef.wrap, hal, ht], rfl⟩
      | false =>
        simp only [Bool.false_eq_true, if_false]
        rw [if_neg (by rw [(Results.pending_false_iff ..).2 hh.1]; simp)]
        obtain ⟨r, h1, h2, h3, h4, hro, h5⟩ := B.enter hR hn hd hk' hf hr ho hi
        rw [h1]
        simp only [Res.bind_ok]
        have hSh : S.Has c.offset d.id to := hr d hd hk' _ _ hf
        refine Res.Spec.bind (seqBuildLoop_exact B hR hd hk hrec (L := True) (fun _ => h2) h3 lfuel [] (is.zip rs) 0 [] { c with res := r } to ns' rfl
          (fun _ => ⟨trivial, rfl, by simp⟩) (Nat.le_refl _) ht (fun _ _ => rfl) (Nat.le_refl _) hro (fun _ _ _ _ => Iff.rfl) g1
          (B.good.seqKids hR hn hd hk hSh)) ?_
        rintro ⟨nodes, c'⟩ ⟨b1, b2, b3, b4, b5, b7, b6⟩
        simp only [List.nil_append] at b1 b2 b3 b4 b5 b6 b7
        subst b1
        obtain ⟨r3, k1, k2, k3, k4, k5⟩ := h5 c'.res b4 b5 b7
        simp only
        rw [k1]
        simp only [Res.bind_ok]
        have hhas : ∀ o, to ≤ o → ∀ id t, r3.Has o id t ↔ c.res.Has o id t := by
          intro o ho id t
          have h6 := B.ctxt.bounded hR hf
          rw [k4, b6 o ho]
          by_cases heq : to = c.offset
          · exact h4 heq o id t
          · rw [(h3 o (by omega) id).2, (hi.later o (by omega) id).2]
        split
        · rename_i hal
          refine ⟨fun h => (by rw [hf] at h; cases h), ?_, b3, k2, k3, by simpa [b2] using hhas, k5⟩
          intro j ns h
          rw [hf] at h
          cases h
          exact ⟨by simp [GDef.wrap, hal], b2⟩
        · rename_i hal
          refine ⟨fun h => (by rw [hf] at h; cases h), ?_, b3, k2, k3, by simpa [b2] using hhas, k5⟩
          intro j ns h
          rw [hf] at h
          cases h
          exact ⟨by simp [GDef.wrap, hal, b3], b2⟩

theorem Res.bind_assoc {α β γ : Type} (x : Res α) (g : α → Res β) (h : β → Res γ) :
    (x.bind g).bind h = x.bind fun a => (g a).bind h := by
  cases x <;> rfl

/-- The only option with a record. -/
theorem findOption_only {r : Results} {i to : Nat} {s : Ptr} {es : PDef} (hs : env.defs[s]? = some es) (hh : r.Has i es.id to) :
    ∀ (os : List Ptr), s ∈ os → (∀ o ∈ os, ∃ e, env.defs[o]? = some e ∧ (r.Has i e.id to → o = s)) →
      findOption env r i to os = .ok (some s)
  | [], h, _ => by cases h
  | o :: os, h, hos => by
    obtain ⟨e, he, h1⟩ := hos o (by simp)
    unfold findOption
    rw [he]
    simp only
    by_cases h2 : r.Has i e.id to
    · rw [if_pos ((Results.hasMatchTo_iff ..).2 h2), h1 h2]
    · rw [if_neg (fun h3 => h2 ((Results.hasMatchTo_iff ..).1 h3))]
      refine findOption_only hs hh os ?_ fun o ho => hos o (by simp [ho])
      rcases List.mem_cons.1 h with rfl | h
      · rw [hs] at he; cases he; exact absurd hh h2
      · exact h

/-- The records of the left recursive choice `a` and of its left recursive options that end at most at `j` are there, the longer
ones have been dropped. -/
structure Cut (env : Env) (R : Ptr → Prop) (S : Results) (a : Ptr) (x : Growing) (i j : Nat) (r : Results) : Prop where
  later : ∀ o, i < o → ∀ id, r.pcount o id = 0 ∧ ∀ to, r.Has o id to ↔ S.Has o id to
  choice : ∀ t, r.Has i x.d.id t ↔ S.Has i x.d.id t ∧ t ≤ j
  option : ∀ y : Growing, y.Of env a → ∀ t, r.Has i y.e.id t ↔ S.Has i y.e.id t ∧ t ≤ j
  bases : ∀ o, LeftCall env.grammar a o → Intact env R S o i r
  once : r.Once

/-- The records of the left recursive options are tails. -/
theorem BCtxt.tailStep (B : BCtxt env R input f root S) {a : Ptr} {x y : Growing} (hR : R a) (hx : x.Of env a) (hy : y.Of env a)
    {i t : Nat} (h : S.Has i y.e.id t) :
    ∃ k j ns ms, StepTo env.grammar (env.blocked input) input x.d.gdef x.ss x.bs i y.s y.tail k j ns t ms := by
  obtain ⟨k, j, ns, ms, h1, -⟩ := B.good.tailHas hR hy h
  exact ⟨k, j, ns, ms, hx.steps hy h1⟩

/-- The records of a left recursive choice: those shorter than a match with a tail are not longer than the match without this
tail. -/
theorem BCtxt.shorter (B : BCtxt env R input f root S) {a : Ptr} {x : Growing} (hR : R a) (hx : x.Of env a) {i k j j' : Nat}
    {ns ms : List Node} (hs : x.Step env input i k j' ns j ms) :
    (∀ t, S.Has i x.d.id t → t < j → t ≤ j') ∧ ∀ y : Growing, y.Of env a → ∀ t, S.Has i y.e.id t → t < j → t ≤ j' := by
  have opt : ∀ y : Growing, y.Of env a → ∀ t, S.Has i y.e.id t → t < j → t ≤ j' := by
    intro y hy t h ht
    obtain ⟨l, _, _, _, h1⟩ := B.tailStep hR hx hy h
    exact hs.between hx.gs hx.gi (h1.chain hy.gs hy.gi) ht
  refine ⟨fun t h ht => ?_, opt⟩
  rcases B.good.chHas hR hx.da hx.ka h with hb | ⟨y, hy, h1⟩
  · obtain ⟨t', ms, hb, hle⟩ := hb.base hx B.ctxt hR
    have := hs.front.base_le hb
    omega
  · exact opt y hy t h1 ht

/-- What building a left recursive choice does. -/
structure GrownTo (input : List Rune) (j : Nat) (ns : List Node) (c : Ctx) (x : Option (List Node) × Ctx) : Prop where
  nodes : x.1 = some ns
  off : x.2.offset = j
  toks : x.2.tokens = input
  pc : ∀ o id, x.2.res.pcount o id = c.res.pcount o id
  plen : c.res.isPending.length ≤ x.2.res.isPending.length
  has : ∀ o, j ≤ o → ∀ id to, x.2.res.Has o id to ↔ c.res.Has o id to
  once : x.2.res.Once

/-- The records of the options that are not left recursive. -/
theorem BCtxt.baseRecord (B : BCtxt env R input f root S) {a : Ptr} {x : Growing} (hR : R a) (hx : x.Of env a) {i j0 t : Nat}
    {ns0 : List Node} (hb : RefOptions env.grammar (env.blocked input) input x.bs i (some (j0, ns0))) {o : Ptr} (ho : o ∈ x.bs) {e : PDef}
    (he : env.defs[o]? = some e) (hh : S.Has i e.id t) : t ≤ j0 ∧ (t = j0 → ∃ ns, f o i = some (t, ns)) := by
  have hRo := hx.base B.ctxt hR ho
  have hke := B.plainOption hR hx.da hx.ka (hx.mem.2 (Or.inr ho)) he
  have hno : ¬ IsTail env o := B.ctxt.option_not_tail hR hx.da hx.ka (hx.mem.2 (Or.inr ho)) (hx.growth.bases o ho)
  have hbs := (hx.bases B.ctxt hR hb).2
  cases hkd : e.kind with
  | char => rw [hkd] at hke; cases hke
  | seq is rs ac =>
    obtain ⟨ns, h1⟩ := B.good.seqHas hRo hno he hkd hh
    exact ⟨hbs o ho _ h1, fun _ => ⟨ns, h1⟩⟩
  | choice os' =>
    obtain ⟨t', ns, h1, h2⟩ := B.good.chLe B.ctxt hRo he hkd hh
    have h3 := hbs o ho _ h1
    simp only at h3
    refine ⟨by omega, fun h4 => ?_⟩
    obtain rfl : t = t' := by omega
    exact ⟨ns, h1⟩

/-- The records of the left recursive options are not those of the choice. -/
theorem Growing.Of.foreign {x y : Growing} {a : Ptr} (hx : x.Of env a) (hy : y.Of env a) (K : Ctxt env R input f root) (hR : R a) :
    y.e.id ∉ x.d.id :: x.d.gens := by
  have hka : x.d.kind.isChar = false := by rw [hx.ka]; rfl
  have hks : y.e.kind.isChar = false := by rw [hy.ks]; rfl
  have hRs := hy.reach K hR
  intro hm
  rcases List.mem_cons.1 hm with hm | hm
  · rw [← (hx.common hy).1] at hm
    exact hy.ids K hR hm.symm
  · obtain ⟨q, e, g1, g2, g3, g4⟩ := K.gens hR hx.da hka hm
    have := K.ids g1 hRs g2 hy.ds (g4.nonchar g2) hks g3
    subst this
    obtain ⟨os, hos⟩ := g4.isChoice hy.ds
    rw [hy.ks] at hos; cases hos

/-- Options that do not match do not matter. -/
theorem better_skip {i : Nat} : ∀ (l : List Ptr), (∀ o ∈ l, f o i = none) → ∀ (m : Match), (l.map fun o => f o i).foldr better m = m
  | [], _, _ => rfl
  | o :: l, h, m => by
    simp only [List.map_cons, List.foldr_cons]
    rw [h o (by simp), better_skip l (fun o ho => h o (by simp [ho]))]
    cases m <;> rfl

/-- Building the match without tails. -/
theorem growBuild_base (B : BCtxt env R input f root S) {a : Ptr} {x : Growing} (hR : R a) (hx : x.Of env a) {N : Nat}
    (hrec : ∀ m < N, BRecE env R input f S (build env m)) (n : Nat) (hn : n ≤ N) (c : Ctx) (j : Nat) (ns : List Node)
    (hch : x.Chain env input c.offset 0 j ns) (ht : c.tokens = input) (hS : S.Has c.offset x.d.id j)
    (hcut : Cut env R S a x c.offset j c.res) : (build env n a c).Spec False True (GrownTo input j ns c) := by
  have hka : x.d.kind.isChar = false := by rw [hx.ka]; rfl
  have hna : ¬ IsTail env a := choice_not_tail hx.da hx.ka
  cases n with
  | zero => trivial
  | succ n =>
    have hlt := hx.lt hch
    have hlong : c.res.longestMatch c.offset x.d.id = some j :=
      (Results.longestMatch_some ..).2 ⟨(hcut.choice j).2 ⟨hS, Nat.le_refl _⟩, fun t h => ((hcut.choice t).1 h).2⟩
    obtain ⟨r, h1, h2, h3, h4⟩ := dropAll_iff c.offset j (x.d.id :: x.d.gens) c.res
      (Results.has_lt ((hcut.choice j).2 ⟨hS, Nat.le_refl _⟩)) hcut.once
    have hpc : ∀ o id, r.pcount o id = c.res.pcount o id := by intro o id; simp [Results.pcount, h2]
    have hbase : ∀ o, LeftCall env.grammar a o → Intact env R S o c.offset r := by
      intro o hc
      refine ⟨fun o' ho' id => ⟨by rw [hpc]; exact (hcut.later o' ho' id).1, fun t => ?_⟩, ?_⟩
      · rw [h4, ← (hcut.later o' ho' id).2]
        exact ⟨fun h => h.1, fun h => ⟨h, fun h5 => by omega⟩⟩
      · intro q e hq he hke hl
        obtain ⟨g1, g2⟩ := (hcut.bases o hc).here hq he hke hl
        refine ⟨by rw [hpc, g1], fun t => ?_⟩
        rw [h4, ← g2]
        exact ⟨fun h => h.1, fun h => ⟨h, fun h5 => B.strict hR hna hx.da hka hc hq he hke hl h5.2.1⟩⟩
    have hlo : ∀ o ∈ x.bs, LeftCall env.grammar a o := fun o ho =>
      .option hx.gd hx.ge (hx.mem.2 (Or.inr ho)) (hx.growth.bases o ho)
    unfold build
    rw [hx.da]
    simp only [hx.ka]
    unfold choiceBuild
    rw [hlong]
    simp only [gt_iff_lt, hlt, decide_true, Bool.not_true, Bool.false_and, Bool.false_eq_true, if_false, if_true]
    rw [h1]
    simp only [Res.bind_ok]
    cases hch with
    | base hb =>
    rename_i ns0
    have g3 := RefOptions.of_fun hb fun o ho => B.ctxt.ref (hx.base B.ctxt hR ho) c.offset
    have g4 : (((x.os.map fun o => (o, f o c.offset))).map (·.2)).foldr better none = some (j, ns0) := by
      rw [g3, List.map_map]
      have hnone : ∀ o ∈ x.ss, f o c.offset = none := by
        intro o ho
        obtain ⟨y, hy, rfl⟩ := hx.other B.ctxt hR ho
        exact hy.option_none B.ctxt hR c.offset
      rw [hx.growth.options]
      simp only [List.map_append, List.foldr_append]
      have hsk1 := better_skip x.fs (fun o ho => hnone o (by simp [ho]))
      have hsk2 := better_skip x.ls (fun o ho => hnone o (by simp [ho])) none
      simp only [Function.comp_def]
      rw [hsk1, hsk2]
    obtain ⟨l1, o, l2, g5, g6⟩ := better_first g4
    have hmem : o ∈ x.os ∧ f o c.offset = some (j, ns0) := by
      have : (o, some (j, ns0)) ∈ x.os.map fun o => (o, f o c.offset) := by rw [g5]; simp
      obtain ⟨o', ho', h⟩ := List.mem_map.1 this
      simp only [Prod.mk.injEq] at h
      obtain ⟨rfl, h⟩ := h
      exact ⟨ho', h⟩
    have hob : o ∈ x.bs := by
      rcases hx.mem.1 hmem.1 with h | h
      · obtain ⟨y, hy, rfl⟩ := hx.other B.ctxt hR h
        have := hmem.2; rw [hy.option_none B.ctxt hR] at this; cases this
      · exact h
    have hkids := B.good.chKids hR hx.da hx.ka (B.pc _ _) hS
    have hfo := findOption_exact (env := env) (r := r) x.os g5 g6 (by
      intro o' ho'
      rcases hx.mem.1 ho' with hb' | hb'
      · obtain ⟨y, hy, rfl⟩ := hx.other B.ctxt hR hb'
        refine ⟨y.e, hy.ds, ?_⟩
        rw [h4, hcut.option y hy]
        constructor
        · rintro ⟨⟨q1, -⟩, -⟩
          obtain ⟨l, _, _, _, q2⟩ := B.tailStep hR hx hy q1
          have := q2.front.base_le hb
          have := q2.lt
          omega
        · rintro ⟨ns', q⟩
          rw [hy.option_none B.ctxt hR] at q; cases q
      · obtain ⟨e, he⟩ := B.ctxt.closed.def_ (hx.base B.ctxt hR hb')
        have hke := B.plainOption hR hx.da hx.ka ho' he
        refine ⟨e, he, ?_⟩
        rw [((hbase o' (hlo o' hb')).here (hx.base B.ctxt hR hb') he hke (Or.inl rfl)).2]
        constructor
        · intro q
          exact (B.baseRecord hR hx hb hb' he q).2 rfl
        · rintro ⟨ns'', q⟩
          exact hkids o' ho' e he hke _ _ q)
    rw [hfo]
    simp only [Res.bind_ok]
    obtain ⟨e, he⟩ := B.ctxt.closed.def_ (hx.base B.ctxt hR hob)
    refine Res.Spec.bind (hrec n (by omega) o { c with res := r } e (hx.base B.ctxt hR hob)
      (B.ctxt.option_not_tail hR hx.da hx.ka hmem.1 (hx.growth.bases o hob)) he (B.plainOption hR hx.da hx.ka hmem.1 he) ht
      (hkids o hmem.1) h3 (hbase o (hlo o hob))) ?_
    rintro ⟨n', c'⟩ hbu
    obtain ⟨b1, b2⟩ := hbu.some _ _ hmem.2
    simp only at b1 b2
    subst b1
    simp only [Option.getD_some, Res.bind_ok]
    have hhas : ∀ o, j ≤ o → ∀ id t, c'.res.Has o id t ↔ c.res.Has o id t := by
      intro o ho id t
      rw [hbu.has o (by simp only [b2]; exact ho)]
      simp only
      rw [h4]
      exact ⟨fun h => h.1, fun h => ⟨h, fun h5 => by omega⟩⟩
    have htk := hbu.toks
    simp only at htk
    split
    · rename_i hal
      exact ⟨by simp [GDef.wrap, hal], b2, htk, fun o id => (hbu.pc o id).trans (hpc o id), by
        have := hbu.plen; simp only [h2] at this; exact this, hhas, hbu.once⟩
    · rename_i hal
      exact ⟨by simp [GDef.wrap, hal, htk], b2, htk, fun o id => (hbu.pc o id).trans (hpc o id), by
        have := hbu.plen; simp only [h2] at this; exact this, hhas, hbu.once⟩

/-- Building the match with a tail. -/
theorem growBuild_step (B : BCtxt env R input f root S) {a : Ptr} {x : Growing} (hR : R a) (hx : x.Of env a) {N k : Nat}
    (hrec : ∀ m < N, BRecE env R input f S (build env m)) (n : Nat) (hn : n ≤ N) (c : Ctx) (j j' : Nat) (ns' ms : List Node)
    (hst : x.Step env input c.offset k j' ns' j ms) (ht : c.tokens = input) (hS : S.Has c.offset x.d.id j)
    (hSs : S.Has c.offset x.e.id j) (t3 : S.Has c.offset x.d.id j')
    (t4 : ∀ q l, Visits f x.tail 0 j' q l → Recorded env f S q l)
    (ih : ∀ n ≤ N, ∀ r, Cut env R S a x c.offset j' r →
      (build env n a { c with res := r }).Spec False True (GrownTo input j' ns' { c with res := r }))
    (hcut : Cut env R S a x c.offset j c.res) :
    (build env n a c).Spec False True
      (GrownTo input j (x.d.gdef.wrap input c.offset j (x.e.gdef.wrap input c.offset j (ns' ++ ms))) c) := by
  have hka : x.d.kind.isChar = false := by rw [hx.ka]; rfl
  have hRs := hx.reach B.ctxt hR
  have hna : ¬ IsTail env a := choice_not_tail hx.da hx.ka
  have hch := hx.next hst
  cases n with
  | zero => trivial
  | succ n =>
    have hlt := hx.lt hch
    have hlong : c.res.longestMatch c.offset x.d.id = some j :=
      (Results.longestMatch_some ..).2 ⟨(hcut.choice j).2 ⟨hS, Nat.le_refl _⟩, fun t h => ((hcut.choice t).1 h).2⟩
    obtain ⟨r, h1, h2, h3, h4⟩ := dropAll_iff c.offset j (x.d.id :: x.d.gens) c.res
      (Results.has_lt ((hcut.choice j).2 ⟨hS, Nat.le_refl _⟩)) hcut.once
    have hpc : ∀ o id, r.pcount o id = c.res.pcount o id := by intro o id; simp [Results.pcount, h2]
    have hbase : ∀ o, LeftCall env.grammar a o → Intact env R S o c.offset r := by
      intro o hc
      refine ⟨fun o' ho' id => ⟨by rw [hpc]; exact (hcut.later o' ho' id).1, fun t => ?_⟩, ?_⟩
      · rw [h4, ← (hcut.later o' ho' id).2]
        exact ⟨fun h => h.1, fun h => ⟨h, fun h5 => by omega⟩⟩
      · intro q e hq he hke hl
        obtain ⟨g1, g2⟩ := (hcut.bases o hc).here hq he hke hl
        refine ⟨by rw [hpc, g1], fun t => ?_⟩
        rw [h4, ← g2]
        exact ⟨fun h => h.1, fun h => ⟨h, fun h5 => B.strict hR hna hx.da hka hc hq he hke hl h5.2.1⟩⟩
    have hlo : ∀ o ∈ x.bs, LeftCall env.grammar a o := fun o ho =>
      .option hx.gd hx.ge (hx.mem.2 (Or.inr ho)) (hx.growth.bases o ho)
    unfold build
    rw [hx.da]
    simp only [hx.ka]
    unfold choiceBuild
    rw [hlong]
    simp only [gt_iff_lt, hlt, decide_true, Bool.not_true, Bool.false_and, Bool.false_eq_true, if_false, if_true]
    rw [h1]
    simp only [Res.bind_ok]
    obtain ⟨j0, ns0, hb⟩ := hch.hasBase
    have hj0 := hst.front.base_le hb
    have hj' := hst.lt
    have hrs : ∀ t, r.Has c.offset x.e.id t ↔ S.Has c.offset x.e.id t ∧ t ≤ j := by
      intro t
      rw [h4, hcut.option x hx]
      exact ⟨fun h => h.1, fun h => ⟨h, fun h5 => hx.foreign hx B.ctxt hR h5.2.1⟩⟩
    have same : ∀ y : Growing, y.Of env a → S.Has c.offset y.e.id j → y = x := by
      intro y hy hh
      obtain ⟨l, _, _, _, q⟩ := B.tailStep hR hx hy hh
      obtain ⟨-, q1, -⟩ := q.same hy.gs hy.gi hst hx.gs hx.gi
      exact hy.unique hx q1
    have hrsj := (hrs j).2 ⟨hSs, Nat.le_refl _⟩
    rw [findOption_only (env := env) (r := r) hx.ds hrsj x.os (hx.mem.2 (Or.inl hx.trial)) (by
      intro o' ho'
      rcases hx.mem.1 ho' with hb' | hb'
      · obtain ⟨y, hy, rfl⟩ := hx.other B.ctxt hR hb'
        refine ⟨y.e, hy.ds, fun q => ?_⟩
        rw [h4, hcut.option y hy] at q
        rw [same y hy q.1.1]
      · obtain ⟨e, he⟩ := B.ctxt.closed.def_ (hx.base B.ctxt hR hb')
        have hke := B.plainOption hR hx.da hx.ka ho' he
        refine ⟨e, he, fun q => ?_⟩
        rw [((hbase o' (hlo o' hb')).here (hx.base B.ctxt hR hb') he hke (Or.inl rfl)).2] at q
        have := (B.baseRecord hR hx hb hb' he q).1
        omega)]
    simp only [Res.bind_ok]
    cases n with
    | zero => simp only [build]; trivial
    | succ n =>
    -- the left recursive option
    have hlongs : r.longestMatch c.offset x.e.id = some j :=
      (Results.longestMatch_some ..).2 ⟨hrsj, fun t h => ((hrs t).1 h).2⟩
    obtain ⟨r', k1, k2, k3, k4⟩ := dropAll_iff c.offset j (x.e.id :: x.e.gens) r (Results.has_lt hrsj) h3
    have hpc' : ∀ o id, r'.pcount o id = c.res.pcount o id := by intro o id; rw [← hpc]; simp [Results.pcount, k2]
    have hsh := B.shorter hR hx hst
    have t1 := hst.front
    have hcut' : Cut env R S a x c.offset j' r' := by
      refine ⟨fun o ho id => ⟨by rw [hpc']; exact (hcut.later o ho id).1, fun t => ?_⟩, fun t => ?_, fun y hy t => ?_, fun o hc => ⟨?_, ?_⟩, k3⟩
      · rw [k4, h4, ← (hcut.later o ho id).2]
        exact ⟨fun h => h.1.1, fun h => ⟨⟨h, fun h5 => by omega⟩, fun h5 => by omega⟩⟩
      · rw [k4, h4, hcut.choice]
        constructor
        · rintro ⟨⟨⟨q1, q2⟩, q3⟩, -⟩
          refine ⟨q1, hsh.1 t q1 ?_⟩
          have : t ≠ j := fun h => q3 ⟨rfl, by simp, h⟩
          omega
        · rintro ⟨q1, q2⟩
          exact ⟨⟨⟨q1, by omega⟩, fun h => by omega⟩, fun h => by omega⟩
      · rw [k4, h4, hcut.option y hy]
        constructor
        · rintro ⟨⟨⟨q1, q2⟩, -⟩, q3⟩
          refine ⟨q1, hsh.2 y hy t q1 ?_⟩
          have : t ≠ j := by
            rintro rfl
            rw [same y hy q1] at q3
            exact q3 ⟨rfl, by simp, rfl⟩
          omega
        · rintro ⟨q1, q2⟩
          exact ⟨⟨⟨q1, by omega⟩, fun h => by omega⟩, fun h => by omega⟩
      · intro o' ho' id
        refine ⟨by rw [hpc']; exact (hcut.later o' ho' id).1, fun t => ?_⟩
        rw [k4, h4, ← (hcut.later o' ho' id).2]
        exact ⟨fun h => h.1.1, fun h => ⟨⟨h, fun h5 => by omega⟩, fun h5 => by omega⟩⟩
      · intro q e hq he hke hl
        obtain ⟨g1, g2⟩ := (hbase o hc).here hq he hke hl
        refine ⟨by rw [hpc', ← hpc, g1], fun t => ?_⟩
        rw [k4, ← g2]
        exact ⟨fun h => h.1, fun h => ⟨h, fun h5 => B.strict_tail hR hx hc hq he hke hl h5.2.1⟩⟩
    unfold build
    rw [hx.ds]
    simp only [hx.ks]
    unfold seqBuild
    simp only [hlongs]
    simp only [gt_iff_lt, hlt, decide_true, Bool.not_true, Bool.false_and, Bool.false_eq_true, if_false, if_true]
    rw [k1]
    simp only [Res.bind_ok, hx.zip]
    -- the choice again, with one tail less
    unfold seqBuildLoop
    simp only [Res.bind_assoc]
    refine Res.Spec.bind (ih n (by omega) r' hcut') ?_
    rintro ⟨n1, c1⟩ hg1
    have e1 := hg1.nodes
    have e2 := hg1.off
    simp only at e1 e2
    subst e1
    simp only [e2, gt_iff_lt, hx.lt t1, if_true]
    rw [if_pos (by decide)]
    -- the tail
    have u2 := hst.items
    have hle : c.offset < j' := hx.lt t1
    have hlater1 : ∀ o, j' - 1 < o → ∀ id, c1.res.pcount o id = 0 ∧ ∀ t, c1.res.Has o id t ↔ S.Has o id t := by
      intro o ho id
      refine ⟨?_, fun t => ?_⟩
      · rw [hg1.pc]; simp only; rw [hpc']; exact (hcut.later o (by omega) id).1
      · rw [hg1.has o (by omega)]; exact (hcut'.later o (by omega) id).2 t
    refine Res.Spec.bind (seqBuildLoop_exact B hRs hx.ds hx.ks (hrec n (by omega)) (from_ := j' - 1) (r := c1.res) (L := False)
      (fun h => h.elim) hlater1 n [(a, 1, 1)] x.tail 0 _ c1 j ms hx.zip (fun h => by omega) (by omega) hg1.toks (fun _ _ => rfl)
      (Nat.le_refl _) hg1.once (fun _ _ _ _ => Iff.rfl) (by rw [e2]; exact u2) (by rw [e2]; exact t4)) ?_
    rintro ⟨nodes, c2⟩ ⟨b1, b2, b3, b4, b5, b7, b6⟩
    simp only [List.nil_append] at b1 b2 b3 b4 b5 b6 b7
    subst b1
    simp only [Res.bind_ok]
    have hhas : ∀ o, j ≤ o → ∀ id t, c2.res.Has o id t ↔ c.res.Has o id t := by
      intro o ho id t
      rw [b6 o ho, hg1.has o (by omega)]
      simp only
      rw [(hcut'.later o (by omega) id).2, (hcut.later o (by omega) id).2]
    have hpc2 : ∀ o id, c2.res.pcount o id = c.res.pcount o id := fun o id => by
      rw [b4, hg1.pc]; exact hpc' o id
    have hpl2 : c.res.isPending.length ≤ c2.res.isPending.length := by
      have := hg1.plen
      simp only [k2, h2] at this
      omega
    by_cases hale : x.e.commit.alias = true <;> by_cases hal : x.d.commit.alias = true
    all_goals
      simp only [hale, hal, if_true, if_false, Bool.false_eq_true, Res.bind_ok, Option.getD_some]
      exact ⟨by simp [GDef.wrap, hal, hale, b3], b2, b3, hpc2, hpl2, hhas, b7⟩

/-- Building a left recursive choice. -/
theorem growBuild_exact (B : BCtxt env R input f root S) {a : Ptr} {N : Nat} (hR : R a)
    (hrec : ∀ m < N, BRecE env R input f S (build env m)) :
    ∀ (k : Nat) (x : Growing), x.Of env a → ∀ (n : Nat), n ≤ N → ∀ (c : Ctx) (j : Nat) (ns : List Node),
      x.Chain env input c.offset k j ns → c.tokens = input → S.Has c.offset x.d.id j → Cut env R S a x c.offset j c.res →
      (build env n a c).Spec False True (GrownTo input j ns c) := by
  intro k
  induction k with
  | zero => exact fun x hx n hn c j ns hch ht hS hcut => growBuild_base B hR hx hrec n hn c j ns hch ht hS hcut
  | succ k ih =>
    intro x hx n hn c j ns hch ht hS hcut
    generalize hk : k + 1 = k' at hch
    cases hch with
    | base => cases hk
    | skip h1 => cases hk; exact ih x hx n hn c j ns h1 ht hS hcut
    | step h1 h2 h3 h4 h5 h6 =>
      rename_i ms
      cases hk
      have hst := StepTo.mk h1 h2 h5 h6
      rcases B.good.chHas hR hx.da hx.ka hS with hb | ⟨y, hy, hSs⟩
      · obtain ⟨t', ms, hb, hle⟩ := hb.base hx B.ctxt hR
        have := h1.base_le hb
        omega
      · obtain ⟨k', j', ns', ms', t1, t3, t4⟩ := B.good.tailHas hR hy hSs
        have hsame := hst.same h3 h4 (hx.steps hy t1) hy.gs hy.gi
        obtain ⟨rfl, rfl, rfl, rfl⟩ := hsame
        obtain ⟨-, hns⟩ := RefChain.eq (hst.chain h3 h4) (hx.chain hy (hy.next t1))
        rw [hns]
        have hyd := (hx.common hy).1
        have cut : ∀ {j r}, Cut env R S a x c.offset j r → Cut env R S a y c.offset j r := fun h =>
          ⟨h.later, by rw [hyd]; exact h.choice, h.option, h.bases, h.once⟩
        exact growBuild_step B hR hy hrec n hn c j _ _ ms' t1 ht (by rw [hyd]; exact hS) hSs t3 t4
          (fun n hn r hr => ih y hy n hn { c with res := r } _ _ t1.front ht t3 hr) (cut hcut)

/-- Building is exact. -/
theorem build_exact (B : BCtxt env R input f root S) (n : Nat) : BRecE env R input f S (build env n) := by
  induction n using Nat.strongRecOn with
  | ind n ih =>
    cases n with
    | zero => intro p c d _ _ _ _ _ _ _ _; trivial
    | succ n =>
      intro p c d hR hn hd hk ht hr ho hi
      by_cases hg : ∃ s, Recurs env.grammar p s
      · obtain ⟨s, hs⟩ := hg
        have hkd : ∃ os, d.kind = .choice os := by
          obtain ⟨d', os, _, _, h1, h2, -⟩ := hs
          rw [env.grammar_some hd] at h1; cases h1
          cases hk : d.kind with
          | char => simp [hk, PKind.expr] at h2
          | choice => exact ⟨_, rfl⟩
          | seq => simp [hk, PKind.expr] at h2
        obtain ⟨os, hkd⟩ := hkd
        obtain ⟨x, hx, rfl, rfl, rfl⟩ := B.ctxt.growing hR hd hkd hs
        cases hf : f p c.offset with
        | none =>
          have hl := B.longest hR hn hd hk hr hi
          rw [hf] at hl
          unfold build
          rw [hd]
          simp only [hkd]
          unfold choiceBuild
          rw [hl]
          exact ⟨fun _ => rfl, fun j ns h => (by rw [hf] at h; cases h), ht, fun _ _ => rfl, Nat.le_refl _,
            fun _ _ _ _ => Iff.rfl, ho⟩
        | some y =>
          obtain ⟨j, ns⟩ := y
          have href := B.ctxt.ref hR c.offset
          rw [hf] at href
          obtain ⟨k, hch, -⟩ := hx.growth.ref_some hx.gd hx.ge ⟨_, hx.recurs⟩ href
          have hcut : Cut env R S p x c.offset j c.res := by
            refine ⟨hi.later, fun t => ?_, fun y hy t => ?_, fun o hc => ⟨hi.later, ?_⟩, ho⟩
            · rw [(hi.here hR hx.da hk (Or.inl rfl)).2]
              refine ⟨fun h => ⟨h, ?_⟩, fun h => h.1⟩
              obtain ⟨t', ns', h1, h2⟩ := B.good.chLe B.ctxt hR hx.da hx.ka h
              rw [hf] at h1; cases h1
              exact h2
            · rw [(hi.here (hy.reach B.ctxt hR) hy.ds (by rw [hy.ks]; rfl) (Or.inr (Or.inr ⟨_, hy.recurs, Or.inl rfl⟩))).2]
              refine ⟨fun h => ⟨h, ?_⟩, fun h => h.1⟩
              obtain ⟨l, _, _, ms, h1⟩ := B.tailStep hR hx hy h
              obtain ⟨t', ns', h2, h3⟩ := hx.le B.ctxt hR (h1.chain hy.gs hy.gi)
              rw [hf] at h2; cases h2
              exact h3
            · intro q e hq he hke hl
              exact hi.here hq he hke (.step hc hl)
          refine (growBuild_exact B hR (N := n + 1) ih k x hx (n + 1) (Nat.le_refl _) c j ns hch ht
            (hr _ hx.da hk _ _ hf) hcut).imp ?_
          intro z hz
          exact ⟨fun h => (by rw [hf] at h; cases h), fun j' ns' h => (by rw [hf] at h; cases h; exact ⟨hz.nodes, hz.off⟩), hz.toks,
            hz.pc, hz.plen, by have := hz.has; rw [← hz.off] at this; exact this, hz.once⟩
      · have hg' : ∀ o, ¬ Recurs env.grammar p o := fun o ho => hg ⟨o, ho⟩
        have ih := ih n (Nat.lt_succ_self n)
        unfold build
        rw [hd]
        simp only
        split
        · rename_i hkd
          rw [hkd] at hk; cases hk
        · rename_i hkd
          exact choiceBuild_exact B hR hd hkd hg' ih ht hr ho hi
        · rename_i hkd
          exact seqBuild_exact B hR hn hd hkd ih ht hr ho hi

end
end Treerack
