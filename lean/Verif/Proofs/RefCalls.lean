import Verif.Proofs.ExactInput
import Verif.Proofs.Root
import Verif.Proofs.Language
import Verif.Spec.Keyword

/-
The reference semantics of the parsers is the one of the calls.
-/

namespace Treerack
open Spec

namespace Spec

variable {N M : Type} {G : Grammar N} {G' : Grammar M} {R : N → Prop} {f : N → M} {input : List Rune}
  {B : N → Nat → Nat → Prop} {B' : M → Nat → Nat → Prop}

theorem GDef.wrap_map (d : GDef N) (f : N → M) (i j : Nat) (ns : List Node) :
    (d.map f).wrap input i j ns = d.wrap input i j ns := rfl

/-- No two of the definitions get the same name. -/
def Apart (R : N → Prop) (f : N → M) : Prop := ∀ {p q : N}, R p → R q → f p = f q → p = q

theorem Morphism.nullable (m : Morphism G G' R f) {p : N} (h : Nullable G p) : R p → Nullable G' (f p) := by
  induction h with
  | choice h1 h2 h3 _ ih =>
    intro hR
    obtain ⟨d, e1, e2⟩ := m.def_ _ hR
    rw [h1] at e1; cases e1
    exact .choice e2 (by simp only [GDef.map, h2, Expr.map]) (List.mem_map.2 ⟨_, h3, rfl⟩)
      (ih (m.refs _ _ hR h1 _ (by rw [h2]; exact h3)))
  | seq h1 h2 _ ih =>
    intro hR
    obtain ⟨d, e1, e2⟩ := m.def_ _ hR
    rw [h1] at e1; cases e1
    refine .seq e2 (by simp only [GDef.map, h2, Expr.map]; rfl) fun x hx hpos => ?_
    obtain ⟨y, hy, rfl⟩ := List.mem_map.1 hx
    exact ih y hy hpos (m.refs _ _ hR h1 _ (by rw [h2]; exact List.mem_map.2 ⟨y, hy, rfl⟩))

theorem Morphism.recurs (m : Morphism G G' R f) {p o : N} (hR : R p) (h : Recurs G p o) : R o ∧ Recurs G' (f p) (f o) := by
  obtain ⟨d, os, e, tail, h1, h2, h3, h4, h5⟩ := h
  have ho : R o := m.refs _ _ hR h1 _ (by rw [h2]; exact h3)
  obtain ⟨d', e1, e2⟩ := m.def_ _ hR
  rw [h1] at e1; cases e1
  obtain ⟨e', e3, e4⟩ := m.def_ _ ho
  rw [h4] at e3; cases e3
  exact ⟨ho, _, _, _, _, e2, by simp only [GDef.map, h2, Expr.map], List.mem_map.2 ⟨_, h3, rfl⟩, e4,
    by simp only [GDef.map, h5, Expr.map, List.map_cons]; rfl⟩

/-- A left recursive option is the name of one. -/
theorem Morphism.recurs_inv (m : Morphism G G' R f) (ha : Apart R f) {p : N} {x : M} (hR : R p) (h : Recurs G' (f p) x) :
    ∃ o, R o ∧ x = f o ∧ Recurs G p o := by
  obtain ⟨d, os, e, tail, h1, h2, h3, h4, h5⟩ := h
  obtain ⟨d', e1, e2⟩ := m.def_ _ hR
  rw [h1] at e2; cases e2
  cases hd : d'.expr with
  | char => simp [GDef.map, hd, Expr.map] at h2
  | seq => simp [GDef.map, hd, Expr.map] at h2
  | choice os' =>
    simp only [GDef.map, hd, Expr.map, Expr.choice.injEq] at h2
    subst h2
    obtain ⟨o, g1, rfl⟩ := List.mem_map.1 h3
    have ho : R o := m.refs _ _ hR e1 _ (by rw [hd]; exact g1)
    refine ⟨o, ho, rfl, ?_⟩
    obtain ⟨e', e3, e4⟩ := m.def_ _ ho
    rw [h4] at e4; cases e4
    cases he : e'.expr with
    | char => simp [GDef.map, he, Expr.map] at h5
    | choice => simp [GDef.map, he, Expr.map] at h5
    | seq items =>
      simp only [GDef.map, he, Expr.map, Expr.seq.injEq] at h5
      cases items with
      | nil => simp at h5
      | cons y items =>
        obtain ⟨q, mn, mx⟩ := y
        simp only [List.map_cons, List.cons.injEq, Prod.mk.injEq] at h5
        obtain ⟨⟨h6, rfl, rfl⟩, -⟩ := h5
        have hq : R q := m.refs _ _ ho e3 _ (by rw [he]; exact List.mem_map.2 ⟨_, List.mem_cons_self, rfl⟩)
        obtain rfl := ha hq hR h6
        exact ⟨_, _, _, _, e1, hd, g1, e3, he⟩

theorem Morphism.recurs_iff (m : Morphism G G' R f) (ha : Apart R f) {p o : N} (hR : R p) (ho : R o) :
    Recurs G' (f p) (f o) ↔ Recurs G p o := by
  refine ⟨fun h => ?_, fun h => (m.recurs hR h).2⟩
  obtain ⟨o', h1, h2, h3⟩ := m.recurs_inv ha hR h
  rw [ha ho h1 h2]
  exact h3

theorem Morphism.growth (m : Morphism G G' R f) (ha : Apart R f) {p : N} {os fs bs ls : List N} (hR : R p) (hos : ∀ o ∈ os, R o)
    (h : Growth G p os fs bs ls) :
    (∀ o ∈ ls ++ fs, R o) ∧ (∀ o ∈ bs, R o) ∧ Growth G' (f p) (os.map f) (fs.map f) (bs.map f) (ls.map f) := by
  have hb : ∀ o ∈ bs, R o := fun o ho => hos o (h.mem.2 (Or.inr ho))
  refine ⟨fun o ho => hos o (h.mem.2 (Or.inl ho)), hb, by rw [h.options]; simp, fun o ho => ?_, fun o ho => ?_, fun o ho => ?_, fun hn => ?_⟩
  · obtain ⟨o', h1, rfl⟩ := List.mem_map.1 ho
    exact (m.recurs hR (h.firsts o' h1)).2
  · obtain ⟨o', h1, rfl⟩ := List.mem_map.1 ho
    exact mt (m.recurs_iff ha hR (hb _ h1)).1 (h.bases o' h1)
  · obtain ⟨o', h1, rfl⟩ := List.mem_map.1 ho
    exact (m.recurs hR (h.lasts o' h1)).2
  · rw [h.canonical (List.map_eq_nil_iff.1 hn)]; rfl

theorem Morphism.growth_inv (m : Morphism G G' R f) (ha : Apart R f) {p : N} {os : List N} {fs' bs' ls' : List M}
    (hR : R p) (hos : ∀ o ∈ os, R o) (h : Growth G' (f p) (os.map f) fs' bs' ls') : ∃ fs bs ls, Growth G p os fs bs ls := by
  obtain ⟨fs, r, h1, rfl, h2⟩ := List.map_eq_append_iff.1 h.options
  obtain ⟨bs, ls, rfl, rfl, rfl⟩ := List.map_eq_append_iff.1 h2
  subst h1
  refine ⟨fs, bs, ls, rfl, fun o ho => ?_, fun o ho => ?_, fun o ho => ?_, fun hn => ?_⟩
  · exact (m.recurs_iff ha hR (hos o (by simp [ho]))).1 (h.firsts _ (List.mem_map.2 ⟨o, ho, rfl⟩))
  · exact mt (m.recurs_iff ha hR (hos o (by simp [ho]))).2 (h.bases _ (List.mem_map.2 ⟨o, ho, rfl⟩))
  · exact (m.recurs_iff ha hR (hos o (by simp [ho]))).1 (h.lasts _ (List.mem_map.2 ⟨o, ho, rfl⟩))
  · exact List.map_eq_nil_iff.1 (h.canonical (by rw [hn]; rfl))

theorem Morphism.grows_inv (m : Morphism G G' R f) (ha : Apart R f) {p : N} {os : List N} (hR : R p) (hos : ∀ o ∈ os, R o)
    (h : Grows G' (f p) (os.map f)) : Grows G p os := by
  obtain ⟨fs', bs', ls', hg⟩ := h.growth
  refine ⟨m.growth_inv ha hR hos hg, fun t e tail hr ht he => ?_, fun hn => h.nonEmpty (m.nullable hn hR)⟩
  obtain ⟨hRt, hr'⟩ := m.recurs hR hr
  obtain ⟨e', e1, e2⟩ := m.def_ _ hRt
  rw [ht] at e1; cases e1
  obtain ⟨x, hx, hx0, hxn⟩ := h.tails _ _ (tail.map fun x => (f x.1, x.2.1, x.2.2)) hr' e2 (by simp only [GDef.map, he, Expr.map, List.map_cons])
  obtain ⟨y, hy, rfl⟩ := List.mem_map.1 hx
  exact ⟨y, hy, hx0, fun hn => hxn (m.nullable hn (m.refs _ _ hRt ht _ (by
    rw [he]; exact List.mem_map.2 ⟨y, List.mem_cons_of_mem _ hy, rfl⟩)))⟩

mutual

theorem Morphism.ref (m : Morphism G G' R f) (ha : Apart R f) (hb : ∀ {p}, R p → ∀ i j, B p i j ↔ B' (f p) i j) : ∀ {p : N} {i : Nat} {r : Match}, R p → Ref G B input p i r → Ref G' B' input (f p) i r
  | _, _, _, hR, .char h1 h2 h3 h4 => by
    obtain ⟨d, e1, e2⟩ := m.def_ _ hR
    rw [h1] at e1; cases e1
    exact .char e2 (by simp [GDef.map, h2, Expr.map]) h3 h4
  | _, _, _, hR, .noChar h1 h2 h3 => by
    obtain ⟨d, e1, e2⟩ := m.def_ _ hR
    rw [h1] at e1; cases e1
    exact .noChar e2 (by simp [GDef.map, h2, Expr.map]) h3
  | _, _, _, hR, .choice h1 h2 hn h3 => by
    have ih := m.refOptions ha hb (fun o ho => m.refs _ _ hR h1 _ (by rw [h2]; exact ho)) h3
    obtain ⟨d, e1, e2⟩ := m.def_ _ hR
    rw [h1] at e1; cases e1
    refine .choice e2 (by simp [GDef.map, h2, Expr.map]) (fun o ho => ?_) ih
    obtain ⟨o', -, -, h4⟩ := m.recurs_inv ha hR ho
    exact hn o' h4
  | _, _, _, hR, .noBase h1 h2 ⟨t, hr⟩ hg h3 => by
    have hg' := m.growth ha hR (fun o ho => m.refs _ _ hR h1 _ (by rw [h2]; exact ho)) hg
    have ih := m.refOptions ha hb hg'.2.1 h3
    obtain ⟨d, e1, e2⟩ := m.def_ _ hR
    rw [h1] at e1; cases e1
    exact .noBase e2 (by simp only [GDef.map, h2, Expr.map]) ⟨_, (m.recurs hR hr).2⟩ hg'.2.2 ih
  | _, _, _, hR, .grow (k := k) (fs := fs) (ls := ls) h1 h2 ⟨t, hr⟩ hg h3 h4 => by
    have hg' := m.growth ha hR (fun o ho => m.refs _ _ hR h1 _ (by rw [h2]; exact ho)) hg
    have ih := m.refChain ha hb hg'.1 hg'.2.1 h3
    have ih2 := m.refFails ha hb hg'.1 h4
    rw [List.map_append] at ih ih2
    obtain ⟨d, e1, e2⟩ := m.def_ _ hR
    rw [h1] at e1; cases e1
    exact .grow e2 (by simp only [GDef.map, h2, Expr.map]) ⟨_, (m.recurs hR hr).2⟩ hg'.2.2 ih ih2
  | _, _, _, hR, .blocked h1 h2 h3 h4 => by
    have ih := m.refItems ha hb (fun x hx => m.refs _ _ hR h1 _ (by rw [h2]; exact List.mem_map.2 ⟨x, hx, rfl⟩)) h3
    obtain ⟨d, e1, e2⟩ := m.def_ _ hR
    rw [h1] at e1; cases e1
    exact .blocked e2 (by simp [GDef.map, h2, Expr.map]) ih ((hb hR _ _).1 h4)
  | _, _, _, hR, .seq h1 h2 h3 h4 => by
    have ih := m.refItems ha hb (fun x hx => m.refs _ _ hR h1 _ (by rw [h2]; exact List.mem_map.2 ⟨x, hx, rfl⟩)) h3
    obtain ⟨d, e1, e2⟩ := m.def_ _ hR
    rw [h1] at e1; cases e1
    exact .seq e2 (by simp [GDef.map, h2, Expr.map]) ih fun x hx => mt (hb hR _ _).2 (h4 x hx)

theorem Morphism.refOptions (m : Morphism G G' R f) (ha : Apart R f) (hb : ∀ {p}, R p → ∀ i j, B p i j ↔ B' (f p) i j) : ∀ {os : List N} {i : Nat} {r : Match}, (∀ o ∈ os, R o) →
    RefOptions G B input os i r → RefOptions G' B' input (os.map f) i r
  | _, _, _, _, .nil => .nil
  | _, _, _, hR, .cons h1 h2 =>
    .cons (m.ref ha hb (hR _ List.mem_cons_self) h1) (m.refOptions ha hb (fun o ho => hR o (List.mem_cons_of_mem _ ho)) h2)

theorem Morphism.refChain (m : Morphism G G' R f) (ha : Apart R f) (hb : ∀ {p}, R p → ∀ i j, B p i j ↔ B' (f p) i j) : ∀ {d : GDef N}
    {ss bs : List N} {i k j : Nat} {ns : List Node}, (∀ o ∈ ss, R o) → (∀ o ∈ bs, R o) →
    RefChain G B input d ss bs i k j ns → RefChain G' B' input (d.map f) (ss.map f) (bs.map f) i k j ns
  | _, _, _, _, _, _, _, _, hB, .base h => .base (m.refOptions ha hb hB h)
  | _, ss, _, _, _, _, _, hR, hB, .skip (s := t) h1 h2 h3 h4 h5 => by
    have hRt := hR t (List.mem_of_getElem? h2)
    have ih := m.refItems ha hb (fun y hy => m.refs _ _ hRt h3 _ (by
      rw [h4]; exact List.mem_map.2 ⟨y, List.mem_cons_of_mem _ hy, rfl⟩)) h5
    have ihc := m.refChain ha hb hR hB h1
    obtain ⟨e', e1, e2⟩ := m.def_ _ hRt
    rw [h3] at e1; cases e1
    exact .skip ihc (by simp [h2]) e2 (by simp only [GDef.map, h4, Expr.map, List.map_cons]; rfl) ih
  | _, ss, _, _, _, _, _, hR, hB, .step (s := t) h1 h2 h3 h4 h5 h6 => by
    have hRt := hR t (List.mem_of_getElem? h2)
    have ih := m.refItems ha hb (fun y hy => m.refs _ _ hRt h3 _ (by
      rw [h4]; exact List.mem_map.2 ⟨y, List.mem_cons_of_mem _ hy, rfl⟩)) h5
    have ihc := m.refChain ha hb hR hB h1
    obtain ⟨e', e1, e2⟩ := m.def_ _ hRt
    rw [h3] at e1; cases e1
    exact .step ihc (by simp [h2]) e2 (by simp only [GDef.map, h4, Expr.map, List.map_cons]; rfl) ih h6

theorem Morphism.refFails (m : Morphism G G' R f) (ha : Apart R f) (hb : ∀ {p}, R p → ∀ i j, B p i j ↔ B' (f p) i j) :
    ∀ {ss : List N} {j : Nat}, (∀ o ∈ ss, R o) → RefFails G B input ss j → RefFails G' B' input (ss.map f) j
  | _, _, _, .nil => .nil
  | t :: _, _, hR, .cons h1 h2 h3 h4 => by
    have hRt := hR t List.mem_cons_self
    have ih := m.refItems ha hb (fun y hy => m.refs _ _ hRt h1 _ (by
      rw [h2]; exact List.mem_map.2 ⟨y, List.mem_cons_of_mem _ hy, rfl⟩)) h3
    have ihf := m.refFails ha hb (fun o ho => hR o (List.mem_cons_of_mem _ ho)) h4
    obtain ⟨e', e1, e2⟩ := m.def_ _ hRt
    rw [h1] at e1; cases e1
    exact .cons e2 (by simp only [GDef.map, h2, Expr.map, List.map_cons]; rfl) ih ihf

theorem Morphism.refItems (m : Morphism G G' R f) (ha : Apart R f) (hb : ∀ {p}, R p → ∀ i j, B p i j ↔ B' (f p) i j) : ∀ {items : List (N × Int × Int)} {k i : Nat} {r : Match},
    (∀ x ∈ items, R x.1) → RefItems G B input items k i r →
    RefItems G' B' input (items.map fun x => (f x.1, x.2.1, x.2.2)) k i r
  | _, _, _, _, _, .nil => .nil
  | _, _, _, _, hR, .fail h1 h2 => .fail (m.ref ha hb (hR _ List.mem_cons_self) h1) h2
  | _, _, _, _, hR, .done h1 h2 h3 =>
    .done (m.ref ha hb (hR _ List.mem_cons_self) h1) h2 (m.refItems ha hb (fun x hx => hR x (List.mem_cons_of_mem _ hx)) h3)
  | _, _, _, _, hR, .empty h1 h2 =>
    .empty (m.ref ha hb (hR _ List.mem_cons_self) h1) (m.refItems ha hb (fun x hx => hR x (List.mem_cons_of_mem _ hx)) h2)
  | _, _, _, _, hR, .last h1 h2 h3 h4 h5 =>
    .last (m.ref ha hb (hR _ List.mem_cons_self) h1) h2 h3 h4 (m.refItems ha hb (fun x hx => hR x (List.mem_cons_of_mem _ hx)) h5)
  | _, _, _, _, hR, .more h1 h2 h3 h4 =>
    .more (m.ref ha hb (hR _ List.mem_cons_self) h1) h2 h3 (m.refItems ha hb hR h4)

end

theorem Morphism.leftCall (m : Morphism G G' R f) (ha : Apart R f) {p q : N} (h : LeftCall G p q) (hR : R p) : LeftCall G' (f p) (f q) ∧ R q := by
  cases h with
  | option h1 h2 h3 h4 =>
    obtain ⟨d, e1, e2⟩ := m.def_ _ hR
    rw [h1] at e1; cases e1
    have ho := m.refs _ _ hR h1 _ (by rw [h2]; exact h3)
    exact ⟨.option e2 (by simp only [GDef.map, h2, Expr.map]) (List.mem_map.2 ⟨_, h3, rfl⟩) (mt (m.recurs_iff ha hR ho).1 h4), ho⟩
  | @item _ front rest x h1 h2 h3 =>
    obtain ⟨d, e1, e2⟩ := m.def_ _ hR
    rw [h1] at e1; cases e1
    have hr : ∀ y ∈ front ++ x :: rest, R y.1 := fun y hy =>
      m.refs _ _ hR h1 _ (by rw [h2]; exact List.mem_map.2 ⟨y, hy, rfl⟩)
    refine ⟨LeftCall.item (x := (f x.1, x.2.1, x.2.2)) e2 (by simp only [GDef.map, h2, Expr.map, List.map_append, List.map_cons]; rfl) ?_, hr x (by simp)⟩
    intro y hy hpos
    obtain ⟨z, hz, rfl⟩ := List.mem_map.1 hy
    exact m.nullable (h3 z hz hpos) (hr z (by simp [hz]))

theorem Morphism.leftCalls (m : Morphism G G' R f) (ha : Apart R f) {p q : N} (h : LeftCalls G p q) : R p → LeftCalls G' (f p) (f q) := by
  induction h with
  | one h => exact fun hR => .one (m.leftCall ha h hR).1
  | step h _ ih => exact fun hR => .step (m.leftCall ha h hR).1 (ih (m.leftCall ha h hR).2)

end Spec

section
variable {cs : List Call} {s : Syntax}

theorem mem_of_lookup {α β : Type} [BEq α] [LawfulBEq α] {a : α} {b : β} : ∀ {l : List (α × β)}, l.lookup a = some b → (a, b) ∈ l
  | (x, y) :: l, h => by
    simp only [List.lookup_cons] at h
    split at h
    · rename_i hx
      rw [beq_iff_eq] at hx
      cases h; subst hx
      exact List.mem_cons_self
    · exact List.mem_cons_of_mem _ (mem_of_lookup h)

theorem grammarOf_mem {n : Name} {d : GDef Name} (h : grammarOf cs n = some d) : ∃ c ∈ cs, (n, d) ∈ c.defs := by
  obtain ⟨c, h1, h2⟩ := List.mem_flatMap.1 (mem_of_lookup h)
  exact ⟨c, h1, h2⟩

/-- The characters of a grammar have internal names. -/
theorem grammarOf_char {n : Name} {d : GDef Name} {neg : Bool} {chars : List Rune} {ranges : List (Rune × Rune)}
    (h : grammarOf cs n = some d) (he : d.expr = .char neg chars ranges) : ¬ NoColon n := by
  obtain ⟨c, -, hm⟩ := grammarOf_mem h
  cases c with
  | anyChar m ct =>
    simp only [Call.defs, List.mem_cons, Prod.mk.injEq, List.not_mem_nil, or_false] at hm
    rcases hm with hm | ⟨rfl, rfl⟩
    · rw [(Prod.mk.inj hm).1]; exact charName_colon _ _
    · cases he
  | class_ m ct neg cs rs =>
    simp only [Call.defs, List.mem_cons, Prod.mk.injEq, List.not_mem_nil, or_false] at hm
    rcases hm with hm | ⟨rfl, rfl⟩
    · rw [(Prod.mk.inj hm).1]; exact charName_colon _ _
    · cases he
  | charSequence m ct cs =>
    simp only [Call.defs, List.mem_append, List.mem_map, List.mem_singleton, Prod.mk.injEq] at hm
    rcases hm with ⟨x, -, hm⟩ | ⟨rfl, rfl⟩
    · rw [← (Prod.mk.inj hm).1]; exact charName_colon _ _
    · cases he
  | sequence m ct items =>
    simp only [Call.defs, List.mem_singleton, Prod.mk.injEq] at hm
    obtain ⟨rfl, rfl⟩ := hm
    cases he
  | choice m ct os =>
    simp only [Call.defs, List.mem_singleton, Prod.mk.injEq] at hm
    obtain ⟨rfl, rfl⟩ := hm
    cases he

theorem PlainRefs.of_noColon (h : ∀ c ∈ cs, ∀ n ∈ c.refs, NoColon n) : PlainRefs cs :=
  fun c hc n hn _ hd _ _ _ he => grammarOf_char hd he (h c hc n hn)

/-- The options are references of a call. -/
theorem grammarOf_choice {n o : Name} {d : GDef Name} {os : List Name} (hpl : PlainRefs cs) (h : grammarOf cs n = some d)
    (he : d.expr = .choice os) (ho : o ∈ os) : ∀ d, grammarOf cs o = some d → ∀ neg chars ranges, d.expr ≠ .char neg chars ranges := by
  obtain ⟨c, hc, hm⟩ := grammarOf_mem h
  cases c with
  | anyChar m ct =>
    simp only [Call.defs, List.mem_cons, Prod.mk.injEq, List.not_mem_nil, or_false] at hm
    rcases hm with hm | ⟨rfl, rfl⟩
    · rw [(Prod.mk.inj hm).2] at he; cases he
    · cases he
  | class_ m ct neg cs rs =>
    simp only [Call.defs, List.mem_cons, Prod.mk.injEq, List.not_mem_nil, or_false] at hm
    rcases hm with hm | ⟨rfl, rfl⟩
    · rw [(Prod.mk.inj hm).2] at he; cases he
    · cases he
  | charSequence m ct cs =>
    simp only [Call.defs, List.mem_append, List.mem_map, List.mem_singleton, Prod.mk.injEq] at hm
    rcases hm with ⟨x, -, hm⟩ | ⟨rfl, rfl⟩
    · rw [← (Prod.mk.inj hm).2] at he; cases he
    · cases he
  | sequence m ct items =>
    simp only [Call.defs, List.mem_singleton, Prod.mk.injEq] at hm
    obtain ⟨rfl, rfl⟩ := hm
    cases he
  | choice m ct os' =>
    simp only [Call.defs, List.mem_singleton, Prod.mk.injEq] at hm
    obtain ⟨rfl, rfl⟩ := hm
    cases he
    exact hpl _ hc o ho

/-- The items are references of a call, or all of them are characters. -/
theorem grammarOf_seq {n : Name} {d : GDef Name} {items : List (Name × Int × Int)} (hpl : PlainRefs cs)
    (h : grammarOf cs n = some d) (he : d.expr = .seq items) :
    (∀ x ∈ items, ∀ d, grammarOf cs x.1 = some d → ∀ neg chars ranges, d.expr ≠ .char neg chars ranges) ∨ ∃ c ∈ cs, ∀ x ∈ items, ∃ neg chars ranges, charDef x.1 neg chars ranges ∈ c.defs := by
  obtain ⟨c, hc, hm⟩ := grammarOf_mem h
  cases c with
  | anyChar m ct =>
    simp only [Call.defs, List.mem_cons, Prod.mk.injEq, List.not_mem_nil, or_false] at hm
    rcases hm with hm | ⟨rfl, rfl⟩
    · rw [(Prod.mk.inj hm).2] at he; cases he
    · cases he
      refine Or.inr ⟨_, hc, fun x hx => ?_⟩
      simp only [List.mem_singleton] at hx
      subst hx
      exact ⟨_, _, _, List.mem_cons_self⟩
  | class_ m ct neg cs rs =>
    simp only [Call.defs, List.mem_cons, Prod.mk.injEq, List.not_mem_nil, or_false] at hm
    rcases hm with hm | ⟨rfl, rfl⟩
    · rw [(Prod.mk.inj hm).2] at he; cases he
    · cases he
      refine Or.inr ⟨_, hc, fun x hx => ?_⟩
      simp only [List.mem_singleton] at hx
      subst hx
      exact ⟨_, _, _, List.mem_cons_self⟩
  | charSequence m ct cs =>
    simp only [Call.defs, List.mem_append, List.mem_map, List.mem_singleton, Prod.mk.injEq] at hm
    rcases hm with ⟨x, -, hm⟩ | ⟨rfl, rfl⟩
    · rw [← (Prod.mk.inj hm).2] at he; cases he
    · cases he
      refine Or.inr ⟨_, hc, fun x hx => ?_⟩
      obtain ⟨i, hi, rfl⟩ := List.mem_map.1 hx
      refine ⟨false, [cs[i]'(List.mem_range.1 hi)], [], ?_⟩
      simp only [Call.defs]
      apply List.mem_append_left
      refine List.mem_map.2 ⟨(cs[i]'(List.mem_range.1 hi), i), ?_, rfl⟩
      rw [List.mk_mem_zipIdx_iff_getElem?]
      exact List.getElem?_eq_getElem _
  | sequence m ct items' =>
    simp only [Call.defs, List.mem_singleton, Prod.mk.injEq] at hm
    obtain ⟨rfl, rfl⟩ := hm
    cases he
    refine Or.inl fun x hx => ?_
    obtain ⟨y, hy, rfl⟩ := List.mem_map.1 hx
    exact hpl _ hc _ (List.mem_map.2 ⟨y, hy, rfl⟩)
  | choice m ct os' =>
    simp only [Call.defs, List.mem_singleton, Prod.mk.injEq] at hm
    obtain ⟨rfl, rfl⟩ := hm
    cases he

/-- What `Init` does without whitespace. -/
theorem Init_noWs_ok {s' : Syntax} (hs : SInv s) (hw : ¬ s.HasWhitespace) (hnc : s.RootNotChar)
    (h : s.Init = .ok (s', none)) :
    ∃ root, s.root = some root ∧ Prepared { s with heap := s.preHeap } root ∧ InitOK { s with heap := s.preHeap } root s' := by
  rw [Syntax.Init_eq, if_neg (by simp [hs.initFailed]), if_neg (by simp [hs.initialized])] at h
  cases hroot : s.root with
  | none => rw [hroot] at h; simp at h
  | some root =>
    refine ⟨root, rfl, ?_⟩
    rw [hroot] at h
    simp only at h
    cases hd : s.heap[root]? with
    | none => rw [hd] at h; cases h
    | some d =>
      rw [hd] at h
      simp only at h
      split at h
      · simp at h
      · rename_i hc
        rw [prepare_noWs hs hw] at h
        have hprep := Built.prepared_noWs hs hroot hnc hd (by simpa using hc)
        rw [← hroot]
        exact ⟨hprep, (finishInit_spec hprep.toPrepBase).of_eq h⟩

theorem raw_noKeyword {c : Call} {r : Def} (hr : r ∈ c.raw) (h : r.commitType.noKeyword = true) : c.commit.noKeyword = true := by
  cases c with
  | anyChar n ct =>
    simp only [Call.raw, List.mem_cons, List.not_mem_nil, or_false] at hr
    rcases hr with rfl | rfl
    · simp [newChar, Def.commitType] at h
    · exact h
  | class_ n ct neg cs rs =>
    simp only [Call.raw, List.mem_cons, List.not_mem_nil, or_false] at hr
    rcases hr with rfl | rfl
    · simp [newChar, Def.commitType] at h
    · exact h
  | charSequence n ct cs =>
    simp only [Call.raw, List.mem_append, List.mem_singleton] at hr
    rcases hr with hr | rfl
    · obtain ⟨x, -, rfl⟩ := List.mem_map.1 hr
      simp [newChar, Def.commitType] at h
    · exact h
  | sequence n ct items =>
    simp only [Call.raw, List.mem_singleton] at hr
    subst hr; exact h
  | choice n ct os =>
    simp only [Call.raw, List.mem_singleton] at hr
    subst hr; exact h

theorem raw_noKeyword_name {c : Call} {r : Def} (hr : r ∈ c.raw) (h : r.commitType.noKeyword = true) : r.name = c.name := by
  rcases raw_cases hr with ⟨i, neg, chars, ranges, rfl⟩ | h1
  · simp [newChar, Def.commitType] at h
  · exact h1.1

/-- The definition with the name of the call. -/
theorem raw_main (c : Call) : ∃ r ∈ c.raw, r.name = c.name ∧ r.kind.isChar = false ∧
    r.commitType.noKeyword = c.commit.noKeyword ∧ r.commitType.keyword = c.commit.keyword := by
  cases c <;> simp [Call.raw, Call.name, Call.commit, newChar, newSequence, newChoice, Def.commitType, DKind.isChar, Call.flags]

theorem call_text (c : Call) : ∃ e, (c.name, (⟨c.name, c.commit.alias, e⟩ : GDef Name)) ∈ c.defs ∧
    (c.isChoice = false → ∃ items, e = .seq items) ∧
    (c.isText = true → ∃ items, e = .seq items ∧ (∀ x ∈ items, x.2 = (1, 1)) ∧
      ∀ x ∈ items, ∃ neg chars ranges, charDef x.1 neg chars ranges ∈ c.defs) := by
  cases c with
  | anyChar n ct =>
    exact ⟨_, List.mem_cons_of_mem _ (List.mem_singleton.2 rfl), fun _ => ⟨_, rfl⟩, fun _ => ⟨_, rfl, by simp [once],
      fun x hx => by simp only [List.mem_singleton] at hx; subst hx; exact ⟨_, _, _, List.mem_cons_self⟩⟩⟩
  | class_ n ct neg cs rs =>
    exact ⟨_, List.mem_cons_of_mem _ (List.mem_singleton.2 rfl), fun _ => ⟨_, rfl⟩, fun _ => ⟨_, rfl, by simp [once],
      fun x hx => by simp only [List.mem_singleton] at hx; subst hx; exact ⟨_, _, _, List.mem_cons_self⟩⟩⟩
  | charSequence n ct cs =>
    refine ⟨_, List.mem_append_right _ (List.mem_singleton.2 rfl), fun _ => ⟨_, rfl⟩, fun _ => ⟨_, rfl, ?_, ?_⟩⟩
    · intro x hx
      obtain ⟨i, hi, rfl⟩ := List.mem_map.1 hx
      rfl
    · intro x hx
      obtain ⟨i, hi, rfl⟩ := List.mem_map.1 hx
      refine ⟨false, [cs[i]'(List.mem_range.1 hi)], [], ?_⟩
      simp only [Call.defs]
      apply List.mem_append_left
      refine List.mem_map.2 ⟨(cs[i]'(List.mem_range.1 hi), i), ?_, rfl⟩
      rw [List.mk_mem_zipIdx_iff_getElem?]
      exact List.getElem?_eq_getElem _
  | sequence n ct items =>
    exact ⟨_, List.mem_singleton.2 rfl, fun _ => ⟨_, rfl⟩, fun h => by cases h⟩
  | choice n ct os =>
    exact ⟨_, List.mem_singleton.2 rfl, (fun h => by cases h), fun h => by cases h⟩

/-- What is known of the parsers of a syntax without whitespace definitions. -/
structure PlainParsers (cs : List Call) (s' : Syntax) (root : Ptr) : Prop where
  rootEq : s'.root = some root
  linked : Linked s'.env root
  morphism : Morphism s'.env.grammar (grammarOf cs) (Reach s'.env root) s'.nameAt
  rootName : rootOf cs = some (s'.nameAt root)
  apart : Apart (Reach s'.env root) s'.nameAt
  name : ∀ {p : Ptr} {d : PDef}, Reach s'.env root p → s'.env.defs[p]? = some d →
    grammarOf cs (s'.nameAt p) = some { name := d.name, alias := d.commit.alias, expr := d.kind.expr.map s'.nameAt }
  flag : ∀ {p : Ptr} {d : PDef}, Reach s'.env root p → s'.env.defs[p]? = some d →
    (d.commit.noKeyword = true ↔ RejectsKeywords cs (s'.nameAt p))
  keyword : ∀ {k : Ptr}, k ∈ s'.env.keywords → ∃ c ∈ cs, c.commit.keyword = true ∧ c.name = s'.nameAt k
  keywordOf : ∀ {c : Call}, c ∈ cs → c.commit.keyword = true → ∃ k ∈ s'.env.keywords, s'.nameAt k = c.name
  main : ∀ {p : Ptr} {d : PDef} {c : Call}, Reach s'.env root p → s'.env.defs[p]? = some d → c ∈ cs → c.name = s'.nameAt p →
    c.isChoice = false → ∃ is rs ac, d.kind = .seq is rs ac ∧ (c.isText = true →
      (∀ x ∈ is.zip rs, x.2 = (1, 1)) ∧ ∀ x ∈ is.zip rs, ∃ e, s'.env.defs[x.1]? = some e ∧ e.kind.isChar = true)
  allChars : ∀ {p : Ptr} {d : PDef} {is : List Ptr} {rs : List (Int × Int)} {ac : Bool}, Reach s'.env root p →
    s'.env.defs[p]? = some d → d.kind = .seq is rs ac →
    ac = is.all fun q => ((s'.env.defs[q]?).map fun e => e.kind.isChar).getD false
  ranges : ∀ {p : Ptr} {d : PDef} {is : List Ptr} {rs : List (Int × Int)} {ac : Bool}, Reach s'.env root p →
    s'.env.defs[p]? = some d → d.kind = .seq is rs ac → is.length ≤ rs.length

theorem calls_plain {s' : Syntax} (h : Made cs s) (hi : s.Init = .ok (s', none)) (hnw : ∀ c ∈ cs, c.commit.whitespace = false) :
    ∃ root, PlainParsers cs s' root := by
  have C := made_called h
  have hs := C.built.inv
  have hw : ¬ s.HasWhitespace := by
    intro hw
    obtain ⟨c, hc, hcw⟩ := C.whitespace.1 hw
    rw [hnw c hc] at hcw; cases hcw
  have hne : cs ≠ [] := made_ne h hi
  obtain ⟨rn, hrn⟩ := rootOf_some hne
  obtain ⟨root, hr, R⟩ := Init_noWs hs hw C.rootNotChar hi
  obtain ⟨root', hr', P, I⟩ := Init_noWs_ok hs hw C.rootNotChar hi
  rw [hr] at hr'; cases hr'
  have hM := R.morphism
  rw [C.grammar] at hM
  -- names and kinds
  have hname : ∀ {p : Ptr} {d : PDef}, Reach s'.env root p → s'.env.defs[p]? = some d →
      grammarOf cs (s'.nameAt p) = some { name := d.name, alias := d.commit.alias, expr := d.kind.expr.map s'.nameAt } := by
    intro p d hp hd
    obtain ⟨gd, g1, g2⟩ := hM.def_ p hp
    rw [Env.grammar_some hd] at g1
    obtain rfl := Option.some.inj g1
    exact g2
  -- the origin of the definitions
  have hheap : ∀ {p : Ptr} {e : Def}, p ∈ s.registry.definitions → s.heap[p]? = some e →
      ∃ e' : Def, s'.heap[p]? = some e' ∧ s'.nameAt p = e.name ∧ e'.commitType = e.commitType ∧ e'.kind.isChar = e.kind.isChar := by
    intro p e hp he
    have hpre : ({ s with heap := s.preHeap } : Syntax).heap[p]? = some e.initRanges := by
      show s.preHeap[p]? = _
      rw [hs.preHeap_get, if_pos hp, he]; rfl
    obtain ⟨e', g1, g2⟩ := I.sk.to hpre
    refine ⟨e', g1, ?_, ?_, ?_⟩
    · unfold Syntax.nameAt
      rw [g1]
      simp only [Option.map_some, Option.getD_some]
      rw [Def.sk_name g2, initRanges_name]
    · rw [Def.sk_commitType g2, initRanges_commitType]
    · rw [Def.sk_isChar g2, initRanges_isChar]
  have horig : ∀ {p : Ptr} {d : PDef}, Reach s'.env root p → s'.env.defs[p]? = some d →
      ∃ e : Def, p ∈ s.registry.definitions ∧ s.heap[p]? = some e ∧ s'.nameAt p = e.name ∧ d.commit = e.commitType ∧
        ∃ c ∈ cs, e.plain ∈ c.raw := by
    intro p d hp hd
    obtain ⟨e, e1, rfl⟩ := Syntax.env_get hd
    obtain ⟨e0, g1, g2⟩ := I.sk.symm.to e1
    have hmem := P.used_mem (I.reach hp)
    obtain ⟨e2, k1, rfl, c, hc, hraw⟩ := Syntax.Has.raw h (p := p) (d := e0) ⟨hmem, g1⟩
    obtain ⟨e', l1, l2, l3, -⟩ := hheap hmem k1
    rw [e1] at l1; cases l1
    exact ⟨e2, hmem, k1, l2, l3, c, hc, hraw⟩
  have hflag : ∀ {p : Ptr} {d : PDef}, Reach s'.env root p → s'.env.defs[p]? = some d →
      (d.commit.noKeyword = true ↔ RejectsKeywords cs (s'.nameAt p)) := by
    intro p d hp hd
    obtain ⟨e, k0, k1, k2, k3, c, hc, hraw⟩ := horig hp hd
    constructor
    · intro hn
      have hn' : e.plain.commitType.noKeyword = true := by
        rw [plain_commitType]
        show e.commitType.noKeyword = true
        rw [← k3]; exact hn
      exact ⟨c, hc, by rw [k2, ← raw_noKeyword_name hraw hn', plain_name], raw_noKeyword hraw hn'⟩
    · rintro ⟨c', hc', hn, hnk⟩
      obtain ⟨r, hr, r1, r2, r3, -⟩ := raw_main c'
      obtain ⟨q, e', l1, l2, l3⟩ := raw_has h hc' hr
      have : q = p := by
        have a1 := (hs.lookup e.name p).2 ⟨k0, e, k1, rfl⟩
        have a2 := (hs.lookup e'.name q).2 ⟨l2.1, e', l1, rfl⟩
        have : e'.name = e.name := by rw [← plain_name e', l3, r1, hn, k2]
        rw [this] at a2
        rw [a1] at a2
        exact (Option.some.inj a2).symm
      subst this
      rw [k1] at l1; cases l1
      have : r.commitType.noKeyword = e.commitType.noKeyword := by rw [← l3, plain_commitType]
      rw [k3, ← this, r3]
      exact hnk
  have hkeq : s'.env.keywords = s.keywords := by rw [I.same]; rfl
  have hkwc : ∀ {k : Ptr}, k ∈ s'.env.keywords → ∃ c ∈ cs, c.commit.keyword = true ∧ c.name = s'.nameAt k := by
    intro k hk
    rw [hkeq] at hk
    obtain ⟨h1, e, h2, h3, h4⟩ := (hs.keywords k).1 hk
    have hH : s.Has k e.initRanges := ⟨h1, by rw [hs.preHeap_get, if_pos h1, h2]; rfl⟩
    obtain ⟨e2, k1, k2, c', hc', hraw⟩ := Syntax.Has.raw h hH
    rw [h2] at k1; cases k1
    rcases raw_cases hraw with ⟨i, neg, chars, ranges, h5⟩ | ⟨h6, -, h5, -⟩
    · have : e.kind.isChar = true := by rw [← plain_kind, h5]; rfl
      rw [h3] at this; cases this
    · obtain ⟨e', -, l2, -⟩ := hheap h1 h2
      refine ⟨c', hc', ?_, by rw [l2, ← h6, plain_name]⟩
      rw [← h5, plain_commitType]
      show e.commitType.keyword = true
      rw [commitType_notChar h3]; exact h4
  have hkwk : ∀ {c : Call}, c ∈ cs → c.commit.keyword = true → ∃ k ∈ s'.env.keywords, s'.nameAt k = c.name := by
    intro c hc hck
    obtain ⟨r, hr, r1, r2, -, r3⟩ := raw_main c
    obtain ⟨q, e, l1, l2, l3⟩ := raw_has h hc hr
    obtain ⟨e', -, k2, -⟩ := hheap l2.1 l1
    have hch : e.kind.isChar = false := by rw [← plain_kind, l3]; exact r2
    refine ⟨q, ?_, by rw [k2, ← r1, ← l3, plain_name]⟩
    rw [hkeq]
    refine (hs.keywords q).2 ⟨l2.1, e, l1, hch, ?_⟩
    have : r.commitType.keyword = e.commitType.keyword := by rw [← l3, plain_commitType]
    rw [← commitType_notChar hch, ← this, r3]
    exact hck
  -- kinds of the named definitions
  have hmain : ∀ {p : Ptr} {d : PDef} {c : Call}, Reach s'.env root p → s'.env.defs[p]? = some d → c ∈ cs → c.name = s'.nameAt p →
      c.isChoice = false → ∃ is rs ac, d.kind = .seq is rs ac ∧ (c.isText = true →
        (∀ x ∈ is.zip rs, x.2 = (1, 1)) ∧ ∀ x ∈ is.zip rs, ∃ e, s'.env.defs[x.1]? = some e ∧ e.kind.isChar = true) := by
    intro p d c hp hd hc hn hch
    obtain ⟨ex, m1, m2, m3⟩ := call_text c
    have hg := call_grammar h hc m1
    simp only [hn] at hg
    rw [hname hp hd] at hg
    have hex := congrArg GDef.expr (Option.some.inj hg)
    simp only at hex
    obtain ⟨items, rfl⟩ := m2 hch
    cases hk : d.kind with
    | char => rw [hk] at hex; simp [PKind.expr, Expr.map] at hex
    | choice => rw [hk] at hex; simp [PKind.expr, Expr.map] at hex
    | seq is rs ac =>
      refine ⟨is, rs, ac, rfl, fun ht => ?_⟩
      obtain ⟨items', n1, n2, n3⟩ := m3 ht
      cases n1
      rw [hk] at hex
      simp only [PKind.expr, Expr.map, Expr.seq.injEq] at hex
      have hmem : ∀ x ∈ is.zip rs, (s'.nameAt x.1, x.2.1, x.2.2) ∈ items := fun x hx => by
        rw [← hex]; exact List.mem_map.2 ⟨x, hx, rfl⟩
      refine ⟨fun x hx => n2 _ (hmem x hx), fun x hx => ?_⟩
      obtain ⟨neg, chars, ranges, n4⟩ := n3 _ (hmem x hx)
      have hg := call_grammar h hc n4
      simp only [charDef] at hg
      have hrq : Reach s'.env root x.1 := .child hp hd (by rw [hk]; exact (List.of_mem_zip hx).1)
      obtain ⟨e', he'⟩ := R.linked.closed.def_ hrq
      have := hname hrq he'
      rw [hg] at this
      have := congrArg (fun x => x.map GDef.expr) this
      simp only [Option.map_some, Option.some.injEq] at this
      refine ⟨e', he', ?_⟩
      cases hke : e'.kind <;> rw [hke] at this <;> simp [PKind.expr, Expr.map] at this
      rfl
  have hap : Apart (Reach s'.env root) s'.nameAt := by
    intro p q hp hq he
    obtain ⟨d, hd⟩ := R.linked.closed.def_ hp
    obtain ⟨d', hd'⟩ := R.linked.closed.def_ hq
    obtain ⟨e, k1, k2, k3, -⟩ := horig hp hd
    obtain ⟨e', l1, l2, l3, -⟩ := horig hq hd'
    have a1 := (hs.lookup e.name p).2 ⟨k1, e, k2, rfl⟩
    have a2 := (hs.lookup e'.name q).2 ⟨l1, e', l2, rfl⟩
    rw [← l3, ← he, k3, a1] at a2
    exact Option.some.inj a2
  have hrootN : rootOf cs = some (s'.nameAt root) := by rw [hrn, ← C.root _ hrn, R.nameEq]
  exact ⟨root, R.rootEq, R.linked, hM, hrootN, hap, hname, hflag, hkwc, hkwk, hmain, fun h1 h2 h3 => I.allChars h1 h2 h3,
    fun h1 h2 h3 => I.ranges h1 h2 h3⟩

/-- A keyword that is a text. -/
theorem PlainParsers.text {s' : Syntax} {root : Ptr} (P : PlainParsers cs s' root) {k : Ptr} {c : Call} (hk : k ∈ s'.env.keywords)
    (hc : c ∈ cs) (hn : c.name = s'.nameAt k) (htx : c.isText = true) : TextParser s'.env k := by
  have hRk : Reach s'.env root k := .keyword hk
  obtain ⟨dk, hdk⟩ := P.linked.closed.def_ hRk
  obtain ⟨is, rs, ac, hkind, htxt⟩ := P.main hRk hdk hc hn (by cases c <;> first | rfl | cases htx)
  obtain ⟨t1, t2⟩ := htxt htx
  have hac := P.allChars hRk hdk hkind
  have hlen := P.ranges hRk hdk hkind
  have : ac = true := by
    rw [hac, List.all_eq_true]
    intro q hq
    obtain ⟨i, hi, rfl⟩ := List.getElem_of_mem hq
    obtain ⟨e, he, hch⟩ := t2 (is[i], rs[i]'(by omega)) (List.mem_iff_getElem.2 ⟨i, by simp; omega, by simp⟩)
    simp only at he
    rw [he]
    exact hch
  subst this
  exact ⟨dk, is, rs, hdk, hkind, t1⟩

/-- The parsers of calls without whitespace, in a syntax without other than direct left recursion. -/
theorem calls_regular {s' : Syntax} (h : Made cs s) (hi : s.Init = .ok (s', none)) (S : Regular cs) :
    ∃ root, s'.root = some root ∧ Parsable s'.env root ∧ (PlainRefs cs → Straight s'.env root) ∧ Apart (Reach s'.env root) s'.nameAt ∧
      Morphism s'.env.grammar (grammarOf cs) (Reach s'.env root) s'.nameAt ∧ rootOf cs = some (s'.nameAt root) ∧
      ∀ input {p}, Reach s'.env root p → ∀ i j, s'.env.blocked input p i j ↔ blockedOf cs input (s'.nameAt p) i j := by
  have hnw := S.noWhitespace
  have hkw := S.keywords
  obtain ⟨root, R⟩ := calls_plain h hi hnw
  have hM := R.morphism
  have hname := @R.name
  have hflag := @R.flag
  have hkwc := @R.keyword
  have hkwk := @R.keywordOf
  have hmain := @R.main
  have hap : Apart (Reach s'.env root) s'.nameAt := R.apart
  have hplain : ∀ {p : Ptr} {d : PDef}, Reach s'.env root p → s'.env.defs[p]? = some d →
      (∀ d, grammarOf cs (s'.nameAt p) = some d → ∀ neg chars ranges, d.expr ≠ .char neg chars ranges) →
      d.kind.isChar = false := by
    intro p d hp hd hn
    cases hk : d.kind with
    | char neg chars ranges =>
      exact absurd (by simp only [hk, PKind.expr, Expr.map]) (hn _ (hname hp hd) neg chars ranges)
    | choice => rfl
    | seq => rfl
  -- the choice of a left recursive option can be reached
  have hRa : ∀ {a t : Ptr}, Recurs s'.env.grammar a t → Reach s'.env root t → Reach s'.env root a := by
    rintro a t ⟨-, -, e, tail, -, -, -, h4, h5⟩ ht
    exact hM.refs _ _ ht h4 _ (by rw [h5]; exact List.mem_map.2 ⟨_, List.mem_cons_self, rfl⟩)
  have hrootN := R.rootName
  have hT : Parsable s'.env root := by
    refine ⟨R.linked, ?_, ?_, ?_, ?_, ?_, ?_⟩
    · intro p hp hl
      exact S.recursion.free _ (hM.leftCalls hap hl hp)
    · rintro p d os hp hd hk ⟨t, ht⟩
      have hos : ∀ o ∈ os, Reach s'.env root o := fun o ho => .child hp hd (by rw [hk]; exact ho)
      have hG := S.recursion.grows _ _ (os.map s'.nameAt) (hname hp hd) (by simp only [hk, PKind.expr, Expr.map])
        ⟨_, (hM.recurs hp ht).2⟩
      exact hM.grows_inv hap hp hos hG
    · intro a t m d hr hm hd ht
      have hRt : Reach s'.env root t := .child hm hd ht
      have hRa' := hRa hr hRt
      refine hap hm hRa' (S.recursion.sole _ _ _ _ (hM.recurs hRa' hr).2 (hname hm hd) ?_)
      simp only
      cases hk : d.kind with
      | char => rw [hk] at ht; simp [PKind.children] at ht
      | choice os => rw [hk] at ht; exact List.mem_map.2 ⟨t, ht, rfl⟩
      | seq is rs ac =>
        rw [hk] at ht
        have hlen := R.ranges hm hd hk
        obtain ⟨i, hi, rfl⟩ := List.getElem_of_mem ht
        simp only [PKind.children] at hi
        exact List.mem_map.2 ⟨(s'.nameAt is[i], (rs[i]'(by omega)).1, (rs[i]'(by omega)).2),
          List.mem_map.2 ⟨(is[i], rs[i]'(by omega)), List.mem_iff_getElem.2 ⟨i, by simp; omega, by simp⟩, rfl⟩, rfl⟩
    · intro a t d hr ht hd
      cases hn : d.commit.noKeyword with
      | false => rfl
      | true => exact absurd ((hflag ht hd).1 hn) (S.unchecked _ _ (hM.recurs (hRa hr ht) hr).2)
    · rintro ⟨a, hr⟩
      exact S.notRoot _ _ (hM.recurs (hRa hr .root) hr).2 hrootN
    · intro p d hp hd hn
      obtain ⟨c, hc, hcn, hcf⟩ := (hflag hp hd).1 hn
      by_cases hnil : s'.env.keywords = []
      · exact Or.inl hnil
      · obtain ⟨k, hk⟩ := List.exists_mem_of_ne_nil _ hnil
        obtain ⟨ck, hck, hckw, -⟩ := hkwc hk
        obtain ⟨is, rs, ac, hkind, -⟩ := hmain hp hd hc hcn (hkw c hc hcf ck hck hckw).1
        refine Or.inr ⟨⟨is, rs, ac, hkind⟩, fun k hk => ?_⟩
        obtain ⟨ck, hck, hckw, hckn⟩ := hkwc hk
        exact R.text hk hck hckn (hkw c hc hcf ck hck hckw).2
  refine ⟨root, R.rootEq, hT, fun hpl => ⟨hT, ?_, ?_⟩, hap, hM, hrootN, ?_⟩
  · intro p d os o e hp hd hk ho he
    have hr : Reach s'.env root o := .child hp hd (by rw [hk]; exact ho)
    exact hplain hr he (grammarOf_choice hpl (hname hp hd) (by simp only [hk, PKind.expr, Expr.map])
      (List.mem_map.2 ⟨o, ho, rfl⟩))
  · intro p d is rs q e hp hd hk hq he
    have hr : Reach s'.env root q := .child hp hd (by rw [hk]; exact hq)
    have hac := R.allChars hp hd hk
    have hlen := R.ranges hp hd hk
    have hz : ∀ {q : Ptr}, q ∈ is → ∃ r, (q, r) ∈ is.zip rs := by
      intro q hq
      obtain ⟨i, hi, rfl⟩ := List.getElem_of_mem hq
      exact ⟨rs[i]'(by omega), List.mem_iff_getElem.2 ⟨i, by simp; omega, by simp⟩⟩
    rcases grammarOf_seq hpl (hname hp hd) (by simp only [hk, PKind.expr, Expr.map]; rfl) with hpn | ⟨c, hc, hch⟩
    · obtain ⟨r, hr'⟩ := hz hq
      exact hplain hr he (hpn _ (List.mem_map.2 ⟨_, hr', rfl⟩))
    · exfalso
      have : (is.all fun q => ((s'.env.defs[q]?).map fun e => e.kind.isChar).getD false) = true := by
        rw [List.all_eq_true]
        intro q hq
        obtain ⟨r, hr'⟩ := hz hq
        obtain ⟨neg, chars, ranges, hm⟩ := hch _ (List.mem_map.2 ⟨_, hr', rfl⟩)
        have hg := call_grammar h hc hm
        simp only [charDef] at hg
        have hrq : Reach s'.env root q := .child hp hd (by rw [hk]; exact hq)
        obtain ⟨e', he'⟩ := R.linked.closed.def_ hrq
        have := hname hrq he'
        rw [hg] at this
        have := congrArg (fun x => x.map GDef.expr) this
        simp only [Option.map_some, Option.some.injEq] at this
        rw [he']
        simp only [Option.map_some, Option.getD_some]
        cases hke : e'.kind <;> rw [hke] at this <;> simp [PKind.expr, Expr.map] at this
        rfl
      rw [this] at hac; cases hac
  · intro input p hp i j
    obtain ⟨d, hd⟩ := R.linked.closed.def_ hp
    constructor
    · rintro ⟨⟨d', h1, h2⟩, k, hk, hder⟩
      rw [hd] at h1; cases h1
      refine ⟨(hflag hp hd).1 h2, ?_⟩
      obtain ⟨c, hc, hck, hcn⟩ := hkwc hk
      exact ⟨c, hc, hck, by rw [hcn]; exact (hM.derives_iff (.keyword hk)).2 hder⟩
    · rintro ⟨h1, c, hc, hck, hder⟩
      obtain ⟨k, hk, hkn⟩ := hkwk hc hck
      refine ⟨⟨d, hd, (hflag hp hd).2 h1⟩, k, hk, ?_⟩
      rw [← hkn] at hder
      exact (hM.derives_iff (.keyword hk)).1 hder

theorem Spec.Morphism.ref_iff {env : Env} {root p : Ptr} {M : Type} {G : Grammar M} {f : Ptr → M} {input : List Rune}
    {B : M → Nat → Nat → Prop} (m : Morphism env.grammar G (Reach env root) f)
    (ha : Apart (Reach env root) f) (hb : ∀ {p}, Reach env root p → ∀ i j, env.blocked input p i j ↔ B (f p) i j)
    (T : Parsable env root) (hp : Reach env root p) {i : Nat} {r : Match} :
    Ref G B input (f p) i r ↔ Ref env.grammar (env.blocked input) input p i r := by
  refine ⟨fun h => ?_, m.ref ha hb hp⟩
  obtain ⟨g, hg⟩ := T.linked.refs T.free T.grows input
  have h1 := hg hp i
  rw [h.unique (m.ref ha hb hp h1)]
  exact h1

theorem calls_straight {s' : Syntax} (h : Made cs s) (hi : s.Init = .ok (s', none)) (S : Straightforward cs) :
    ∃ root, s'.root = some root ∧ Straight s'.env root ∧ Apart (Reach s'.env root) s'.nameAt ∧
      Morphism s'.env.grammar (grammarOf cs) (Reach s'.env root) s'.nameAt ∧ rootOf cs = some (s'.nameAt root) ∧
      ∀ input {p}, Reach s'.env root p → ∀ i j, s'.env.blocked input p i j ↔ blockedOf cs input (s'.nameAt p) i j := by
  obtain ⟨root, h1, -, h2, h3⟩ := calls_regular h hi S.toRegular
  exact ⟨root, h1, h2 S.plainRefs, h3⟩

/-- What Parse returns. -/
theorem Parse_exact {s' : Syntax} {input : List Rune} {rn : Name} (h : Made cs s)
    (hi : s.Init = .ok (s', none)) (S : Straightforward cs) (hval : replacementChar ∉ input) (hrn : rootOf cs = some rn) (n : Nat) :
    (s.Parse n input none).Spec (¬ ∃ ns, Ref (grammarOf cs) (blockedOf cs input) input rn 0 (some (input.length, ns))) True (fun x => x.1 = s' ∧
      match x.2 with
      | .node t => Ref (grammarOf cs) (blockedOf cs input) input rn 0 (some (input.length, [t]))
      | .error _ => ¬ ∃ ns, Ref (grammarOf cs) (blockedOf cs input) input rn 0 (some (input.length, ns))
      | .syntaxError _ => False) := by
  obtain ⟨root, hr, T, ha, m, hroot, hb⟩ := calls_straight h hi S
  rw [hrn] at hroot
  obtain rfl := Option.some.inj hroot
  have hE := parseInput_exact T hval n
  unfold Syntax.Parse
  rw [hi]
  simp only [Res.bind_ok, hr]
  have hiff : ∀ r, Ref (grammarOf cs) (blockedOf cs input) input (s'.nameAt root) 0 r ↔ Ref s'.env.grammar (s'.env.blocked input) input root 0 r :=
    fun r => m.ref_iff ha (hb input) T.toParsable .root
  simp only [hiff]
  cases hp : parseInput s'.env n root input none with
  | oof => trivial
  | panic => rw [hp] at hE; exact hE
  | ok x =>
    rw [hp] at hE
    cases x with
    | ok t => exact ⟨rfl, hE⟩
    | error e => exact ⟨rfl, hE⟩

/-- What Parse returns, when the trees cannot always be built. -/
theorem Parse_regular {s' : Syntax} {input : List Rune} {rn : Name} (h : Made cs s)
    (hi : s.Init = .ok (s', none)) (S : Regular cs) (hval : replacementChar ∉ input) (hrn : rootOf cs = some rn) (n : Nat) :
    (s.Parse n input none).Spec True True (fun x => x.1 = s' ∧
      match x.2 with
      | .node _ => ∃ ns, Ref (grammarOf cs) (blockedOf cs input) input rn 0 (some (input.length, ns))
      | .error _ => ¬ ∃ ns, Ref (grammarOf cs) (blockedOf cs input) input rn 0 (some (input.length, ns))
      | .syntaxError _ => False) := by
  obtain ⟨root, hr, T, -, ha, m, hroot, hb⟩ := calls_regular h hi S
  rw [hrn] at hroot
  obtain rfl := Option.some.inj hroot
  have hE := parseInput_parsable T hval n
  unfold Syntax.Parse
  rw [hi]
  simp only [Res.bind_ok, hr]
  have hiff : ∀ r, Ref (grammarOf cs) (blockedOf cs input) input (s'.nameAt root) 0 r ↔ Ref s'.env.grammar (s'.env.blocked input) input root 0 r :=
    fun r => m.ref_iff ha (hb input) T .root
  simp only [hiff]
  cases hp : parseInput s'.env n root input none with
  | oof => trivial
  | panic => trivial
  | ok x =>
    rw [hp] at hE
    cases x with
    | ok t => exact ⟨rfl, hE⟩
    | error e => exact ⟨rfl, hE⟩

/-! ### Any attempts -/

/-- Contexts after any parse calls of any definitions in `Q` at any positions of the text read so far, and any keyword checks
of definitions with the NoKeyword flag. -/
inductive AttemptsOf (Q : Ptr → Prop) (env : Env) (root : Ptr) (input : List Rune) : Ctx → Prop
  | start : AttemptsOf Q env root input (newContext input none)
  | attempt {c c' : Ctx} {p : Ptr} {i n : Nat} : AttemptsOf Q env root input c → Reach env root p → Q p → i ≤ c.tokens.length →
      parse env n p { c with offset := i } = .ok c' → AttemptsOf Q env root input c'
  | check {c c' : Ctx} {p : Ptr} {d : PDef} {i j n : Nat} {b : Bool} : AttemptsOf Q env root input c → Reach env root p →
      env.defs[p]? = some d → d.commit.noKeyword = true → i ≤ j → i ≤ c.tokens.length →
      isKeyword (parse env n) env.keywords c i j = .ok (b, c') → AttemptsOf Q env root input c'

/-- Contexts after any parse calls of any definitions. -/
abbrev Attempts := AttemptsOf fun _ => True

/-- Contexts after any parse calls of any definitions that are not the left recursive option of a choice.  (These options are
only parsed by their choice.) -/
abbrev DirectAttempts (env : Env) := AttemptsOf (fun p => ¬ IsTail env p) env

theorem attempt_exact {env : Env} {root : Ptr} {input : List Rune} {f : Ptr → Nat → Match} (K : Ctxt env (Reach env root) input f root)
    {c : Ctx} (h : DirectAttempts env root input c) :
    Inv env input none (fun _ _ _ => True) c ∧ Good env (Reach env root) input f c.res ∧ (∀ o i, c.res.pcount o i = 0) ∧ c.offsetLimit = -1 := by
  induction h with
  | start => exact ⟨.init, .init, fun _ _ => rfl, rfl⟩
  | @attempt c c' p i n _ hp hq hi hc ih =>
    obtain ⟨h1, h2, h3, h4⟩ := ih
    have hE := (parse_exact K n p { c with offset := i } hp hq
      ⟨h1.split, h1.clean, h1.rendEq, h1.eof, h1.rerr, hi, h1.cons, h1.failLo, h1.failHi, h1.failing, h1.store, h1.once⟩ h2
      ⟨fun _ _ _ => h3 _ _, fun _ _ _ _ => h3 _ _⟩ h4).of_eq hc
    refine ⟨hE.1.inv, hE.2.good, fun o i => ?_, ?_⟩
    · rw [hE.1.frame.pc]; exact h3 _ _
    · rw [hE.1.frame.lim]; exact h4
  | @check c c' p d i j n b _ hp hd hn hij hi hc ih =>
    obtain ⟨h1, h2, h3, h4⟩ := ih
    have hE := keyword_exact K hp hd (parse_keyword K n) h1 h2 hij hi
    rw [if_pos hn] at hE
    have hE := hE.of_eq hc
    refine ⟨hE.2.1, hE.2.2.1, fun o i => ?_, ?_⟩
    · rw [hE.1.pc]; exact h3 _ _
    · rw [hE.1.lim]; exact h4

theorem attempt_ref {env : Env} {root : Ptr} {input : List Rune} (T : Parsable env root) (hval : replacementChar ∉ input)
    {c c' : Ctx} (h : DirectAttempts env root input c) {p : Ptr} {i n : Nat} (hp : Reach env root p) (hq : ¬ IsTail env p)
    (hi : i ≤ c.tokens.length) (hc : parse env n p { c with offset := i } = .ok c') :
    (c'.matchLast = true ∧ ∃ ns, Ref env.grammar (env.blocked input) input p i (some (c'.offset, ns))) ∨
    (c'.matchLast = false ∧ Ref env.grammar (env.blocked input) input p i none) := by
  obtain ⟨f, hf⟩ := T.linked.refs T.free T.grows input
  have K := T.ctxt hval hf
  obtain ⟨h1, h2, h3, h4⟩ := attempt_exact K h
  have hE := (parse_exact K n p { c with offset := i } hp hq
      ⟨h1.split, h1.clean, h1.rendEq, h1.eof, h1.rerr, hi, h1.cons, h1.failLo, h1.failHi, h1.failing, h1.store, h1.once⟩ h2
      ⟨fun _ _ _ => h3 _ _, fun _ _ _ _ => h3 _ _⟩ h4).of_eq hc
  have hr := hf hp i
  cases hm : c'.matchLast with
  | true =>
    obtain ⟨ns, hn⟩ := hE.2.yes hm
    simp only at hn
    rw [hn] at hr
    exact Or.inl ⟨rfl, ns, hr⟩
  | false =>
    have hn := hE.2.no hm
    simp only at hn
    rw [hn] at hr
    exact Or.inr ⟨rfl, hr⟩

theorem attempts_agree {env : Env} {root : Ptr} {input : List Rune} (T : Parsable env root) (hval : replacementChar ∉ input)
    {c₁ c₁' c₂ c₂' : Ctx} {p : Ptr} {i n₁ n₂ : Nat} (ha₁ : DirectAttempts env root input c₁) (ha₂ : DirectAttempts env root input c₂)
    (hp : Reach env root p) (ht : ¬ IsTail env p) (hi₁ : i ≤ c₁.tokens.length) (hi₂ : i ≤ c₂.tokens.length)
    (hc₁ : parse env n₁ p { c₁ with offset := i } = .ok c₁') (hc₂ : parse env n₂ p { c₂ with offset := i } = .ok c₂') :
    c₁'.matchLast = c₂'.matchLast ∧ (c₁'.matchLast = true → c₁'.offset = c₂'.offset) := by
  rcases attempt_ref T hval ha₁ hp ht hi₁ hc₁ with ⟨a1, ns1, a2⟩ | ⟨a1, a2⟩ <;>
    rcases attempt_ref T hval ha₂ hp ht hi₂ hc₂ with ⟨b1, ns2, b2⟩ | ⟨b1, b2⟩
  · refine ⟨a1.trans b1.symm, fun _ => ?_⟩
    have := a2.unique b2
    simp only [Option.some.injEq, Prod.mk.injEq] at this
    exact this.1
  · have := a2.unique b2; cases this
  · have := a2.unique b2; cases this
  · exact ⟨a1.trans b1.symm, fun h => by rw [a1] at h; cases h⟩

end
end Treerack
