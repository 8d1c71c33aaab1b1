import Verif.Proofs.Spaced
import Verif.Proofs.KeywordCalls

/-
The parsers of syntaxes with whitespace definitions, and the grammar with explicit whitespace.
-/

namespace Treerack
open Spec Whitespace

/-- The assumptions about the parsers follow from those about a grammar. -/
theorem parsable_of {env : Env} {root : Ptr} {M : Type} {G : Grammar M} {f : Ptr → M} (L : Linked env root)
    (hranges : ∀ {p : Ptr} {d : PDef} {is : List Ptr} {rs : List (Int × Int)} {ac : Bool}, Reach env root p →
      env.defs[p]? = some d → d.kind = .seq is rs ac → is.length ≤ rs.length)
    (hM : Morphism env.grammar G (Reach env root) f) (hap : Apart (Reach env root) f) (hG : OnlyDirectRecursion G)
    (hun : ∀ {a p d}, Recurs G a (f p) → Reach env root p → env.defs[p]? = some d → d.commit.noKeyword = false)
    (hroot : ∀ a, ¬ Recurs G a (f root))
    (hnoKw : ∀ {p d}, Reach env root p → env.defs[p]? = some d → d.commit.noKeyword = true → env.keywords = [] ∨
      ((∃ is rs ac, d.kind = .seq is rs ac) ∧ ∀ k ∈ env.keywords, TextParser env k)) :
    Parsable env root := by
  have hname : ∀ {p : Ptr} {d : PDef}, Reach env root p → env.defs[p]? = some d →
      G (f p) = some { name := d.name, alias := d.commit.alias, expr := d.kind.expr.map f } := by
    intro p d hp hd
    obtain ⟨gd, g1, g2⟩ := hM.def_ p hp
    rw [Env.grammar_some hd] at g1
    obtain rfl := Option.some.inj g1
    exact g2
  have hRa : ∀ {a t : Ptr}, Recurs env.grammar a t → Reach env root t → Reach env root a := by
    rintro a t ⟨-, -, e, tail, -, -, -, h4, h5⟩ ht
    exact hM.refs _ _ ht h4 _ (by rw [h5]; exact List.mem_map.2 ⟨_, List.mem_cons_self, rfl⟩)
  refine ⟨L, ?_, ?_, ?_, ?_, ?_, hnoKw⟩
  · intro p hp hl
    exact hG.free _ (hM.leftCalls hap hl hp)
  · rintro p d os hp hd hk ⟨t, ht⟩
    have hos : ∀ o ∈ os, Reach env root o := fun o ho => .child hp hd (by rw [hk]; exact ho)
    have hG := hG.grows _ _ (os.map f) (hname hp hd) (by simp only [hk, PKind.expr, Expr.map])
      ⟨_, (hM.recurs hp ht).2⟩
    exact hM.grows_inv hap hp hos hG
  · intro a t m d hr hm hd ht
    have hRt : Reach env root t := .child hm hd ht
    have hRa' := hRa hr hRt
    refine hap hm hRa' (hG.sole _ _ _ _ (hM.recurs hRa' hr).2 (hname hm hd) ?_)
    simp only
    cases hk : d.kind with
    | char => rw [hk] at ht; simp [PKind.children] at ht
    | choice os => rw [hk] at ht; exact List.mem_map.2 ⟨t, ht, rfl⟩
    | seq is rs ac =>
      rw [hk] at ht
      have hlen := hranges hm hd hk
      obtain ⟨i, hi, rfl⟩ := List.getElem_of_mem ht
      simp only [PKind.children] at hi
      exact List.mem_map.2 ⟨(f is[i], (rs[i]'(by omega)).1, (rs[i]'(by omega)).2),
        List.mem_map.2 ⟨(is[i], rs[i]'(by omega)), List.mem_iff_getElem.2 ⟨i, by simp; omega, by simp⟩, rfl⟩, rfl⟩
  · intro a t d hr ht hd
    exact hun (hM.recurs (hRa hr ht) hr).2 ht hd
  · rintro ⟨a, hr⟩
    exact hroot _ (hM.recurs (hRa hr .root) hr).2

/-! ### The characters of the grammar with explicit whitespace -/

section
variable {cs : List Call}

/-- The items are references of a call, or all of them are single characters, and there is no whitespace between them. -/
theorem grammarOf_seq_tight {n : Name} {d : GDef Name} {items : List (Name × Int × Int)} (hpl : PlainRefs cs)
    (h : grammarOf cs n = some d) (he : d.expr = .seq items) :
    (∀ x ∈ items, ∀ d, grammarOf cs x.1 = some d → ∀ neg chars ranges, d.expr ≠ .char neg chars ranges) ∨
    ((∀ x ∈ items, x.2 = (1, 1)) ∧ ((wgrammarOf cs).tight n = true ∨ ∃ x, items = [x]) ∧
      ∃ c ∈ cs, ∀ x ∈ items, ∃ neg chars ranges, charDef x.1 neg chars ranges ∈ c.defs) := by
  obtain ⟨c, hc, hm⟩ := grammarOf_mem h
  cases c with
  | anyChar m ct =>
    simp only [Call.defs, List.mem_cons, Prod.mk.injEq, List.not_mem_nil, or_false] at hm
    rcases hm with hm | ⟨rfl, rfl⟩
    · rw [(Prod.mk.inj hm).2] at he; cases he
    · cases he
      refine Or.inr ⟨by simp [once], Or.inr ⟨_, rfl⟩, _, hc, fun x hx => ?_⟩
      simp only [List.mem_singleton] at hx
      subst hx
      exact ⟨_, _, _, List.mem_cons_self⟩
  | class_ m ct neg cs rs =>
    simp only [Call.defs, List.mem_cons, Prod.mk.injEq, List.not_mem_nil, or_false] at hm
    rcases hm with hm | ⟨rfl, rfl⟩
    · rw [(Prod.mk.inj hm).2] at he; cases he
    · cases he
      refine Or.inr ⟨by simp [once], Or.inr ⟨_, rfl⟩, _, hc, fun x hx => ?_⟩
      simp only [List.mem_singleton] at hx
      subst hx
      exact ⟨_, _, _, List.mem_cons_self⟩
  | charSequence m ct chs =>
    simp only [Call.defs, List.mem_append, List.mem_map, List.mem_singleton, Prod.mk.injEq] at hm
    rcases hm with ⟨x, -, hm⟩ | ⟨rfl, rfl⟩
    · rw [← (Prod.mk.inj hm).2] at he; cases he
    · cases he
      refine Or.inr ⟨?_, Or.inl ?_, _, hc, fun x hx => ?_⟩
      · intro x hx
        obtain ⟨i, hi, rfl⟩ := List.mem_map.1 hx
        rfl
      · simp only [wgrammarOf, List.any_eq_true]
        exact ⟨_, hc, by simp [Call.name, Call.isTight]⟩
      · obtain ⟨i, hi, rfl⟩ := List.mem_map.1 hx
        refine ⟨false, [chs[i]'(List.mem_range.1 hi)], [], ?_⟩
        simp only [Call.defs]
        apply List.mem_append_left
        refine List.mem_map.2 ⟨(chs[i]'(List.mem_range.1 hi), i), ?_, rfl⟩
        rw [List.mk_mem_zipIdx_iff_getElem?]
        exact List.getElem?_eq_getElem _
  | sequence m ct items' =>
    simp only [Call.defs, List.mem_singleton, Prod.mk.injEq] at hm
    obtain ⟨rfl, rfl⟩ := hm
    cases he
    refine Or.inl fun x hx => ?_
    obtain ⟨y, hy, rfl⟩ := List.mem_map.1 hx
    exact hpl _ hc _ (List.mem_map.2 ⟨y, hy, rfl⟩)
  | choice m ct os' =>
    simp only [Call.defs, List.mem_singleton, Prod.mk.injEq] at hm
    obtain ⟨rfl, rfl⟩ := hm
    cases he

/-- Not a single character. -/
def Wide (G : Grammar (Part Name)) (y : Part Name) : Prop :=
  ∀ e, G y = some e → ∀ neg chars ranges, e.expr ≠ .char neg chars ranges

variable {W : WGrammar Name}

theorem inner_char {n : Name} {e : Expr Name} {neg : Bool} {chars : List Rune} {ranges : List (Rune × Rune)}
    (h : W.inner n e = .char neg chars ranges) : e = .char neg chars ranges := by
  cases e with
  | char => simpa [WGrammar.inner, Expr.map] using h
  | choice => simp [WGrammar.inner, Expr.map] at h
  | seq => simp only [WGrammar.inner] at h; split at h <;> simp [Expr.map] at h

theorem wide_given {n : Name} (h : ∀ d, W.G n = some d → ∀ neg chars ranges, d.expr ≠ .char neg chars ranges) :
    Wide (spaced W) (.given n) := by
  intro e he neg chars ranges hc
  simp only [spaced] at he
  obtain ⟨d, h1, rfl⟩ := Option.map_eq_some_iff.1 he
  split at hc
  · cases hc
  · exact h d h1 neg chars ranges (inner_char hc)

theorem wide_hidden {x : Part Name} (h : (∃ n i, x = .rest n i ∨ x = .several n i) ∨ x = .space) : Wide (spaced W) x := by
  intro e he neg chars ranges hc
  rcases h with ⟨n, i, rfl | rfl⟩ | rfl
  · simp only [spaced] at he
    obtain ⟨d, h1, rfl⟩ := Option.map_eq_some_iff.1 he
    cases hc
  · simp only [spaced] at he
    obtain ⟨d, h1, rfl⟩ := Option.map_eq_some_iff.1 he
    cases hc
  · simp only [spaced] at he
    obtain rfl := Option.some.inj he
    cases hc

theorem wide_body (hr : ∀ d, W.G W.root = some d → ∀ neg chars ranges, d.expr ≠ .char neg chars ranges) : Wide (spaced W) .body := by
  intro e he neg chars ranges hc
  simp only [spaced] at he
  obtain ⟨d, h1, rfl⟩ := Option.map_eq_some_iff.1 he
  exact hr d h1 neg chars ranges (inner_char hc)

theorem lead_wide (i : Nat) : ∀ y ∈ (lead i : List (Part Name × Int × Int)), Wide (spaced W) y.1 := by
  intro y hy
  unfold lead at hy
  split at hy
  · simp only [List.mem_singleton] at hy; subst hy; exact wide_hidden (Or.inr rfl)
  · simp at hy

theorem occurrences_wide {sn x : Name} {i : Nat} {mn mx : Int} (hx : Wide (spaced W) (.given x)) :
    ∀ y ∈ occurrences sn i x mn mx, Wide (spaced W) y.1 := by
  intro y hy
  simp only [occurrences, List.mem_cons, List.not_mem_nil, or_false] at hy
  rcases hy with rfl | rfl
  · exact hx
  · exact wide_hidden (Or.inl ⟨_, _, Or.inl rfl⟩)

theorem items_wide {sn : Name} : ∀ (items : List (Name × Int × Int)) (i : Nat), (∀ x ∈ items, Wide (spaced W) (.given x.1)) →
    ∀ y ∈ spacedItems sn i items, Wide (spaced W) y.1
  | [], _, _, y, hy => by simp [spacedItems] at hy
  | x :: items, i, hw, y, hy => by
    simp only [spacedItems, List.mem_append] at hy
    rcases hy with hy | hy
    · unfold spacedItem at hy
      split at hy
      · rcases List.mem_append.1 hy with hy | hy
        · exact lead_wide i y hy
        · simp only [List.mem_singleton] at hy
          subst hy; exact hw x (by simp)
      · split at hy
        · rcases List.mem_append.1 hy with hy | hy
          · exact lead_wide i y hy
          · exact occurrences_wide (hw x (by simp)) y hy
        · simp only [List.mem_singleton] at hy
          subst hy; exact wide_hidden (Or.inl ⟨_, _, Or.inr rfl⟩)
    · exact items_wide items (i + 1) (fun z hz => hw z (by simp [hz])) y hy

variable {s : Syntax} (h : Made cs s) (hpl : PlainRefs cs)
include h

theorem root_wide {r0 : Ptr} (hroot : s.root = some r0) : ∀ d, s.wgrammar.G s.wgrammar.root = some d →
    ∀ neg chars ranges, d.expr ≠ .char neg chars ranges := by
  have C := made_called h
  have hs := C.built.inv
  intro d hd neg chars ranges he
  obtain ⟨q, e, g1, g2, g3⟩ := hs.grammar_has hd
  have g2 : e.name = s.rootName := g2
  obtain ⟨dr, hdr, hrn⟩ := hs.has_root hroot
  obtain ⟨rfl, rfl⟩ := hs.has_inj g1 hdr (g2.trans hrn.symm)
  obtain ⟨e0, k1, rfl⟩ := hs.has_heap g1
  have hk := C.rootNotChar _ e0 hroot k1
  rw [← initRanges_isChar] at hk
  rw [← g3] at he
  cases hkk : e0.initRanges.kind with
  | char => rw [hkk] at hk; cases hk
  | choice => simp [Def.gdef, hkk] at he
  | seq => simp [Def.gdef, hkk] at he

theorem ws_wide {n : Name} (hn : n ∈ s.wgrammar.ws) : Wide (spaced s.wgrammar) (.given n) := by
  have hs := (made_called h).built.inv
  obtain ⟨q, e, q1, rfl, q2⟩ := hs.has_ws.1 hn
  apply wide_given
  intro d hd neg chars ranges he
  have hd : s.grammar e.name = some d := hd
  rw [hs.has_grammar q1] at hd
  obtain rfl := Option.some.inj hd
  obtain ⟨e0, k1, rfl⟩ := hs.has_heap q1
  rw [initRanges_commitType] at q2
  have hk : e0.kind.isChar = false := by
    cases hk : e0.kind.isChar with
    | false => rfl
    | true =>
      have := hs.charCommit _ _ k1 hk
      unfold Def.commitType at q2
      rw [this] at q2
      split at q2 <;> simp at q2
  rw [← initRanges_isChar] at hk
  cases hkk : e0.initRanges.kind with
  | char => rw [hkk] at hk; cases hk
  | choice => simp [Def.gdef, hkk] at he
  | seq => simp [Def.gdef, hkk] at he

include hpl in
theorem spaced_choice {r0 : Ptr} (hroot : s.root = some r0) (hW : s.wgrammar = wgrammarOf cs) {x : Part Name} {d : GDef (Part Name)}
    {os : List (Part Name)} (hx : spaced s.wgrammar x = some d) (he : d.expr = .choice os) : ∀ o ∈ os, Wide (spaced s.wgrammar) o := by
  have hin : ∀ {n : Name} {e : GDef Name}, s.wgrammar.G n = some e → s.wgrammar.inner n e.expr = .choice os →
      ∀ o ∈ os, Wide (spaced s.wgrammar) o := by
    intro n e hg hi o ho
    cases hee : e.expr with
    | char => rw [hee] at hi; simp [WGrammar.inner, Expr.map] at hi
    | seq => rw [hee] at hi; simp only [WGrammar.inner] at hi; split at hi <;> simp [Expr.map] at hi
    | choice os' =>
      rw [hee] at hi
      simp only [WGrammar.inner, Expr.map, Expr.choice.injEq] at hi
      subst hi
      obtain ⟨m, hm, rfl⟩ := List.mem_map.1 ho
      rw [hW] at hg ⊢
      exact wide_given (grammarOf_choice hpl hg hee hm)
  cases x with
  | given n =>
    simp only [spaced] at hx
    obtain ⟨e, g1, rfl⟩ := Option.map_eq_some_iff.1 hx
    split at he
    · cases he
    · exact hin g1 he
  | space =>
    simp only [spaced, Option.some.injEq] at hx
    subst hx
    simp only [hidden, Expr.choice.injEq] at he
    subst he
    intro o ho
    obtain ⟨m, hm, rfl⟩ := List.mem_map.1 ho
    exact ws_wide h hm
  | body =>
    simp only [spaced] at hx
    obtain ⟨e, g1, rfl⟩ := Option.map_eq_some_iff.1 hx
    exact hin g1 he
  | rest n i =>
    simp only [spaced] at hx
    obtain ⟨e, g1, rfl⟩ := Option.map_eq_some_iff.1 hx
    cases he
  | several n i =>
    simp only [spaced] at hx
    obtain ⟨e, g1, rfl⟩ := Option.map_eq_some_iff.1 hx
    cases he

include hpl in
/-- An item that can be repeated is not a character. -/
theorem item_wide (hW : s.wgrammar = wgrammarOf cs) {n : Name} {i : Nat} {x : Name × Int × Int}
    (hi : s.wgrammar.item n i = some x) (hx : x.2.2 ≠ 1) : Wide (spaced s.wgrammar) (.given x.1) := by
  unfold WGrammar.item at hi
  split at hi
  · rename_i nm al items hg
    rw [hW] at hg ⊢
    have hm := List.mem_of_getElem? hi
    rcases grammarOf_seq_tight hpl hg rfl with h1 | ⟨h1, -⟩
    · exact wide_given (h1 x hm)
    · exact absurd (by rw [h1 x hm]) hx
  · cases hi

include hpl in
theorem spaced_seq {P : Name → Prop} {r0 : Ptr} (hroot : s.root = some r0) (hW : s.wgrammar = wgrammarOf cs) {x : Part Name}
    {d : GDef (Part Name)} {items : List (Part Name × Int × Int)} (ho : Occurs P s.wgrammar x)
    (hx : spaced s.wgrammar x = some d) (he : d.expr = .seq items) :
    (∀ y ∈ items, Wide (spaced s.wgrammar) y.1) ∨
    ∀ y ∈ items, ∃ e neg chars ranges, spaced s.wgrammar y.1 = some e ∧ e.expr = .char neg chars ranges := by
  have hrw := root_wide h hroot
  have hin : ∀ {n : Name} {e : GDef Name}, s.wgrammar.G n = some e → s.wgrammar.inner n e.expr = .seq items →
      (∀ y ∈ items, Wide (spaced s.wgrammar) y.1) ∨
      ∀ y ∈ items, ∃ e neg chars ranges, spaced s.wgrammar y.1 = some e ∧ e.expr = .char neg chars ranges := by
    intro n e hg hi
    cases hee : e.expr with
    | char => rw [hee] at hi; simp [WGrammar.inner, Expr.map] at hi
    | choice => rw [hee] at hi; simp [WGrammar.inner, Expr.map] at hi
    | seq its =>
      rw [hee] at hi
      simp only [WGrammar.inner] at hi
      have hg' : grammarOf cs n = some e := by rw [hW] at hg; exact hg
      rcases grammarOf_seq_tight hpl hg' hee with h1 | ⟨h1, h2, c, hc, h3⟩
      · left
        have hw : ∀ y ∈ its, Wide (spaced s.wgrammar) (.given y.1) := fun y hy => by
          rw [hW]; exact wide_given (h1 y hy)
        split at hi
        · simp only [Expr.map, Expr.seq.injEq] at hi
          subst hi
          intro y hy
          obtain ⟨z, hz, rfl⟩ := List.mem_map.1 hy
          exact hw z hz
        · simp only [Expr.seq.injEq] at hi
          subst hi
          exact items_wide _ _ hw
      · right
        have hch : ∀ y ∈ its, ∃ e neg chars ranges, spaced s.wgrammar (.given y.1) = some e ∧ e.expr = .char neg chars ranges := by
          intro y hy
          obtain ⟨neg, chars, ranges, h4⟩ := h3 y hy
          have hg := call_grammar h hc h4
          have hg : s.wgrammar.G y.1 = some ⟨y.1, true, .char neg chars ranges⟩ := by rw [hW]; exact hg
          have hne : y.1 ≠ s.wgrammar.root := by
            intro hh
            rw [hh] at hg
            exact hrw _ hg _ _ _ rfl
          exact ⟨_, neg, chars, ranges, by simp only [spaced, hg, Option.map_some, if_neg hne]; rfl, rfl⟩
        split at hi
        · simp only [Expr.map, Expr.seq.injEq] at hi
          subst hi
          intro y hy
          obtain ⟨z, hz, rfl⟩ := List.mem_map.1 hy
          exact hch z hz
        · rename_i hnt
          rcases h2 with h2 | ⟨z, rfl⟩
          · rw [hW] at hnt; exact absurd h2 hnt
          · have hz := h1 z (by simp)
            simp only [Expr.seq.injEq] at hi
            subst hi
            intro y hy
            simp only [spacedItems, spacedItem, hz, if_true, lead, Nat.lt_irrefl, if_false, List.nil_append, List.append_nil,
              List.mem_singleton] at hy
            subst hy
            exact hch z (by simp)
  cases x with
  | given n =>
    simp only [spaced] at hx
    obtain ⟨e, g1, rfl⟩ := Option.map_eq_some_iff.1 hx
    split at he
    · left
      simp only [Expr.seq.injEq] at he
      subst he
      intro y hy
      simp only [List.mem_cons, List.not_mem_nil, or_false] at hy
      rcases hy with rfl | rfl | rfl
      · exact wide_hidden (Or.inr rfl)
      · exact wide_body hrw
      · exact wide_hidden (Or.inr rfl)
    · exact hin g1 he
  | space =>
    simp only [spaced, Option.some.injEq] at hx
    subst hx
    cases he
  | body =>
    simp only [spaced] at hx
    obtain ⟨e, g1, rfl⟩ := Option.map_eq_some_iff.1 hx
    exact hin g1 he
  | rest n i =>
    left
    simp only [spaced] at hx
    obtain ⟨z, g1, rfl⟩ := Option.map_eq_some_iff.1 hx
    obtain ⟨-, z', h1, -, h2⟩ := ho
    rw [g1] at h1
    obtain rfl := Option.some.inj h1
    simp only [hidden, Expr.seq.injEq] at he
    subst he
    intro y hy
    simp only [List.mem_cons, List.not_mem_nil, or_false] at hy
    rcases hy with rfl | rfl
    · exact wide_hidden (Or.inr rfl)
    · exact item_wide h hpl hW g1 h2
  | several n i =>
    left
    simp only [spaced] at hx
    obtain ⟨z, g1, rfl⟩ := Option.map_eq_some_iff.1 hx
    obtain ⟨-, z', h1, -, h2⟩ := ho
    rw [g1] at h1
    obtain rfl := Option.some.inj h1
    simp only [hidden, Expr.seq.injEq] at he
    subst he
    intro y hy
    rcases List.mem_append.1 hy with hy | hy
    · exact lead_wide i y hy
    · exact occurrences_wide (item_wide h hpl hW g1 h2) y hy

end

/-! ### The parsers -/

theorem Spec.Expr.map_map {N M K : Type} (f : N → M) (g : M → K) (e : Expr N) : (e.map f).map g = e.map fun x => g (f x) := by
  cases e <;> simp [Expr.map, Function.comp_def]

theorem Spec.Expr.map_same {N : Type} {f : N → N} {e : Expr N} (h : ∀ x ∈ e.refs, f x = x) : e.map f = e := by
  cases e with
  | char => rfl
  | choice os =>
    simp only [Expr.map, Expr.choice.injEq]
    exact (List.map_congr_left h).trans (List.map_id' os)
  | seq items =>
    simp only [Expr.map, Expr.seq.injEq]
    refine (List.map_congr_left (g := fun x => x) fun x hx => ?_).trans (List.map_id' items)
    rw [h x.1 (List.mem_map.2 ⟨x, hx, rfl⟩)]

open Classical in
/-- The definition with the name. -/
noncomputable def partOf (P : Name → Prop) (W : WGrammar Name) (n : Name) : Part Name :=
  if h : ∃ y, Occurs P W y ∧ toName W y = n then h.choose else .space

theorem partOf_eq {P : Name → Prop} (hP : NameScheme P) {W : WGrammar Name} {y : Part Name} (hy : Occurs P W y) :
    partOf P W (toName W y) = y := by
  have h : ∃ z, Occurs P W z ∧ toName W z = toName W y := ⟨y, hy, rfl⟩
  unfold partOf
  rw [dif_pos h]
  exact toName_inj hP h.choose_spec.1 hy h.choose_spec.2

theorem inner_seq {W : WGrammar Name} {n : Name} {items : List (Name × Int × Int)} :
    ∃ items', W.inner n (.seq items) = .seq items' := by
  simp only [WGrammar.inner]
  split
  · exact ⟨_, rfl⟩
  · exact ⟨_, rfl⟩

/-- The parsers of calls with whitespace definitions, as parts of the grammar with explicit whitespace. -/
structure WsParsers (cs : List Call) (s' : Syntax) (root : Ptr) (f : Ptr → Part Name) : Prop where
  understood : Understood cs s' root
  apart : Apart (Reach s'.env root) f
  morphism : Morphism s'.env.grammar (relabel (toName (wgrammarOf cs)) (spaced (wgrammarOf cs))) (Reach s'.env root) f
  root_ : f root = .given (wgrammarOf cs).root
  rootName : rootOf cs = some (wgrammarOf cs).root
  call : ∀ {c p d}, c ∈ cs → Reach s'.env root p → s'.env.defs[p]? = some d → d.name = c.name → f p = .given c.name
  named : ∀ {p}, Reach s'.env root p → toName (wgrammarOf cs) (f p) = s'.nameAt p
  flag : ∀ {p d}, Reach s'.env root p → s'.env.defs[p]? = some d → (d.commit.noKeyword = true ↔ Checked cs (f p))
  keyword : ∀ {k : Ptr}, k ∈ s'.env.keywords → ∃ c ∈ cs, c.commit.keyword = true ∧ c.name = s'.nameAt k
  keywordOf : ∀ {c : Call}, c ∈ cs → c.commit.keyword = true → ∃ k ∈ s'.env.keywords, s'.nameAt k = c.name
  text : ∀ {k : Ptr} {c : Call}, k ∈ s'.env.keywords → c ∈ cs → c.commit.keyword = true → c.name = s'.nameAt k → c.isText = true →
    TextParser s'.env k
  occurs : ∃ Q, ∀ {p}, Reach s'.env root p → Occurs Q (wgrammarOf cs) (f p)
  allChars : ∀ {p : Ptr} {d : PDef} {is : List Ptr} {rs : List (Int × Int)} {ac : Bool}, Reach s'.env root p →
    s'.env.defs[p]? = some d → d.kind = .seq is rs ac →
    ac = is.all fun q => ((s'.env.defs[q]?).map fun e => e.kind.isChar).getD false
  ranges : ∀ {p : Ptr} {d : PDef} {is : List Ptr} {rs : List (Int × Int)} {ac : Bool}, Reach s'.env root p →
    s'.env.defs[p]? = some d → d.kind = .seq is rs ac → is.length ≤ rs.length

theorem WsParsers.expr {cs : List Call} {s' : Syntax} {root : Ptr} {f : Ptr → Part Name} (W : WsParsers cs s' root f) {p : Ptr} {d : PDef}
    (hp : Reach s'.env root p) (hd : s'.env.defs[p]? = some d) :
    ∃ gd, spaced (wgrammarOf cs) (f p) = some gd ∧ gd.expr = d.kind.expr.map f := by
  obtain ⟨gd, g1, g2⟩ := W.morphism.def_ p hp
  rw [Env.grammar_some hd] at g1
  obtain rfl := Option.some.inj g1
  obtain ⟨gd, g3, g4⟩ := (relabeled (toName (wgrammarOf cs)) (spaced (wgrammarOf cs))).back g2
  exact ⟨gd, g3, g4.expr.symm⟩

theorem calls_ws {cs : List Call} {s s' : Syntax} (h : Made cs s) (hi : s.Init = .ok (s', none))
    (hws : ∃ c ∈ cs, c.commit.whitespace = true) (hnames : PlainNames cs) (htight : TightKeywords cs) :
    ∃ root f, WsParsers cs s' root f := by
  have C := made_called h
  have hs := C.built.inv
  have hw : s.HasWhitespace := C.whitespace.2 hws
  have hne : cs ≠ [] := made_ne h hi
  obtain ⟨rn, hrn⟩ := rootOf_some hne
  have hW := calls_wgrammar h hne
  obtain ⟨root, U, K⟩ := keyword_parsers h (fun _ => ⟨hnames, htight⟩) hi
  obtain ⟨r0, root1, s1, hr0, WG, WP, P, I, hr1, hf1, hn1, hkw1⟩ :=
    Init_ws_ok hs hw C.rootNotChar (wsNames_nodup h hne hnames) (keywordsKept h htight) hi
  have : root1 = root := by
    have := U.rootEq
    rw [I.same] at this
    rw [hr1] at this
    exact Option.some.inj this
  subst this
  obtain ⟨Q, hQ, hpl⟩ := hnames.scheme
  have hM := I.morphism P
  have WF := WP.noKw r0 hr0
  -- the name and the flag before the initialization
  have horig : ∀ {p : Ptr} {d : PDef}, Reach s'.env root1 p → s'.env.defs[p]? = some d →
      s1.registry.lookup (s'.nameAt p) = some p ∧ s1.noKw (s'.nameAt p) = d.commit.noKeyword := by
    intro p d hp hd
    obtain ⟨e1, m1, rfl⟩ := Syntax.env_get hd
    obtain ⟨a1, m2, m3⟩ := I.sk.symm.to m1
    have hlook := P.lookup_name p a1 (P.used_mem (I.reach hp)) m2
    have hna : a1.name = s'.nameAt p := by
      rw [nameAt_env hd]; exact Def.sk_name m3
    rw [hna] at hlook
    refine ⟨hlook, ?_⟩
    unfold Syntax.noKw
    rw [hlook]
    simp only [Option.bind_some, m2, Option.any_some]
    show _ = e1.commitType.noKeyword
    rw [Def.sk_commitType m3]
  have hapN : Apart (Reach s'.env root1) s'.nameAt := by
    intro p q hp hq he
    obtain ⟨d, hd⟩ := U.linked.closed.def_ hp
    obtain ⟨d', hd'⟩ := U.linked.closed.def_ hq
    have a1 := (horig hp hd).1
    rw [he, (horig hq hd').1] at a1
    exact (Option.some.inj a1).symm
  -- the parts
  let f : Ptr → Part Name := fun q => partOf Q (wgrammarOf cs) (s'.nameAt q)
  have hpart : ∀ {p : Ptr} {d : PDef}, Reach s'.env root1 p → s'.env.defs[p]? = some d →
      Occurs Q (wgrammarOf cs) (f p) ∧ toName (wgrammarOf cs) (f p) = s'.nameAt p ∧
      relabel (toName (wgrammarOf cs)) (spaced (wgrammarOf cs)) (f p) =
        some { name := d.name, alias := d.commit.alias, expr := d.kind.expr.map f } ∧
      (d.commit.noKeyword = true ↔ Checked cs (f p)) := by
    intro p d hp hd
    obtain ⟨gd, g1, g2⟩ := hM.def_ p hp
    rw [Env.grammar_some hd] at g1
    obtain rfl := Option.some.inj g1
    obtain ⟨x, gd', x1, x2, x3, x4, x5, x6⟩ := spaced_named h hQ hpl hr0 WG WF g2
    rw [hW] at x1 x2 x3 x4 x5 x6
    have hfx : f p = x := by
      show partOf Q _ (s'.nameAt p) = x
      rw [← x2]; exact partOf_eq hQ x1
    rw [hfx]
    refine ⟨x1, x2, ?_, ?_⟩
    · rw [x3]
      congr 1
      have he := congrArg GDef.expr x4
      have hnm := congrArg GDef.name x4
      have hal := congrArg GDef.alias x4
      simp only [GDef.map] at he hnm hal
      have he' := congrArg (fun e => Expr.map (partOf Q (wgrammarOf cs)) e) he
      simp only [Expr.map_map] at he'
      rw [Expr.map_same (e := gd'.expr) (fun y hy => partOf_eq hQ (x5 y hy))] at he'
      show gd' = ⟨_, _, d.kind.expr.map fun q => partOf Q (wgrammarOf cs) (s'.nameAt q)⟩
      rw [he', hnm, hal]
    · rw [← (horig hp hd).2, x6]
      cases x <;> rfl
  have hap : Apart (Reach s'.env root1) f := by
    intro p q hp hq he
    obtain ⟨d, hd⟩ := U.linked.closed.def_ hp
    obtain ⟨d', hd'⟩ := U.linked.closed.def_ hq
    apply hapN hp hq
    rw [← (hpart hp hd).2.1, ← (hpart hq hd').2.1, he]
  have hMf : Morphism s'.env.grammar (relabel (toName (wgrammarOf cs)) (spaced (wgrammarOf cs))) (Reach s'.env root1) f := by
    refine ⟨fun p hp => ?_, hM.refs⟩
    obtain ⟨d, hd⟩ := U.linked.closed.def_ hp
    exact ⟨_, Env.grammar_some hd, (hpart hp hd).2.2.1⟩
  -- the root
  have hrootW : (wgrammarOf cs).root = rn := by
    show (rootOf cs).getD [] = rn
    rw [hrn]; rfl
  obtain ⟨dR, hdR, hRn⟩ := U.rootDef
  have hfroot : f root1 = .given (wgrammarOf cs).root := by
    obtain ⟨q1, q2, -⟩ := hpart .root hdR
    rw [nameAt_env hdR] at q2
    rw [hrn] at hRn
    obtain ⟨dr, hdr, hdn⟩ := hs.has_root hr0
    have hnum : Numbered dr.name := has_orig h hQ hpl hdr
    have : dr.name = rn := by rw [hdn]; exact C.root _ hrn
    rw [this] at hnum
    refine toName_inj hQ q1 (show Occurs Q _ (.given (wgrammarOf cs).root) from by rw [hrootW]; exact hnum) ?_
    rw [q2, ← Option.some.inj hRn]
    exact hrootW.symm
  -- the keywords
  have hkeq : s'.env.keywords = s.keywords := by rw [← hkw1, I.same]; rfl
  have hkwc : ∀ {k : Ptr}, k ∈ s'.env.keywords → ∃ c ∈ cs, c.commit.keyword = true ∧ c.name = s'.nameAt k := by
    intro k hk
    obtain ⟨dk, hdk⟩ := U.linked.closed.def_ (.keyword hk)
    rw [hkeq] at hk
    obtain ⟨h1, e, h2, h3, h4⟩ := (hs.keywords k).1 hk
    have hH : s.Has k e.initRanges := ⟨h1, by rw [hs.preHeap_get, if_pos h1, h2]; rfl⟩
    obtain ⟨e2, k1, k2, c', hc', hraw⟩ := Syntax.Has.raw h hH
    rw [h2] at k1; cases k1
    have hnm : s'.nameAt k = e.name := by
      obtain ⟨e1, m1, rfl⟩ := Syntax.env_get hdk
      obtain ⟨a1, m2, m3⟩ := I.sk.symm.to m1
      obtain ⟨d0, n1, -, n2⟩ := WP.stale k (by rw [hkw1]; exact hk) a1 m2
      have := Option.some.inj (hH.2.symm.trans n1.2)
      rw [nameAt_env hdk]
      show e1.name = _
      rw [← Def.sk_name m3, n2, ← this, initRanges_name]
    rcases raw_cases hraw with ⟨i, neg, chars, ranges, h5⟩ | ⟨h6, -, h5, -⟩
    · have : e.kind.isChar = true := by rw [← plain_kind, h5]; rfl
      rw [h3] at this; cases this
    · refine ⟨c', hc', ?_, by rw [hnm, ← h6, plain_name]⟩
      rw [← h5, plain_commitType]
      show e.commitType.keyword = true
      rw [commitType_notChar h3]; exact h4
  have hkwk : ∀ {c : Call}, c ∈ cs → c.commit.keyword = true → ∃ k ∈ s'.env.keywords, s'.nameAt k = c.name := by
    intro c hc hck
    obtain ⟨r, hr, r1, r2, -, r3⟩ := raw_main c
    obtain ⟨q, e, l1, l2, l3⟩ := raw_has h hc hr
    have hch : e.kind.isChar = false := by rw [← plain_kind, l3]; exact r2
    have hqk : q ∈ s.keywords := by
      refine (hs.keywords q).2 ⟨l2.1, e, l1, hch, ?_⟩
      have : r.commitType.keyword = e.commitType.keyword := by rw [← l3, plain_commitType]
      rw [← commitType_notChar hch, ← this, r3]
      exact hck
    have hqk' : q ∈ s'.env.keywords := by rw [hkeq]; exact hqk
    refine ⟨q, hqk', ?_⟩
    obtain ⟨dk, hdk⟩ := U.linked.closed.def_ (.keyword hqk')
    obtain ⟨e1, m1, rfl⟩ := Syntax.env_get hdk
    obtain ⟨a1, m2, m3⟩ := I.sk.symm.to m1
    obtain ⟨d0, n1, -, n2⟩ := WP.stale q (by rw [hkw1]; exact hqk) a1 m2
    have := Option.some.inj (l2.2.symm.trans n1.2)
    rw [nameAt_env hdk]
    show e1.name = _
    rw [← Def.sk_name m3, n2, ← this, initRanges_name, ← r1, ← l3, plain_name]
  refine ⟨root1, f, U, hap, hMf, hfroot, by rw [hrn, hrootW], ?_, ?_, fun hp hd => (hpart hp hd).2.2.2, hkwc, hkwk, ?_, ⟨Q, ?_⟩, I.allChars,
    I.ranges⟩
  · intro c p d hc hp hd hn
    obtain ⟨q1, q2, -⟩ := hpart hp hd
    refine toName_inj hQ q1 (show Occurs Q _ (.given c.name) from hQ.numbered _ (hpl c hc).1) ?_
    rw [q2, nameAt_env hd, hn]; rfl
  · intro p hp
    obtain ⟨d, hd⟩ := U.linked.closed.def_ hp
    exact (hpart hp hd).2.1
  · intro k c hk hc hcc hcn htx
    obtain ⟨q, dq, q1, q2, q3, q4⟩ := K.keyword hc hcc htx
    have : q = k := hapN (.keyword q1) (.keyword hk) (by rw [nameAt_env q2, q3, hcn])
    exact this ▸ q4
  · intro p hp
    obtain ⟨d, hd⟩ := U.linked.closed.def_ hp
    exact (hpart hp hd).1

/-- The parsers of calls with whitespace definitions: `f` tells the definition of the grammar with explicit whitespace. -/
structure SpacedParsers (cs : List Call) (s' : Syntax) (root : Ptr) (f : Ptr → Part Name) : Prop where
  rootEq : s'.root = some root
  parsable : Parsable s'.env root
  straight : PlainRefs cs → Straight s'.env root
  apart : Apart (Reach s'.env root) f
  morphism : Morphism s'.env.grammar (relabel (toName (wgrammarOf cs)) (spaced (wgrammarOf cs))) (Reach s'.env root) f
  root_ : f root = .given (wgrammarOf cs).root
  rootName : rootOf cs = some (wgrammarOf cs).root
  call : ∀ {c p d}, c ∈ cs → Reach s'.env root p → s'.env.defs[p]? = some d → d.name = c.name → f p = .given c.name
  flag : ∀ {p d}, Reach s'.env root p → s'.env.defs[p]? = some d → (d.commit.noKeyword = true ↔ Checked cs (f p))
  blocked : ∀ input {p}, Reach s'.env root p → ∀ i j, s'.env.blocked input p i j ↔ spacedBlocked cs input (f p) i j

theorem SpacedParsers.ref_iff {cs : List Call} {s' : Syntax} {root : Ptr} {f : Ptr → Part Name} (S : SpacedParsers cs s' root f)
    {input : List Rune} {p : Ptr} {i : Nat} {m : Match} (hp : Reach s'.env root p) :
    RefWs cs input (f p) i m ↔ Ref s'.env.grammar (s'.env.blocked input) input p i m :=
  (relabeled _ _).ref_iff.trans (S.morphism.ref_iff S.apart (S.blocked input) S.parsable hp)

theorem calls_spaced {cs : List Call} {s s' : Syntax} (h : Made cs s) (hi : s.Init = .ok (s', none)) (S : RegularWs cs) :
    ∃ root f, SpacedParsers cs s' root f := by
  have hs := (made_called h).built.inv
  have hW := calls_wgrammar h (made_ne h hi)
  obtain ⟨r0, hr0⟩ : ∃ r0, s.root = some r0 := by
    obtain ⟨r0, -, -, hr0, -⟩ := Init_ws_ok hs ((made_called h).whitespace.2 S.whitespace) (made_called h).rootNotChar
      (wsNames_nodup h (made_ne h hi) S.names) (keywordsKept h S.tight) hi
    exact ⟨r0, hr0⟩
  obtain ⟨root1, f, W⟩ := calls_ws h hi S.whitespace S.names S.tight
  have U := W.understood
  have hsp : ∀ {p : Ptr} {d : PDef}, Reach s'.env root1 p → s'.env.defs[p]? = some d →
      ∃ gd, spaced (wgrammarOf cs) (f p) = some gd ∧ gd.expr = d.kind.expr.map f := W.expr
  have RL := relabeled (toName (wgrammarOf cs)) (spaced (wgrammarOf cs))
  have hwide : ∀ {p : Ptr} {d : PDef}, Reach s'.env root1 p → s'.env.defs[p]? = some d → Wide (spaced (wgrammarOf cs)) (f p) →
      d.kind.isChar = false := by
    intro p d hp hd hn
    obtain ⟨gd, g1, g2⟩ := hsp hp hd
    cases hk : d.kind with
    | char neg chars ranges => exact absurd (by rw [g2, hk]; rfl) (hn gd g1 neg chars ranges)
    | choice => rfl
    | seq => rfl
  have hnotTail : ∀ a, ¬ Recurs (spaced (wgrammarOf cs)) a (.given (wgrammarOf cs).root) := by
    rintro a ⟨d, os, e, tail, h1, h2, h3, h4, h5⟩
    simp only [spaced] at h4
    obtain ⟨gd, g1, rfl⟩ := Option.map_eq_some_iff.1 h4
    rw [if_pos trivial] at h5
    simp at h5
  have hseqOf : ∀ {n : Name}, RejectsKeywords cs n → (∃ k ∈ cs, k.commit.keyword = true) →
      ∃ gd items, grammarOf cs n = some gd ∧ gd.expr = .seq items := by
    rintro n ⟨c, hc, rfl, hck⟩ ⟨k, hk, hkk⟩
    obtain ⟨ex, m1, m2, -⟩ := call_text c
    obtain ⟨items, rfl⟩ := m2 (S.keywords c hc hck k hk hkk).1
    exact ⟨_, items, call_grammar h hc m1, rfl⟩
  have hT : Parsable s'.env root1 := by
    refine parsable_of U.linked W.ranges W.morphism W.apart (RL.recursion S.recursion) ?_ ?_ ?_
    · intro a p d hr hp hd
      cases hn : d.commit.noKeyword with
      | false => rfl
      | true => exact absurd ((W.flag hp hd).1 hn) (S.unchecked _ _ (RL.symm.recurs hr))
    · intro a hr
      rw [W.root_] at hr
      exact hnotTail a (RL.symm.recurs hr)
    · intro p d hp hd hn
      by_cases hnil : s'.env.keywords = []
      · exact Or.inl hnil
      · obtain ⟨k, hk⟩ := List.exists_mem_of_ne_nil _ hnil
        obtain ⟨ck, hck, hckw, -⟩ := W.keyword hk
        have hch := (W.flag hp hd).1 hn
        refine Or.inr ⟨?_, ?_⟩
        · obtain ⟨gd, g1, g2⟩ := hsp hp hd
          have hseq : ∃ items, gd.expr = .seq items := by
            cases hx : f p with
            | given n =>
              rw [hx] at hch g1
              obtain ⟨hnr, hrej⟩ := hch
              obtain ⟨gd0, items, k1, k2⟩ := hseqOf hrej ⟨ck, hck, hckw⟩
              have k1 : (wgrammarOf cs).G n = some gd0 := k1
              simp only [spaced, k1, Option.map_some, if_neg hnr, Option.some.injEq] at g1
              subst g1
              simp only [k2]
              exact inner_seq
            | body =>
              rw [hx] at hch g1
              obtain ⟨gd0, items, k1, k2⟩ := hseqOf hch ⟨ck, hck, hckw⟩
              have k1 : (wgrammarOf cs).G (wgrammarOf cs).root = some gd0 := k1
              simp only [spaced, k1, Option.map_some, hidden, Option.some.injEq] at g1
              subst g1
              simp only [k2]
              exact inner_seq
            | space => rw [hx] at hch; exact hch.elim
            | rest => rw [hx] at hch; exact hch.elim
            | several => rw [hx] at hch; exact hch.elim
          obtain ⟨items, hseq⟩ := hseq
          rw [g2] at hseq
          cases hk : d.kind with
          | char => rw [hk] at hseq; simp [PKind.expr, Expr.map] at hseq
          | choice => rw [hk] at hseq; simp [PKind.expr, Expr.map] at hseq
          | seq is rs ac => exact ⟨is, rs, ac, rfl⟩
        · intro k hk
          obtain ⟨c, hc, hcc⟩ : ∃ c ∈ cs, c.commit.noKeyword = true := by
            cases hx : f p with
            | given n => rw [hx] at hch; obtain ⟨-, c, k1, -, k2⟩ := hch; exact ⟨c, k1, k2⟩
            | body => rw [hx] at hch; obtain ⟨c, k1, -, k2⟩ := hch; exact ⟨c, k1, k2⟩
            | space => rw [hx] at hch; exact hch.elim
            | rest => rw [hx] at hch; exact hch.elim
            | several => rw [hx] at hch; exact hch.elim
          obtain ⟨ck, hck, hckw, hckn⟩ := W.keyword hk
          exact W.text hk hck hckw hckn (S.keywords c hc hcc ck hck hckw).2
  refine ⟨root1, f, U.rootEq, hT, fun hpl => ⟨hT, ?_, ?_⟩, W.apart, W.morphism, W.root_, W.rootName, W.call, W.flag, ?_⟩
  · intro p d os o e hp hd hk ho he
    obtain ⟨gd, g1, g2⟩ := hsp hp hd
    have hr : Reach s'.env root1 o := .child hp hd (by rw [hk]; exact ho)
    rw [← hW] at g1
    have := spaced_choice h hpl hr0 hW g1 (by rw [g2, hk]; rfl) (f o) (List.mem_map.2 ⟨o, ho, rfl⟩)
    rw [hW] at this
    exact hwide hr he this
  · intro p d is rs q e hp hd hk hq he
    obtain ⟨gd, g1, g2⟩ := hsp hp hd
    have hr : Reach s'.env root1 q := .child hp hd (by rw [hk]; exact hq)
    have hac := W.allChars hp hd hk
    have hlen := W.ranges hp hd hk
    have hz : ∀ {q : Ptr}, q ∈ is → ∃ r, (q, r) ∈ is.zip rs := by
      intro q hq
      obtain ⟨i, hi, rfl⟩ := List.getElem_of_mem hq
      exact ⟨rs[i]'(by omega), List.mem_iff_getElem.2 ⟨i, by simp; omega, by simp⟩⟩
    obtain ⟨Q, hocc⟩ := W.occurs
    have hocc := hocc hp
    rw [← hW] at g1 hocc
    rcases spaced_seq h hpl hr0 hW hocc g1 (by rw [g2, hk]; rfl) with hpn | hch
    · obtain ⟨r, hr'⟩ := hz hq
      have := hpn _ (List.mem_map.2 ⟨_, hr', rfl⟩)
      rw [hW] at this
      exact hwide hr he this
    · exfalso
      have : (is.all fun q => ((s'.env.defs[q]?).map fun e => e.kind.isChar).getD false) = true := by
        rw [List.all_eq_true]
        intro q hq
        obtain ⟨r, hr'⟩ := hz hq
        obtain ⟨ge, neg, chars, ranges, g3, g4⟩ := hch _ (List.mem_map.2 ⟨_, hr', rfl⟩)
        have hrq : Reach s'.env root1 q := .child hp hd (by rw [hk]; exact hq)
        obtain ⟨e', he'⟩ := U.linked.closed.def_ hrq
        obtain ⟨ge', g5, g6⟩ := hsp hrq he'
        rw [hW] at g3
        rw [g3] at g5
        obtain rfl := Option.some.inj g5
        rw [g4] at g6
        rw [he']
        simp only [Option.map_some, Option.getD_some]
        cases hke : e'.kind <;> rw [hke] at g6 <;> simp [PKind.expr, Expr.map] at g6
        rfl
      rw [this] at hac; cases hac
  · intro input p hp i j
    obtain ⟨d, hd⟩ := U.linked.closed.def_ hp
    constructor
    · rintro ⟨⟨d', h1, h2⟩, k, hk, hder⟩
      rw [hd] at h1; cases h1
      refine ⟨(W.flag hp hd).1 h2, ?_⟩
      obtain ⟨c, hc, hck, hcn⟩ := W.keyword hk
      obtain ⟨dk, hdk⟩ := U.linked.closed.def_ (.keyword hk)
      rw [nameAt_env hdk] at hcn
      exact ⟨c, hc, hck, by rw [hcn]; exact (U.derives k dk input i j (.keyword hk) hdk ⟨c, hc, hcn⟩).1 hder⟩
    · rintro ⟨h1, c, hc, hck, hder⟩
      obtain ⟨k, hk, hkn⟩ := W.keywordOf hc hck
      obtain ⟨dk, hdk⟩ := U.linked.closed.def_ (.keyword hk)
      rw [nameAt_env hdk] at hkn
      refine ⟨⟨d, hd, (W.flag hp hd).2 h1⟩, k, hk, ?_⟩
      rw [← hkn] at hder
      exact (U.derives k dk input i j (.keyword hk) hdk ⟨c, hc, hkn.symm⟩).2 hder

end Treerack
