import Verif.Proofs.DocTrees

/-
The trees of a document are the derivation trees of the grammar of the document.
-/

set_option linter.unusedSectionVars false

namespace Treerack
open Spec

theorem body_once {W : WGrammar Name} {input : List Rune} {n m : Name} {gd : GDef Name} (hG : W.G n = some gd)
    (he : gd.expr = .seq [once m]) {i j : Nat} {ns : List Node} (h : WTree W input m i j ns) : WTreeBody W input n i j ns := by
  cases ht : W.tight n with
  | true =>
    have := WTreeTight.cons (W := W) (mn := 1) (mx := 1) (k := 1) (.succ .zero h) (Or.inl ⟨by simp, by simp⟩) .nil
    rw [List.nil_append, List.append_nil] at this
    exact .tight hG he ht this
  | false =>
    have := WTreeLoose.cons (W := W) (mn := 1) (mx := 1) (k := 1) (.first h) (Or.inl ⟨by simp, by simp⟩) .nil
    rw [List.append_nil] at this
    exact .loose hG he ht this

theorem tree_char {W : WGrammar Name} {input : List Rune} {n nm : Name} {al neg : Bool} {cs : List Rune} {rs : List (Rune × Rune)}
    (hr : n ≠ W.root) (hG : W.G n = some { name := nm, alias := al, expr := .char neg cs rs }) {i : Nat} {t : Rune}
    (h1 : input[i]? = some t) (h2 : InClass neg cs rs t) : WTree W input n i (i + 1) [] :=
  .hidden hr hG (fun h => h.2.2 _ _ _ rfl) (.char hG rfl h1 h2)

theorem tight_chars {W : WGrammar Name} {input : List Rune} : ∀ (l : List (Name × Rune)),
    (∀ x ∈ l, x.1 ≠ W.root ∧ ∃ nm al, W.G x.1 = some { name := nm, alias := al, expr := .char false [x.2] [] }) →
    ∀ i j, WTight W input (l.map fun x => once x.1) i j → WTreeTight W input (l.map fun x => once x.1) i j []
  | [], _, i, j, h => by cases h; exact .nil
  | x :: l, hl, i, j, h => by
    obtain ⟨hnr, nm, al, hG⟩ := hl x (List.mem_cons_self ..)
    simp only [List.map_cons] at h ⊢
    unfold once at h
    cases h with
    | cons h1 h2 h3 =>
      have k1 := tight_chars l (fun y hy => hl y (List.mem_cons_of_mem _ hy)) _ _ h3
      obtain rfl := inRange_one h2
      cases h1 with
      | succ h4 h5 =>
        cases h4
        generalize hx : x.1 = n at h5
        cases h5 with
        | root => exact absurd hx hnr
        | def_ _ hb =>
          subst hx
          obtain ⟨t, a1, a2, rfl⟩ := (wbody_char hG).1 hb
          exact .cons (k := 1) (.succ .zero (tree_char hnr hG a1 a2)) h2 k1

section

variable {W : WGrammar Name} {doc : Document} {input : List Rune}

theorem WsBody.tree_chars (hroot : NoColon W.root) {n : Name} {ct : Commit} {cs : List Rune} (h : WsBody W doc n ct (.chars cs)) {i : Nat}
    (hi : (input.drop i).take cs.length = cs) : WTreeBody W input n i (i + cs.length) [] := by
  have hb := (h.chars_iff hroot i (i + cs.length)).2 ⟨rfl, hi⟩
  obtain ⟨h1, gd, h2, h3⟩ := h.toBody.chars
  have ht := h.charsTight
  have hl : ∀ x ∈ cs.zipIdx.map fun x => (charName n x.2, x.1), x.1 ≠ W.root ∧
      ∃ nm al, W.G x.1 = some { name := nm, alias := al, expr := .char false [x.2] [] } := by
    intro x hx
    obtain ⟨y, hy, rfl⟩ := List.mem_map.1 hx
    exact ⟨charName_root hroot _ _, h1 y hy⟩
  generalize i + cs.length = j at hb ⊢
  cases hb with
  | char k1 k2 => rw [h2] at k1; cases k1; rw [h3] at k2; cases k2
  | choice k1 k2 => rw [h2] at k1; cases k1; rw [h3] at k2; cases k2
  | loose k1 k2 k3 => rw [ht] at k3; cases k3
  | tight k1 k2 k3 k4 =>
    rw [h2] at k1; cases k1; rw [h3] at k2; cases k2
    exact .tight h2 h3 ht (tight_chars _ hl _ _ k4)

theorem tree_absent {n : Name} {b : Int × Int} {items : List (Name × Int × Int)} {i m j : Nat} {us ns : List Node}
    (h1 : b.1 ≤ 0) (h2 : b.2 = 1) (g : TreeGap W input i m us) (h : WTreeLoose W input false items m j ns) :
    WTreeLoose W input false ((n, b) :: items) i j (us ++ ns) := by
  obtain ⟨mn, mx⟩ := b
  simp only at h1 h2
  subst h2
  exact .absent h1 g h

theorem defTree_mem {d : DDef} {i j : Nat} {ns : List Node} (h : DefTree doc input d i j ns) : d ∈ doc := by
  cases h with
  | shown h => exact h
  | hidden h => exact h
  | root h => exact h

/-- The grammar has a tree of an expression: of the body of a definition with the expression, and of the symbol. -/
def TakenTree (W : WGrammar Name) (doc : Document) (input : List Rune) (tight inner : Bool) (e : DExpr) (i j : Nat) (ns : List Node) : Prop :=
  (∀ (n : Name) (ct : Commit), WsBody W doc n ct e → tight = (ct.noWhitespace || ct.whitespace) → inner = ct.noWhitespace →
    WTreeBody W input n i j ns) ∧ ∀ m, e = .symbol m → WTree W input m i j ns

theorem TakenTree.ref {inner : Bool} {e : DExpr} {i j : Nat} {ns : List Node} (h : TakenTree W doc input inner inner e i j ns) {n : Name}
    (hr : WsRef W doc inner n e) : WTree W input n i j ns := by
  cases hr with
  | symbol _ => exact h.2 _ rfl
  | body h1 h2 ha h3 =>
    obtain ⟨gd, g1, -, g2, -⟩ := h3.def_of
    refine .hidden h1 g1 (fun hs => ?_) (h.1 _ _ h3 (by rw [h2]; simp) rfl)
    rw [hs.1, ha] at g2
    cases g2

variable (H : TreeDoc W doc)
include H

mutual

theorem DefTree.tree : ∀ {d : DDef} {i j : Nat} {ns : List Node}, DefTree doc input d i j ns → WTree W input d.name i j ns
  | _, _, _, _, .shown hd hr hs hm => by
    have hb := (MeansTree.tree hm).1 _ _ (H.body _ hd) rfl rfl
    obtain ⟨gd, hG⟩ := wtreeBody_def hb
    obtain ⟨h1, h2⟩ := shown_iff H hd hG
    have := WTree.shown (fun h => hr ((H.rootName _ hd).2 h)) hG (h2.2 hs) hb
    rwa [h1] at this
  | _, _, _, _, .hidden hd hr hs hm => by
    have hb := (MeansTree.tree hm).1 _ _ (H.body _ hd) rfl rfl
    obtain ⟨gd, hG⟩ := wtreeBody_def hb
    obtain ⟨h1, h2⟩ := shown_iff H hd hG
    exact .hidden (fun h => hr ((H.rootName _ hd).2 h)) hG (fun h => hs (h2.1 h)) hb
  | d, _, _, _, .root hd hr g1 hm g2 => by
    have hn := (H.rootName _ hd).1 hr
    have hb := (MeansTree.tree hm).1 _ _ (H.body _ hd) rfl rfl
    obtain ⟨gd, hG⟩ := wtreeBody_def hb
    obtain ⟨h1, -⟩ := shown_iff H hd hG
    rw [hn] at hb hG h1
    have := WTree.root hG (GapTree.tree g1) hb (GapTree.tree g2)
    rw [h1, ← hn] at this
    exact this

theorem MeansTree.tree : ∀ {tight inner : Bool} {e : DExpr} {i j : Nat} {ns : List Node}, MeansTree doc input tight inner e i j ns →
    TakenTree W doc input tight inner e i j ns
  | _, _, _, _, _, _, .any ht => by
    refine ⟨fun n ct hb _ _ => ?_, fun m hm => by cases hm⟩
    obtain ⟨⟨al, h1⟩, gd, h2, h3⟩ := hb.toBody.any
    exact body_once h2 h3 (tree_char (charName_root H.noColon _ _) h1 ht (by simp [InClass]))
  | _, _, _, _, _, _, .class_ ht hc => by
    refine ⟨fun n ct hb _ _ => ?_, fun m hm => by cases hm⟩
    obtain ⟨⟨al, h1⟩, gd, h2, h3⟩ := hb.toBody.class_
    exact body_once h2 h3 (tree_char (charName_root H.noColon _ _) h1 ht hc)
  | _, _, _, _, _, _, .chars ht =>
    ⟨fun n ct hb _ _ => hb.tree_chars H.noColon ht, fun m hm => by cases hm⟩
  | _, _, _, _, _, _, .symbol hd => by
    have hd' := DefTree.tree hd
    refine ⟨fun n ct hb _ _ => ?_, fun m hm => by cases hm; exact hd'⟩
    obtain ⟨gd, h2, h3⟩ := hb.toBody.symbol
    exact body_once h2 h3 hd'
  | _, _, _, _, _, _, .tight hm => by
    have ih := fun {n ct} => @TightTree.tree _ _ _ _ _ hm n ct
    refine ⟨fun n ct hb ht hi => ?_, fun m hm => by cases hm⟩
    obtain ⟨h1, gd, h2, h3⟩ := hb.toBody.seq
    obtain ⟨k1, k2⟩ := hb.items
    exact .tight h2 h3 (by rw [k2, ← ht]) (ih k1 hi)
  | _, _, _, _, _, _, .loose hm => by
    have ih := fun {n ct} => @LooseTree.tree _ _ _ _ _ _ hm n ct
    refine ⟨fun n ct hb ht hi => ?_, fun m hm => by cases hm⟩
    obtain ⟨h1, gd, h2, h3⟩ := hb.toBody.seq
    obtain ⟨k1, k2⟩ := hb.items
    exact .loose h2 h3 (by rw [k2, ← ht]) (ih k1 hi)
  | _, _, _, _, _, _, .choice hm => by
    refine ⟨fun n ct hb ht hi => ?_, fun m hm => by cases hm⟩
    obtain ⟨h1, gd, h2, h3⟩ := hb.toBody.choice
    obtain ⟨o, k1, k2⟩ := OptionsTree.tree hm hb.options hi
    exact .choice h2 h3 k1 k2

theorem GapTree.tree : ∀ {i j : Nat} {ns : List Node}, GapTree doc input i j ns → TreeGap W input i j ns
  | _, _, _, .nil => .nil
  | _, _, _, .cons g hw hd => .cons (GapTree.tree g) ((H.ws _).2 ⟨_, defTree_mem hd, hw, rfl⟩) (DefTree.tree hd)

theorem TightTree.tree : ∀ {inner : Bool} {items : DItems} {i j : Nat} {ns : List Node}, TightTree doc input inner items i j ns →
    ∀ {n : Name} {ct : Commit} {x : Nat}, WsItems W doc n ct x items → inner = ct.noWhitespace →
    WTreeTight W input ((items.refs n x).map SeqItem.bounded) i j ns
  | _, _, _, _, _, .nil, _, _, _, _, _ => .nil
  | _, _, _, _, _, .cons h1 h2 h3, _, _, _, hb, hi => by
    obtain ⟨k1, k2, k3⟩ := hb.cons H.noColon
    exact .cons (TimesTree.tree h1 (hi ▸ k1)) ((itemRange_allowed k2 _).2 h2) (TightTree.tree h3 k3 hi)

theorem TimesTree.tree : ∀ {inner : Bool} {e : DExpr} {k i j : Nat} {ns : List Node}, TimesTree doc input inner e k i j ns → ∀ {n : Name},
    WsRef W doc inner n e → WTreeTimes W input n k i j ns
  | _, _, _, _, _, _, .zero, _, _ => .zero
  | _, _, _, _, _, _, .succ h1 h2, _, hr => .succ (TimesTree.tree h1 hr) ((MeansTree.tree h2).ref hr)

theorem LooseTree.tree : ∀ {inner first : Bool} {items : DItems} {i j : Nat} {ns : List Node}, LooseTree doc input inner first items i j ns →
    ∀ {n : Name} {ct : Commit} {x : Nat}, WsItems W doc n ct x items → inner = ct.noWhitespace →
    WTreeLoose W input first ((items.refs n x).map SeqItem.bounded) i j ns
  | _, _, _, _, _, _, .nil, _, _, _, _, _ => .nil
  | _, _, _, _, _, _, .cons h1 h2 h3, _, _, _, hb, hi => by
    obtain ⟨k1, k2, k3⟩ := hb.cons H.noColon
    exact .cons (OccTree.tree h1 (hi ▸ k1)) ((itemRange_allowed k2 _).2 h2) (LooseTree.tree h3 k3 hi)
  | _, _, _, _, _, _, .absent h1 h2 h3 g h4, _, _, _, hb, hi => by
    obtain ⟨k1, k2, k3⟩ := hb.cons H.noColon
    obtain ⟨r1, r2⟩ := (itemRange_absent k2).2 ⟨h1, h2, h3⟩
    exact tree_absent r1 r2 (GapTree.tree g) (LooseTree.tree h4 k3 hi)

theorem OccTree.tree : ∀ {inner first : Bool} {e : DExpr} {k i j : Nat} {ns : List Node}, OccTree doc input inner first e k i j ns →
    ∀ {n : Name}, WsRef W doc inner n e → WTreeOcc W input first n k i j ns
  | _, _, _, _, _, _, _, .zero, _, _ => .zero
  | _, _, _, _, _, _, _, .first h, _, hr => .first ((MeansTree.tree h).ref hr)
  | _, _, _, _, _, _, _, .succ h1 h2 g h3, _, hr => .succ (OccTree.tree h1 hr) h2 (GapTree.tree g) ((MeansTree.tree h3).ref hr)

theorem OptionsTree.tree : ∀ {inner : Bool} {os : DOptions} {i j : Nat} {ns : List Node}, OptionsTree doc input inner os i j ns →
    ∀ {n : Name} {ct : Commit} {x : Nat}, WsOptions W doc n ct x os → inner = ct.noWhitespace →
    ∃ o ∈ os.refs n x, WTree W input o i j ns
  | _, _, _, _, _, .here h, _, _, _, hb, hi => ⟨_, List.mem_cons_self .., (MeansTree.tree h).ref (hi ▸ (hb.cons H.noColon).1)⟩
  | _, _, _, _, _, .there h, _, _, _, hb, hi => by
    obtain ⟨o, h1, h2⟩ := OptionsTree.tree h (hb.cons H.noColon).2 hi
    exact ⟨o, List.mem_cons_of_mem _ h1, h2⟩

end

end

/-- The trees of the document are the trees of the grammar of the calls. -/
theorem document_trees_iff {doc : Document} {s : Syntax} (h : Made (documentCalls doc) s) (hsym : PlainSymbols doc)
    (hsound : ∀ d ∈ doc, d.expr.Sound) {d : DDef} (hd : d ∈ doc) {input : List Rune} {i j : Nat} {ns : List Node} :
    DefTree doc input d i j ns ↔ WTree (wgrammarOf (documentCalls doc)) input d.name i j ns :=
  ⟨DefTree.tree (document_treeDoc h hsym hsound), document_trees h hsym hsound hd⟩

end Treerack
