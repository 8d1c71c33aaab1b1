import Verif.Proofs.DocLangWs
import Verif.Proofs.TreesWs
import Verif.Spec.TreesDocument

/-
The derivation trees of the grammar of a document are the trees of the document.
-/

namespace Treerack
open Spec

theorem wtreeBody_once {W : WGrammar Name} {input : List Rune} {n m : Name} {gd : GDef Name} (hG : W.G n = some gd)
    (he : gd.expr = .seq [once m]) {i j : Nat} {ns : List Node} (hb : WTreeBody W input n i j ns) : WTree W input m i j ns := by
  cases hb with
  | char h1 h2 => rw [hG] at h1; cases h1; rw [he] at h2; cases h2
  | choice h1 h2 => rw [hG] at h1; cases h1; rw [he] at h2; cases h2
  | tight h1 h2 h3 h4 =>
    rw [hG] at h1; cases h1; rw [he] at h2; cases h2
    cases h4 with
    | cons h1 h2 h3 =>
      cases h3
      obtain rfl := inRange_one h2
      cases h1 with
      | succ h4 h5 => cases h4; simpa using h5
  | loose h1 h2 h3 h4 =>
    rw [hG] at h1; cases h1; rw [he] at h2; cases h2
    cases h4 with
    | cons h1 h2 h3 =>
      cases h3
      obtain rfl := inRange_one h2
      cases h1 with
      | first h4 => simpa using h4
      | succ h4 h5 => exact absurd (h5 rfl) (by omega)

theorem wtree_char {W : WGrammar Name} {input : List Rune} {n nm : Name} {al neg : Bool} {cs : List Rune} {rs : List (Rune × Rune)}
    (hr : n ≠ W.root) (hG : W.G n = some { name := nm, alias := al, expr := .char neg cs rs }) {i j : Nat} {ns : List Node}
    (h : WTree W input n i j ns) : ∃ t, input[i]? = some t ∧ InClass neg cs rs t ∧ j = i + 1 ∧ ns = [] := by
  cases h with
  | shown _ h1 h2 => rw [hG] at h1; cases h1; exact absurd rfl (h2.2.2 _ _ _)
  | root => exact absurd rfl hr
  | hidden _ _ _ hb =>
    cases hb with
    | char h1 h2 h3 h4 => rw [hG] at h1; cases h1; cases h2; exact ⟨_, h3, h4, rfl, rfl⟩
    | choice h1 h2 => rw [hG] at h1; cases h1; cases h2
    | tight h1 h2 => rw [hG] at h1; cases h1; cases h2
    | loose h1 h2 => rw [hG] at h1; cases h1; cases h2

theorem wtreeTight_chars {W : WGrammar Name} {input : List Rune} : ∀ (l : List (Name × Rune)),
    (∀ x ∈ l, x.1 ≠ W.root ∧ ∃ nm al, W.G x.1 = some { name := nm, alias := al, expr := .char false [x.2] [] }) →
    ∀ i j ns, WTreeTight W input (l.map fun x => once x.1) i j ns → WTight W input (l.map fun x => once x.1) i j ∧ ns = []
  | [], _, i, j, ns, h => by cases h; exact ⟨.nil, rfl⟩
  | x :: l, hl, i, j, ns, h => by
    obtain ⟨hnr, nm, al, hG⟩ := hl x (List.mem_cons_self ..)
    simp only [List.map_cons] at h ⊢
    unfold once at h
    cases h with
    | cons h1 h2 h3 =>
      obtain ⟨k1, rfl⟩ := wtreeTight_chars l (fun y hy => hl y (List.mem_cons_of_mem _ hy)) _ _ _ h3
      obtain rfl := inRange_one h2
      cases h1 with
      | succ h4 h5 =>
        cases h4
        obtain ⟨t, a1, a2, rfl, rfl⟩ := wtree_char hnr hG h5
        exact ⟨.cons (k := 1) (.succ .zero (.def_ hnr (.char hG rfl a1 a2))) h2 k1, rfl⟩

section

variable {W : WGrammar Name} {doc : Document} {input : List Rune}

theorem WsBody.chars_tree (hroot : NoColon W.root) {n : Name} {ct : Commit} {cs : List Rune} (h : WsBody W doc n ct (.chars cs)) {i j : Nat}
    {ns : List Node} (hb : WTreeBody W input n i j ns) : j = i + cs.length ∧ (input.drop i).take cs.length = cs ∧ ns = [] := by
  obtain ⟨h1, gd, h2, h3⟩ := h.toBody.chars
  have ht := h.charsTight
  have hl : ∀ x ∈ cs.zipIdx.map fun x => (charName n x.2, x.1), x.1 ≠ W.root ∧
      ∃ nm al, W.G x.1 = some { name := nm, alias := al, expr := .char false [x.2] [] } := by
    intro x hx
    obtain ⟨y, hy, rfl⟩ := List.mem_map.1 hx
    exact ⟨charName_root hroot _ _, h1 y hy⟩
  cases hb with
  | char k1 k2 => rw [h2] at k1; cases k1; rw [h3] at k2; cases k2
  | choice k1 k2 => rw [h2] at k1; cases k1; rw [h3] at k2; cases k2
  | loose k1 k2 k3 => rw [ht] at k3; cases k3
  | tight k1 k2 k3 k4 =>
    rw [h2] at k1; cases k1; rw [h3] at k2; cases k2
    obtain ⟨a1, rfl⟩ := wtreeTight_chars _ hl _ _ _ k4
    have := (h.chars_iff hroot i j).1 (.tight h2 h3 ht a1)
    exact ⟨this.1, this.2, rfl⟩

/-- The definition of a right hand side. -/
theorem WsBody.def_of {n : Name} {ct : Commit} {e : DExpr} (h : WsBody W doc n ct e) : ∃ gd, W.G n = some gd ∧ gd.name = n ∧
    gd.alias = ct.alias ∧ ∀ neg cs rs, gd.expr ≠ .char neg cs rs := by
  have hs := h.toBody.stands
  have key : ∀ {c : Call} {gd : GDef Name}, c ∈ e.calls n ct → (n, gd) ∈ c.defs → W.G n = some gd := fun hc hx => hs _ hc _ hx
  cases e with
  | any =>
    exact ⟨_, key (List.mem_singleton.2 rfl) (List.mem_cons_of_mem _ (List.mem_singleton.2 rfl)), rfl, rfl, fun _ _ _ h => by cases h⟩
  | class_ =>
    exact ⟨_, key (List.mem_singleton.2 rfl) (List.mem_cons_of_mem _ (List.mem_singleton.2 rfl)), rfl, rfl, fun _ _ _ h => by cases h⟩
  | chars =>
    exact ⟨_, key (List.mem_singleton.2 rfl) (List.mem_append_right _ (List.mem_singleton.2 rfl)), rfl, rfl, fun _ _ _ h => by cases h⟩
  | symbol => exact ⟨_, key (List.mem_singleton.2 rfl) (List.mem_singleton.2 rfl), rfl, rfl, fun _ _ _ h => by cases h⟩
  | seq =>
    exact ⟨_, key (List.mem_append_right _ (List.mem_singleton.2 rfl)) (List.mem_singleton.2 rfl), rfl, rfl, fun _ _ _ h => by cases h⟩
  | choice =>
    exact ⟨_, key (List.mem_append_right _ (List.mem_singleton.2 rfl)) (List.mem_singleton.2 rfl), rfl, rfl, fun _ _ _ h => by cases h⟩

theorem wtreeBody_def {n : Name} {i j : Nat} {ns : List Node} (h : WTreeBody W input n i j ns) : ∃ gd, W.G n = some gd := by
  cases h with
  | char h => exact ⟨_, h⟩
  | choice h => exact ⟨_, h⟩
  | tight h => exact ⟨_, h⟩
  | loose h => exact ⟨_, h⟩

/-- The grammar is the one of the document, with one definition for every name. -/
structure TreeDoc (W : WGrammar Name) (doc : Document) : Prop extends WsDoc W doc where
  unique : ∀ d ∈ doc, ∀ d' ∈ doc, d.name = d'.name → d.flags.whitespace = d'.flags.whitespace

/-- What a tree of a name means. -/
def SaysTree (W : WGrammar Name) (doc : Document) (input : List Rune) (n : Name) (i j : Nat) (ns : List Node) : Prop :=
  (∀ d ∈ doc, d.name = n → DefTree doc input d i j ns) ∧
  (n ≠ W.root → ∀ (e : DExpr) (ct : Commit), WsBody W doc n ct e → ct.alias = true →
    MeansTree doc input (ct.noWhitespace || ct.whitespace) ct.noWhitespace e i j ns) ∧ ∃ gd, W.G n = some gd

theorem ref_tree {n : Name} {i j : Nat} {ns : List Node} (h : SaysTree W doc input n i j ns) {inner : Bool} {e : DExpr}
    (hr : WsRef W doc inner n e) : MeansTree doc input inner inner e i j ns := by
  cases hr with
  | symbol hr =>
    obtain ⟨h1, -, gd, h2⟩ := h
    obtain ⟨d, hd, rfl⟩ := hr gd h2
    exact .symbol (h1 d hd rfl)
  | body h1 h2 ha h3 =>
    have := h.2.1 h1 e _ h3 ha
    rw [h2, Bool.or_false] at this
    exact this

variable (H : TreeDoc W doc)
include H

theorem options_tree {o : Name} {i j : Nat} {ns : List Node} (h : SaysTree W doc input o i j ns) :
    ∀ {os : DOptions} {n : Name} {ct : Commit} {x : Nat},
    WsOptions W doc n ct x os → o ∈ os.refs n x → OptionsTree doc input ct.noWhitespace os i j ns
  | .nil, _, _, _, _, hm => by cases hm
  | .cons e rest, n, ct, x, hb, hm => by
    obtain ⟨k1, k2⟩ := hb.cons H.noColon
    rcases List.mem_cons.1 hm with rfl | hm
    · exact .here (ref_tree h k1)
    · exact .there (options_tree h k2 hm)

/-- The sequences. -/
theorem seq_tree {n : Name} {i j : Nat} {ns : List Node} {gd : GDef Name} {l : List (Name × Int × Int)} {e : DExpr} {ct : Commit}
    (hw : WTreeBody W input n i j ns) (hG : W.G n = some gd) (he : gd.expr = .seq l) (hb : WsBody W doc n ct e)
    (hs : ∀ (n' : Name) (ct' : Commit) (x : Nat) (items : DItems), WsItems W doc n' ct' x items →
      l = (items.refs n' x).map SeqItem.bounded →
      (W.tight n = true ∧ TightTree doc input ct'.noWhitespace items i j ns) ∨
      (W.tight n = false ∧ LooseTree doc input ct'.noWhitespace true items i j ns)) :
    MeansTree doc input (ct.noWhitespace || ct.whitespace) ct.noWhitespace e i j ns := by
  cases e with
  | any =>
    obtain ⟨⟨al, h1⟩, gd', k1, k2⟩ := hb.toBody.any
    obtain ⟨t, h3, -, rfl, rfl⟩ := wtree_char (charName_root H.noColon _ _) h1 (wtreeBody_once k1 k2 hw)
    exact .any h3
  | class_ =>
    obtain ⟨⟨al, h1⟩, gd', k1, k2⟩ := hb.toBody.class_
    obtain ⟨t, h3, h4, rfl, rfl⟩ := wtree_char (charName_root H.noColon _ _) h1 (wtreeBody_once k1 k2 hw)
    exact .class_ h3 h4
  | chars =>
    obtain ⟨rfl, h3, rfl⟩ := hb.chars_tree H.noColon hw
    exact .chars h3
  | symbol m =>
    obtain ⟨gd', k1, k2⟩ := hb.toBody.symbol
    rw [hG] at k1; cases k1; rw [he] at k2; cases k2
    have hi : WsItems W doc n ct 0 (.cons (.symbol m) none .nil) :=
      ⟨⟨by intro c hc; simp [DItems.calls] at hc, fun x hx => hb.toBody.symbols x (by simpa [DItems.symbols, DExpr.symbols] using hx),
        by simp [DItems.Sound, DExpr.Sound]⟩, by intro c hc; simp [DItems.calls] at hc⟩
    have hx : ∃ t, MeansTree doc input t t (.symbol m) i j ns := by
      rcases hs n ct 0 _ hi (by simp [DItems.refs, memberName, SeqItem.bounded, Spec.itemRange, bounds, once]) with ⟨-, h⟩ | ⟨-, h⟩
      · cases h with
        | cons h1 h2 h3 =>
          cases h3
          simp only [allowed] at h2
          subst h2
          cases h1 with
          | succ h4 h5 => cases h4; exact ⟨_, by simpa using h5⟩
      · cases h with
        | cons h1 h2 h3 =>
          cases h3
          simp only [allowed] at h2
          subst h2
          cases h1 with
          | first h5 => exact ⟨_, by simpa using h5⟩
          | succ h4 h5 => exact absurd (h5 rfl) (by omega)
    obtain ⟨t, hx⟩ := hx
    generalize hm : DExpr.symbol m = em at hx
    cases hx <;> first | (cases hm; exact .symbol ‹_›) | cases hm
  | seq items =>
    obtain ⟨-, gd', k1, k2⟩ := hb.toBody.seq
    rw [hG] at k1; cases k1; rw [he] at k2; cases k2
    obtain ⟨i1, i2⟩ := hb.items
    rcases hs n ct 0 items i1 rfl with ⟨h1, h2⟩ | ⟨h1, h2⟩
    · rw [← i2, h1]; exact .tight h2
    · rw [← i2, h1]; exact .loose h2
  | choice => obtain ⟨-, gd', k1, k2⟩ := hb.toBody.choice; rw [hG] at k1; cases k1; rw [he] at k2; cases k2

/-- Whether the definition is shown. -/
theorem shown_iff {d : DDef} (hd : d ∈ doc) {gd : GDef Name} (hG : W.G d.name = some gd) :
    gd.name = d.name ∧ (Shown W d.name gd ↔ d.Shown) := by
  obtain ⟨gd', h1, h2, h3, h4⟩ := (H.body d hd).def_of
  rw [hG] at h1
  cases h1
  refine ⟨h2, ?_⟩
  unfold Shown DDef.Shown
  rw [h3]
  simp only
  constructor
  · rintro ⟨a, b, -⟩
    refine ⟨a, ?_⟩
    cases hw : d.flags.whitespace with
    | false => rfl
    | true => exact absurd ((H.ws _).2 ⟨d, hd, hw, rfl⟩) b
  · rintro ⟨a, b⟩
    refine ⟨a, fun hm => ?_, h4⟩
    obtain ⟨d', k1, k2, k3⟩ := (H.ws _).1 hm
    rw [← H.unique _ k1 _ hd k3, k2] at b
    cases b

mutual

theorem Spec.WTree.doc : ∀ {n : Name} {i j : Nat} {ns : List Node}, WTree W input n i j ns → SaysTree W doc input n i j ns
  | _, _, _, _, .shown hn hG hs hb => by
    have ih := Spec.WTreeBody.doc hb
    refine ⟨fun d hd he => ?_, fun _ e ct hx ha => ?_, _, hG⟩
    · subst he
      obtain ⟨h1, h2⟩ := shown_iff H hd hG
      rw [h1]
      have h3 := ih _ _ (H.body d hd)
      exact .shown hd (fun h => hn ((H.rootName d hd).1 h)) (h2.1 hs) h3
    · obtain ⟨gd, h1, -, h2, -⟩ := hx.def_of
      rw [hG] at h1
      cases h1
      rw [hs.1, ha] at h2
      cases h2
  | _, _, _, _, .hidden hn hG hs hb => by
    have ih := Spec.WTreeBody.doc hb
    refine ⟨fun d hd he => ?_, fun _ e ct hx _ => ih e ct hx, _, hG⟩
    subst he
    obtain ⟨h1, h2⟩ := shown_iff H hd hG
    have h3 := ih _ _ (H.body d hd)
    exact .hidden hd (fun h => hn ((H.rootName d hd).1 h)) (fun h => hs (h2.2 h)) h3
  | _, _, _, _, .root hG g1 hb g2 => by
    have ih := Spec.WTreeBody.doc hb
    have i1 := Spec.TreeGap.doc g1
    have i2 := Spec.TreeGap.doc g2
    refine ⟨fun d hd he => ?_, fun hn => absurd rfl hn, _, hG⟩
    have hx := H.body d hd
    rw [he] at hx
    have h3 := ih _ _ hx
    obtain ⟨h1, -⟩ := shown_iff H hd (he ▸ hG)
    rw [h1]
    exact .root hd ((H.rootName d hd).2 he) i1 h3 i2

theorem Spec.WTreeBody.doc : ∀ {n : Name} {i j : Nat} {ns : List Node}, WTreeBody W input n i j ns → ∀ (e : DExpr) (ct : Commit),
    WsBody W doc n ct e → MeansTree doc input (ct.noWhitespace || ct.whitespace) ct.noWhitespace e i j ns
  | _, _, _, _, .char h1 h2 h3 h4, e, ct, hb => by
    obtain ⟨gd, k1, -, -, k2⟩ := hb.def_of
    rw [h1] at k1
    cases k1
    exact absurd h2 (k2 _ _ _)
  | _, _, _, _, .choice h1 h2 h3 h4, e, ct, hb => by
    have ih := Spec.WTree.doc h4
    cases e with
    | any => obtain ⟨-, gd, k1, k2⟩ := hb.toBody.any; rw [h1] at k1; cases k1; rw [h2] at k2; cases k2
    | class_ => obtain ⟨-, gd, k1, k2⟩ := hb.toBody.class_; rw [h1] at k1; cases k1; rw [h2] at k2; cases k2
    | chars => obtain ⟨-, gd, k1, k2⟩ := hb.toBody.chars; rw [h1] at k1; cases k1; rw [h2] at k2; cases k2
    | symbol => obtain ⟨gd, k1, k2⟩ := hb.toBody.symbol; rw [h1] at k1; cases k1; rw [h2] at k2; cases k2
    | seq => obtain ⟨-, gd, k1, k2⟩ := hb.toBody.seq; rw [h1] at k1; cases k1; rw [h2] at k2; cases k2
    | choice os =>
      obtain ⟨-, gd, k1, k2⟩ := hb.toBody.choice
      rw [h1] at k1; cases k1; rw [h2] at k2; cases k2
      exact .choice (options_tree H ih hb.options h3)
  | _, _, _, _, .tight h1 h2 h3 h4, e, ct, hb => by
    have ih := Spec.WTreeTight.doc h4
    exact seq_tree H (.tight h1 h2 h3 h4) h1 h2 hb (fun _ _ _ _ k1 k2 => by
      refine Or.inl ⟨?_, ih _ _ _ _ k1 k2⟩
      exact h3)
  | _, _, _, _, .loose h1 h2 h3 h4, e, ct, hb => by
    have ih := Spec.WTreeLoose.doc h4
    exact seq_tree H (.loose h1 h2 h3 h4) h1 h2 hb (fun _ _ _ _ k1 k2 => by
      refine Or.inr ⟨?_, ih _ _ _ _ k1 k2⟩
      exact h3)

theorem Spec.TreeGap.doc : ∀ {i j : Nat} {ns : List Node}, TreeGap W input i j ns → GapTree doc input i j ns
  | _, _, _, .nil => .nil
  | _, _, _, .cons g hw hd => by
    have ih := Spec.TreeGap.doc g
    have ih' := Spec.WTree.doc hd
    obtain ⟨d, h1, h2, h3⟩ := (H.ws _).1 hw
    exact .cons ih h2 (ih'.1 d h1 h3)

theorem Spec.WTreeTight.doc : ∀ {l : List (Name × Int × Int)} {i j : Nat} {ns : List Node}, WTreeTight W input l i j ns →
    ∀ (n : Name) (ct : Commit) (x : Nat) (items : DItems), WsItems W doc n ct x items → l = (items.refs n x).map SeqItem.bounded →
    TightTree doc input ct.noWhitespace items i j ns
  | _, _, _, _, .nil, n, ct, x, items, hb, hl => by
    cases items with
    | nil => exact .nil
    | cons => cases hl
  | _, _, _, _, .cons h1 h2 h3, n, ct, x, items, hb, hl => by
    have ih := Spec.WTreeTimes.doc h1
    have ih' := Spec.WTreeTight.doc h3
    cases items with
    | nil => cases hl
    | cons e q rest =>
      obtain ⟨k1, k2, k3⟩ := hb.cons H.noColon
      simp only [DItems.refs, List.map_cons, List.cons.injEq, SeqItem.bounded, Prod.mk.injEq, Prod.ext_iff] at hl
      obtain ⟨⟨rfl, rfl, rfl⟩, hl⟩ := hl
      exact .cons (ih _ _ k1) ((itemRange_allowed k2 _).1 h2) (ih' _ _ _ _ k3 hl)

theorem Spec.WTreeTimes.doc : ∀ {n : Name} {k i j : Nat} {ns : List Node}, WTreeTimes W input n k i j ns → ∀ (inner : Bool) (e : DExpr),
    WsRef W doc inner n e → TimesTree doc input inner e k i j ns
  | _, _, _, _, _, .zero, _, _, _ => .zero
  | _, _, _, _, _, .succ h1 h2, inner, e, hr => .succ (Spec.WTreeTimes.doc h1 inner e hr) (ref_tree (Spec.WTree.doc h2) hr)

theorem Spec.WTreeLoose.doc : ∀ {first : Bool} {l : List (Name × Int × Int)} {i j : Nat} {ns : List Node}, WTreeLoose W input first l i j ns →
    ∀ (n : Name) (ct : Commit) (x : Nat) (items : DItems), WsItems W doc n ct x items → l = (items.refs n x).map SeqItem.bounded →
    LooseTree doc input ct.noWhitespace first items i j ns
  | _, _, _, _, _, .nil, n, ct, x, items, hb, hl => by
    cases items with
    | nil => exact .nil
    | cons => cases hl
  | _, _, _, _, _, .cons h1 h2 h3, n, ct, x, items, hb, hl => by
    have ih := Spec.WTreeOcc.doc h1
    have ih' := Spec.WTreeLoose.doc h3
    cases items with
    | nil => cases hl
    | cons e q rest =>
      obtain ⟨k1, k2, k3⟩ := hb.cons H.noColon
      simp only [DItems.refs, List.map_cons, List.cons.injEq, SeqItem.bounded, Prod.mk.injEq, Prod.ext_iff] at hl
      obtain ⟨⟨rfl, rfl, rfl⟩, hl⟩ := hl
      exact .cons (ih _ _ k1) ((itemRange_allowed k2 _).1 h2) (ih' _ _ _ _ k3 hl)
  | _, _, _, _, _, .absent h1 g h3, n, ct, x, items, hb, hl => by
    have ih := Spec.TreeGap.doc g
    have ih' := Spec.WTreeLoose.doc h3
    cases items with
    | nil => cases hl
    | cons e q rest =>
      obtain ⟨k1, k2, k3⟩ := hb.cons H.noColon
      simp only [DItems.refs, List.map_cons, List.cons.injEq, SeqItem.bounded, Prod.mk.injEq, Prod.ext_iff] at hl
      obtain ⟨⟨rfl, hmn, hmx⟩, hl⟩ := hl
      obtain ⟨a1, a2, a3⟩ := (itemRange_absent k2).1 ⟨hmn ▸ h1, hmx.symm⟩
      exact .absent a1 a2 a3 ih (ih' _ _ _ _ k3 hl)

theorem Spec.WTreeOcc.doc : ∀ {first : Bool} {n : Name} {k i j : Nat} {ns : List Node}, WTreeOcc W input first n k i j ns →
    ∀ (inner : Bool) (e : DExpr), WsRef W doc inner n e → OccTree doc input inner first e k i j ns
  | _, _, _, _, _, _, .zero, _, _, _ => .zero
  | _, _, _, _, _, _, .first h, inner, e, hr => .first (ref_tree (Spec.WTree.doc h) hr)
  | _, _, _, _, _, _, .succ h1 h2 g h3, inner, e, hr =>
    .succ (Spec.WTreeOcc.doc h1 inner e hr) h2 (Spec.TreeGap.doc g) (ref_tree (Spec.WTree.doc h3) hr)

end

end

/-! ### The grammar of a document -/

theorem document_treeDoc {doc : Document} {s : Syntax} (h : Made (documentCalls doc) s)
    (hsym : PlainSymbols doc) (hsound : ∀ d ∈ doc, d.expr.Sound) : TreeDoc (wgrammarOf (documentCalls doc)) doc := by
  refine ⟨document_wsDoc h hsym hsound, fun d hd d' hd' e => ?_⟩
  obtain ⟨pre, c, h1, h2, h3, h4⟩ := calls_main d.expr d.name { d.flags with userDefined := true }
  obtain ⟨pre', c', h1', h2', h3', h4'⟩ := calls_main d'.expr d'.name { d'.flags with userDefined := true }
  have hc : c ∈ documentCalls doc := List.mem_flatMap.2 ⟨d, hd, by rw [h1]; simp⟩
  have hc' : c' ∈ documentCalls doc := List.mem_flatMap.2 ⟨d', hd', by rw [h1']; simp⟩
  have := (call_unique h hc hc' (by rw [h2, h2', e])).2.1
  rw [h3, h3'] at this
  exact this

/-- The trees of the grammar of the calls are trees of the document. -/
theorem document_trees {doc : Document} {s : Syntax} (h : Made (documentCalls doc) s) (hsym : PlainSymbols doc)
    (hsound : ∀ d ∈ doc, d.expr.Sound) {d : DDef} (hd : d ∈ doc) {input : List Rune} {i j : Nat} {ns : List Node}
    (ht : WTree (wgrammarOf (documentCalls doc)) input d.name i j ns) : DefTree doc input d i j ns :=
  (Spec.WTree.doc (document_treeDoc h hsym hsound) ht).1 d hd rfl

end Treerack
