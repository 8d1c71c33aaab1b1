import Verif.Spec.TreesDocument

/-
The texts with trees are the texts of the document.
-/

namespace Treerack
open Spec

variable {doc : Document} {input : List Rune}

mutual

theorem Spec.DefTree.text : ∀ {d : DDef} {i j : Nat} {ns : List Node}, DefTree doc input d i j ns → DefWs doc input d i j
  | _, _, _, _, .shown hd hr _ hm => .def_ hd hr (Spec.MeansTree.text hm)
  | _, _, _, _, .hidden hd hr _ hm => .def_ hd hr (Spec.MeansTree.text hm)
  | _, _, _, _, .root hd hr g1 hm g2 => .root hd hr (Spec.GapTree.text g1) (Spec.MeansTree.text hm) (Spec.GapTree.text g2)

theorem Spec.MeansTree.text : ∀ {t n : Bool} {e : DExpr} {i j : Nat} {ns : List Node}, MeansTree doc input t n e i j ns →
    MeansWs doc input t n e i j
  | _, _, _, _, _, _, .any h => .any h
  | _, _, _, _, _, _, .class_ h1 h2 => .class_ h1 h2
  | _, _, _, _, _, _, .chars h => .chars h
  | _, _, _, _, _, _, .symbol h => .symbol (Spec.DefTree.text h)
  | _, _, _, _, _, _, .tight h => .tight (Spec.TightTree.text h)
  | _, _, _, _, _, _, .loose h => .loose (Spec.LooseTree.text h)
  | _, _, _, _, _, _, .choice h => .choice (Spec.OptionsTree.text h)

theorem Spec.GapTree.text : ∀ {i j : Nat} {ns : List Node}, GapTree doc input i j ns → GapWs doc input i j
  | _, _, _, .nil => .nil
  | _, _, _, .cons g h1 h2 => .cons (Spec.GapTree.text g) h1 (Spec.DefTree.text h2)

theorem Spec.TightTree.text : ∀ {n : Bool} {items : DItems} {i j : Nat} {ns : List Node}, TightTree doc input n items i j ns →
    TightWs doc input n items i j
  | _, _, _, _, _, .nil => .nil
  | _, _, _, _, _, .cons h1 h2 h3 => .cons (Spec.TimesTree.text h1) h2 (Spec.TightTree.text h3)

theorem Spec.TimesTree.text : ∀ {n : Bool} {e : DExpr} {k i j : Nat} {ns : List Node}, TimesTree doc input n e k i j ns →
    TimesWs doc input n e k i j
  | _, _, _, _, _, _, .zero => .zero
  | _, _, _, _, _, _, .succ h1 h2 => .succ (Spec.TimesTree.text h1) (Spec.MeansTree.text h2)

theorem Spec.LooseTree.text : ∀ {n f : Bool} {items : DItems} {i j : Nat} {ns : List Node}, LooseTree doc input n f items i j ns →
    LooseWs doc input n f items i j
  | _, _, _, _, _, _, .nil => .nil
  | _, _, _, _, _, _, .cons h1 h2 h3 => .cons (Spec.OccTree.text h1) h2 (Spec.LooseTree.text h3)
  | _, _, _, _, _, _, .absent h1 h2 h3 g h4 => .absent h1 h2 h3 (Spec.GapTree.text g) (Spec.LooseTree.text h4)

theorem Spec.OccTree.text : ∀ {n f : Bool} {e : DExpr} {k i j : Nat} {ns : List Node}, OccTree doc input n f e k i j ns →
    OccWs doc input n f e k i j
  | _, _, _, _, _, _, _, .zero => .zero
  | _, _, _, _, _, _, _, .first h => .first (Spec.MeansTree.text h)
  | _, _, _, _, _, _, _, .succ h1 h2 g h3 => .succ (Spec.OccTree.text h1) h2 (Spec.GapTree.text g) (Spec.MeansTree.text h3)

theorem Spec.OptionsTree.text : ∀ {n : Bool} {os : DOptions} {i j : Nat} {ns : List Node}, OptionsTree doc input n os i j ns →
    OptionsWs doc input n os i j
  | _, _, _, _, _, .here h => .here (Spec.MeansTree.text h)
  | _, _, _, _, _, .there h => .there (Spec.OptionsTree.text h)

end

mutual

theorem Spec.DefWs.tree : ∀ {d : DDef} {i j : Nat}, DefWs doc input d i j → ∃ ns, DefTree doc input d i j ns
  | d, _, _, .def_ hd hr hm => by
    obtain ⟨ns, h⟩ := Spec.MeansWs.tree hm
    exact (Classical.em d.Shown).elim (fun hs => ⟨_, .shown hd hr hs h⟩) (fun hs => ⟨_, .hidden hd hr hs h⟩)
  | _, _, _, .root hd hr g1 hm g2 => by
    obtain ⟨us, h1⟩ := Spec.GapWs.tree g1
    obtain ⟨ns, h2⟩ := Spec.MeansWs.tree hm
    obtain ⟨vs, h3⟩ := Spec.GapWs.tree g2
    exact ⟨_, .root hd hr h1 h2 h3⟩

theorem Spec.MeansWs.tree : ∀ {t n : Bool} {e : DExpr} {i j : Nat}, MeansWs doc input t n e i j → ∃ ns, MeansTree doc input t n e i j ns
  | _, _, _, _, _, .any h => ⟨_, .any h⟩
  | _, _, _, _, _, .class_ h1 h2 => ⟨_, .class_ h1 h2⟩
  | _, _, _, _, _, .chars h => ⟨_, .chars h⟩
  | _, _, _, _, _, .symbol h => (Spec.DefWs.tree h).imp fun _ => .symbol
  | _, _, _, _, _, .tight h => (Spec.TightWs.tree h).imp fun _ => .tight
  | _, _, _, _, _, .loose h => (Spec.LooseWs.tree h).imp fun _ => .loose
  | _, _, _, _, _, .choice h => (Spec.OptionsWs.tree h).imp fun _ => .choice

theorem Spec.GapWs.tree : ∀ {i j : Nat}, GapWs doc input i j → ∃ ns, GapTree doc input i j ns
  | _, _, .nil => ⟨_, .nil⟩
  | _, _, .cons g h1 h2 => by
    obtain ⟨us, k1⟩ := Spec.GapWs.tree g
    obtain ⟨ns, k2⟩ := Spec.DefWs.tree h2
    exact ⟨_, .cons k1 h1 k2⟩

theorem Spec.TightWs.tree : ∀ {n : Bool} {items : DItems} {i j : Nat}, TightWs doc input n items i j →
    ∃ ns, TightTree doc input n items i j ns
  | _, _, _, _, .nil => ⟨_, .nil⟩
  | _, _, _, _, .cons h1 h2 h3 => by
    obtain ⟨us, k1⟩ := Spec.TimesWs.tree h1
    obtain ⟨ns, k2⟩ := Spec.TightWs.tree h3
    exact ⟨_, .cons k1 h2 k2⟩

theorem Spec.TimesWs.tree : ∀ {n : Bool} {e : DExpr} {k i j : Nat}, TimesWs doc input n e k i j → ∃ ns, TimesTree doc input n e k i j ns
  | _, _, _, _, _, .zero => ⟨_, .zero⟩
  | _, _, _, _, _, .succ h1 h2 => by
    obtain ⟨us, k1⟩ := Spec.TimesWs.tree h1
    obtain ⟨ns, k2⟩ := Spec.MeansWs.tree h2
    exact ⟨_, .succ k1 k2⟩

theorem Spec.LooseWs.tree : ∀ {n f : Bool} {items : DItems} {i j : Nat}, LooseWs doc input n f items i j →
    ∃ ns, LooseTree doc input n f items i j ns
  | _, _, _, _, _, .nil => ⟨_, .nil⟩
  | _, _, _, _, _, .cons h1 h2 h3 => by
    obtain ⟨us, k1⟩ := Spec.OccWs.tree h1
    obtain ⟨ns, k2⟩ := Spec.LooseWs.tree h3
    exact ⟨_, .cons k1 h2 k2⟩
  | _, _, _, _, _, .absent h1 h2 h3 g h4 => by
    obtain ⟨us, k1⟩ := Spec.GapWs.tree g
    obtain ⟨ns, k2⟩ := Spec.LooseWs.tree h4
    exact ⟨_, .absent h1 h2 h3 k1 k2⟩

theorem Spec.OccWs.tree : ∀ {n f : Bool} {e : DExpr} {k i j : Nat}, OccWs doc input n f e k i j → ∃ ns, OccTree doc input n f e k i j ns
  | _, _, _, _, _, _, .zero => ⟨_, .zero⟩
  | _, _, _, _, _, _, .first h => (Spec.MeansWs.tree h).imp fun _ => .first
  | _, _, _, _, _, _, .succ h1 h2 g h3 => by
    obtain ⟨us, k1⟩ := Spec.OccWs.tree h1
    obtain ⟨vs, k2⟩ := Spec.GapWs.tree g
    obtain ⟨ns, k3⟩ := Spec.MeansWs.tree h3
    exact ⟨_, .succ k1 h2 k2 k3⟩

theorem Spec.OptionsWs.tree : ∀ {n : Bool} {os : DOptions} {i j : Nat}, OptionsWs doc input n os i j → ∃ ns, OptionsTree doc input n os i j ns
  | _, _, _, _, .here h => (Spec.MeansWs.tree h).imp fun _ => .here
  | _, _, _, _, .there h => (Spec.OptionsWs.tree h).imp fun _ => .there

end

end Treerack
