import Verif.Proofs.Visible
import Verif.Props.Samples

/-
C10: aliases and whitespace definitions make no nodes.
-/

namespace Treerack
open Spec Samples

variable {cs : List Call} {s s' : Syntax} {fuel : Nat} {input : List Rune} {rend : Option Nat} {t : Node}

/-- C10: every node at any depth has the name of a definition call without the flags alias and whitespace, and no
other definition call has that name. -/
theorem C10_alias (h : Made cs s) (hp : s.Parse fuel input rend = .ok (s', .node t)) (m : Node) (hm : Sub m t) :
    (∃ c ∈ cs, c.name = m.name) ∧
      ∀ c ∈ cs, c.name = m.name → c.commit.alias = false ∧ c.commit.whitespace = false := by
  obtain ⟨c', h1, h2, h3, h4⟩ := Parse_visible h hp m hm
  refine ⟨⟨c', h1, h2⟩, ?_⟩
  intro c hc hcn
  obtain ⟨g1, g2, -⟩ := call_unique h hc h1 (by rw [hcn, h2])
  exact ⟨g1.trans h3, g2.trans h4⟩

/-- Also in syntaxes where the nodes are not those of the grammar, as in `C19_stale_keyword_counterexample`: there
are aliases, whitespace and a keyword that is a sequence. -/
example : Syntax.calls {} staleCalls = some (after staleCalls) ∧
    (∃ s' t, (after staleCalls).Parse 60 (runes " ab") none = .ok (s', .node t)) ∧
    nodes (run staleCalls 60 (runes " ab")) = some [(0, runes "r", 0, 3), (1, runes "x", 1, 3)] :=
  ⟨calls_ok (by decide +kernel), tree_ok (x := run staleCalls 60 (runes " ab")) (by decide +kernel), by decide +kernel⟩

end Treerack
