import Verif.Proofs.Definite
import Verif.Proofs.DefiniteTest
import Verif.Props.Lookahead

/-
C61: with one character of lookahead, a text has a single derivation tree, and it is the tree that the parser returns.
-/

namespace Treerack
open Spec Samples

variable {cs : List Call} {s s' : Syntax} {input : List Rune} {root : Name}

/-- C61: when one character of lookahead is enough, the empty text is derived in a single way, and there is no definition that must
not match keywords, then the parser returns a tree if and only if it is a derivation tree of the input. -/
theorem C61_tree (h : Made cs s) (hi : s.Init = .ok (s', none)) (hs : Straightforward cs)
    (hrec : ∀ n x, ¬ Recurs (grammarOf cs) n x) (hval : replacementChar ∉ input) (hroot : rootOf cs = some root)
    (hl : LL1 (grammarOf cs) root) (hd : Definite (grammarOf cs)) (hk : ∀ c ∈ cs, c.commit.noKeyword = false) :
    ∃ N, ∀ n, N ≤ n → ∀ t, s.Parse n input none = .ok (s', .node t) ↔ Spec.Tree (grammarOf cs) input root 0 input.length [t] := by
  obtain ⟨N, hN⟩ := C57_complete h hi hs hrec hval hroot hl hk
  obtain ⟨R, hR, W⟩ := calls_whole h hi hs.toRegular hroot input
  have hB : ∀ n i j, Within (grammarOf cs) input root n i j → ¬ blockedOf cs input n i j := by
    rintro n i j - ⟨⟨c, hc, -, hn⟩, -⟩
    rw [hk c hc] at hn
    cases hn
  refine ⟨N, fun n hn t => ⟨fun hp => ?_, fun ht => ?_⟩⟩
  · obtain ⟨ns, ht⟩ := Spec.Derives.tree ((hN n hn).1 ⟨t, hp⟩)
    have := (C09_tree h hi hs hval hroot hp).unique (ht.whole hrec W hR hl hd hB)
    cases this
    exact ht
  · obtain ⟨t', hp⟩ := (hN n hn).2 ht.derives
    have := (C09_tree h hi hs hval hroot hp).unique (ht.whole hrec W hR hl hd hB)
    cases this
    exact hp

/-- C61: the derivation trees of a text are the same. -/
theorem C61_unique (h : Made cs s) (hi : s.Init = .ok (s', none)) (hs : Regular cs) (hrec : ∀ n x, ¬ Recurs (grammarOf cs) n x)
    (hroot : rootOf cs = some root) (hl : LL1 (grammarOf cs) root) (hd : Definite (grammarOf cs))
    (hk : ∀ c ∈ cs, c.commit.noKeyword = false) {ns ns' : List Node} (h1 : Spec.Tree (grammarOf cs) input root 0 input.length ns)
    (h2 : Spec.Tree (grammarOf cs) input root 0 input.length ns') : ns = ns' := by
  obtain ⟨R, hR, W⟩ := calls_whole h hi hs hroot input
  have hB : ∀ n i j, Within (grammarOf cs) input root n i j → ¬ blockedOf cs input n i j := by
    rintro n i j - ⟨⟨c, hc, -, hn⟩, -⟩
    rw [hk c hc] at hn
    cases hn
  have := (h1.whole hrec W hR hl hd hB).unique (h2.whole hrec W hR hl hd hB)
  cases this
  rfl

/-! ### Examples -/

theorem nested_definite : Definite (grammarOf nestedCalls) :=
  definiteTest_sound (k := 12) (fun hd => mem_of_lookup hd) (by decide +kernel)

/-- The trees of the nested lists. -/
example {input : List Rune} (hval : replacementChar ∉ input) :
    ∃ s', (after nestedCalls).Init = .ok (s', none) ∧ ∃ N, ∀ n, N ≤ n → ∀ t,
      (after nestedCalls).Parse n input none = .ok (s', .node t) ↔
        Spec.Tree (grammarOf nestedCalls) input (runes "r") 0 input.length [t] := by
  obtain ⟨s', hi⟩ := init_ok (s := after nestedCalls) (by decide +kernel)
  exact ⟨s', hi, C61_tree (calls_made (calls_ok (by decide +kernel))) hi nested_straight nested_norec hval (by decide +kernel)
    nested_ll1 nested_definite (by decide +kernel)⟩

/-- `x = "x"; e = x?; r = e{0,2}` -/
def vagueCalls : List Call := [
  .charSequence (runes "x") {} (runes "x"),
  .sequence (runes "e") {} [{ name := runes "x", min := 0, max := 1 }],
  .sequence (runes "r") { root := true } [{ name := runes "e", min := 0, max := 2 }]]

/-- C61: when an item may be empty and its number may vary, there are more trees than the one that is returned. -/
theorem C61_empty_counterexample : ∃ t t', Spec.Tree (grammarOf vagueCalls) [] (runes "r") 0 0 [t] ∧
    Spec.Tree (grammarOf vagueCalls) [] (runes "r") 0 0 [t'] ∧ t ≠ t' := by
  have e : Spec.Tree (grammarOf vagueCalls) [] (runes "e") 0 0 [.mk (runes "e") 0 0 [] []] :=
    .seq (d := ⟨runes "e", false, .seq [(runes "x", 0, 1)]⟩) rfl rfl (.cons (k := 0) .zero (.inl (by decide)) .nil)
  refine ⟨.mk (runes "r") 0 0 [] [], .mk (runes "r") 0 0 [] [.mk (runes "e") 0 0 [] []], ?_, ?_, ?_⟩
  · exact .seq (d := ⟨runes "r", false, .seq [(runes "e", 0, 2)]⟩) rfl rfl (.cons (k := 0) .zero (.inl (by decide)) .nil)
  · exact .seq (d := ⟨runes "r", false, .seq [(runes "e", 0, 2)]⟩) rfl rfl (.cons (k := 1) (.succ .zero e) (.inl (by decide)) .nil)
  · intro h
    injection h with _ _ _ _ h
    cases h

end Treerack
