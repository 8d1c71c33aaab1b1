import Verif.Props.Reference
import Verif.Props.Spaced

/-
C05, C06, C09: definitions that refer to a single character inside of a class or of a character sequence, by the name under which
this character is registered (`a:0`).  `Regular cs` and `RegularWs cs`: as `Straightforward cs` and `StraightforwardWs cs`, but with
such references.  The parsing phase follows the reference semantics (C06 here, and C08 in Props/Reference.lean and Props/Spaced.lean),
but the builder does not, see the counterexamples.
-/

namespace Treerack
open Spec Samples

variable {cs : List Call} {s s' : Syntax} {input : List Rune} {root : Name}

/-- C06: when Parse returns a tree, then the reference semantics matches the text, and when it returns an error, then it does not.
(Partial: a text that is matched may also lead to a panic, see `C06_char_reference_counterexample`.) -/
theorem C06_outcome_partial {n : Nat} {r : Syntax.ParseResult} (h : Made cs s) (hi : s.Init = .ok (s', none)) (hs : Regular cs)
    (hval : replacementChar ∉ input) (hroot : rootOf cs = some root) (hp : s.Parse n input none = .ok (s', r)) :
    (∃ t, r = .node t) ↔ ∃ ns, Ref (grammarOf cs) (blockedOf cs input) input root 0 (some (input.length, ns)) := by
  have hE := ((Parse_regular h hi hs hval hroot n).of_eq hp).2
  cases r with
  | node t => exact ⟨fun _ => hE, fun _ => ⟨t, rfl⟩⟩
  | error e => exact ⟨fun ⟨_, h⟩ => (nomatch h), fun h => absurd h hE⟩
  | syntaxError e => exact hE.elim

/-- C06, with whitespace definitions. -/
theorem C06_outcome_ws_partial {n : Nat} {r : Syntax.ParseResult} (h : Made cs s) (hi : s.Init = .ok (s', none)) (hs : RegularWs cs)
    (hval : replacementChar ∉ input) (hroot : rootOf cs = some root) (hp : s.Parse n input none = .ok (s', r)) :
    (∃ t, r = .node t) ↔ ∃ ns, RefWs cs input (.given root) 0 (some (input.length, ns)) := by
  have hE := ((Parse_regular_ws h hi hs hval hroot n).of_eq hp).2
  cases r with
  | node t => exact ⟨fun _ => hE, fun _ => ⟨t, rfl⟩⟩
  | error e => exact ⟨fun ⟨_, h⟩ => (nomatch h), fun h => absurd h hE⟩
  | syntaxError e => exact hE.elim

/-! ### Counterexamples -/

/-- `a = "a"; r:root = a:0` as a choice with one option. -/
def charOptionCalls : List Call := [
  .charSequence (runes "a") {} (runes "a"),
  .choice (runes "r") { root := true } [runes "a:0"]]

theorem charOption_regular : Regular charOptionCalls :=
  regular_of (fun _ => false) (fun n => if n = runes "a:0" then 0 else 1)
    (by decide +kernel) (by decide +kernel) (by decide +kernel) (by decide +kernel)

/-- C06, C13: the conditions of the claims are met, the reference semantics matches the text `a`, but Parse panics: the characters
leave no record of what they have matched (char.go:40-52), so the builder of the choice does not find its option
(choice.go:154-162). -/
theorem C06_char_reference_counterexample : Made charOptionCalls (after charOptionCalls) ∧
    (∃ s', (after charOptionCalls).Init = .ok (s', none)) ∧ Regular charOptionCalls ∧ rootOf charOptionCalls = some (runes "r") ∧
    (∃ ns, Ref (grammarOf charOptionCalls) (blockedOf charOptionCalls (runes "a")) (runes "a") (runes "r") 0 (some (1, ns))) ∧
    ∀ n, 30 ≤ n → (after charOptionCalls).Parse n (runes "a") none = .panic := by
  have hc : Made charOptionCalls (after charOptionCalls) := calls_made (calls_ok (by decide +kernel))
  refine ⟨hc, init_ok (s := after charOptionCalls) (by decide +kernel), charOption_regular, by decide +kernel, ?_, fun n hn => ?_⟩
  · have h1 := call_grammar hc (c := .choice (runes "r") { root := true } [runes "a:0"]) (by decide +kernel)
      (x := (runes "r", _)) (List.mem_singleton.2 rfl)
    have h2 : grammarOf charOptionCalls (runes "a:0") = some { name := runes "a:0", alias := true, expr := .char false (runes "a") [] } := by
      rfl
    refine ⟨_, .choice (m := some (1, [])) h1 rfl ?_ (.cons (m := some (1, [])) (ms := none) (.char h2 rfl (t := 97) rfl ?_) .nil)⟩
    · intro o ho
      obtain ⟨d, os, e, tail, g1, g2, g3, g4, g5⟩ := ho
      rw [h1] at g1; cases g1
      cases g2
      rw [List.mem_singleton.1 g3, h2] at g4; cases g4
      cases g5
    · simp [InClass, runes]
  · exact panics_le (s := after charOptionCalls) (panics_ok (x := run charOptionCalls 30 (runes "a")) (by decide +kernel)) hn

/-- `a = "a"; l = "abc"; m = "b"; z = l | m; d = "d"; w = z d; c = "c"; s = a:0 z; r:root = w? s c` -/
def charItemCalls : List Call := [
  .charSequence (runes "a") {} (runes "a"),
  .charSequence (runes "l") {} (runes "abc"),
  .charSequence (runes "m") {} (runes "b"),
  .choice (runes "z") {} [runes "l", runes "m"],
  .charSequence (runes "d") {} (runes "d"),
  .sequence (runes "w") {} [item "z", item "d"],
  .charSequence (runes "c") {} (runes "c"),
  .sequence (runes "s") {} [item "a:0", item "z"],
  .sequence (runes "r") { root := true } [{ name := runes "w", min := 0, max := 1 }, item "s", item "c"]]

theorem charItem_regular : Regular charItemCalls :=
  regular_of (fun _ => false)
    (fun n => if n = runes "r" then 4 else if n = runes "w" ∨ n = runes "s" then 3 else if n = runes "z" then 2
      else if n.contains colon then 0 else 1)
    (by decide +kernel) (by decide +kernel) (by decide +kernel) (by decide +kernel)

theorem InOrder.le {n : Node} : ∀ {ns : List Node} {i j : Nat}, InOrder i ns j → n ∈ ns → n.to ≤ j
  | m :: ns, i, j, h, hn => by
    have hm : ∀ {ns : List Node} {i j : Nat}, InOrder i ns j → i ≤ j := by
      intro ns
      induction ns with
      | nil => exact fun h => h
      | cons k ns ih => exact fun h => Nat.le_trans h.1 (Nat.le_trans h.2.1 (ih h.2.2))
    rcases List.mem_cons.1 hn with rfl | hn
    · exact hm h.2.2
    · exact InOrder.le h.2.2 hn

/-- C05, C09: the conditions of the claims are met, the text `abc` is accepted, but the returned tree has a node that ends behind
the node around it, and the tree is not that of the reference semantics: the builder does not step over the character `a`
(char.go:57-59), and at its position it finds another match of `z`, from an attempt of `w`. -/
theorem C05_char_reference_counterexample : Made charItemCalls (after charItemCalls) ∧
    (∃ s', (after charItemCalls).Init = .ok (s', none)) ∧ Regular charItemCalls ∧ rootOf charItemCalls = some (runes "r") ∧
    nodes (run charItemCalls 60 (runes "abc")) = some [(0, runes "r", 0, 3), (1, runes "s", 0, 2), (2, runes "z", 0, 3),
      (3, runes "l", 0, 3)] ∧
    ∃ s' t, run charItemCalls 60 (runes "abc") = .ok (s', .node t) ∧ ¬ Nested t ∧
      ¬ Ref (grammarOf charItemCalls) (blockedOf charItemCalls (runes "abc")) (runes "abc") (runes "r") 0 (some (3, [t])) := by
  have hc : Made charItemCalls (after charItemCalls) := calls_made (calls_ok (by decide +kernel))
  refine ⟨hc, init_ok (s := after charItemCalls) (by decide +kernel), charItem_regular, by decide +kernel, by decide +kernel, ?_⟩
  obtain ⟨s', t, ht⟩ := tree_ok (x := run charItemCalls 60 (runes "abc")) (by decide +kernel)
  have ho : ((tree (run charItemCalls 60 (runes "abc"))).any fun t =>
      t.nodes.any fun k => k.nodes.any fun l => decide (k.to < l.to)) = true := by decide +kernel
  rw [ht] at ho
  simp only [tree, Option.any_some, List.any_eq_true, decide_eq_true_eq] at ho
  obtain ⟨k, hk, l, hl, hkl⟩ := ho
  have hn : ¬ Nested t := fun h => absurd (InOrder.le (h k (.child hk .refl)) hl) (by omega)
  exact ⟨s', t, ht, hn, fun h => hn ((h.tidy _ _ rfl).2 t (by simp))⟩

end Treerack
