import Verif.Props.Trace
import Verif.Props.JsonExample

/-
C63: the attempts of the parser of examples/json.treerack.
-/

namespace Treerack
open Spec

set_option maxRecDepth 100000

theorem json_ranked : (match ({} : Syntax).internalCalls (documentCalls jsonDoc) with
    | (s, none) => match s.Init with
      | .ok (s', none) => rankedTest s'.env 12 && s'.root.isSome
      | _ => false
    | _ => false) = true := by decide +kernel

/-- C63: the parser of examples/json.treerack makes a number of attempts that is bounded by a polynomial of the length of the
text. -/
theorem C63_json : ∃ s s' root N, (∀ n, N ≤ n → ({} : Syntax).ReadSyntax (selfParse n jsonText none) = .ok (s, none)) ∧
    s.Init = .ok (s', none) ∧ s'.root = some root ∧
    ∃ K e, ∀ (input : List Rune) (rend : Option Nat) (n : Nat) (c : Ctx) (tr : List Event),
      parseTraced s'.env n root (newContext input rend) = .ok (c, tr) → tr.length ≤ K * (input.length + 1) ^ e := by
  obtain ⟨s, s', hc, hi⟩ := json_syntax
  obtain ⟨hw, N, hN⟩ := reads json_read (by decide +kernel) (by decide +kernel) hc
  have h := json_ranked
  simp only [hc, hi, Bool.and_eq_true] at h
  obtain ⟨root, hr⟩ := Option.isSome_iff_exists.1 h.2
  exact ⟨s, s', root, N, hN, hi, hr, C63_polynomial_partial (Samples.made_history (read_made hw (hN N (Nat.le_refl _)))) hi hr
    (rankedTest_sound h.1 root)⟩

end Treerack
