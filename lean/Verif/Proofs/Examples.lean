import Verif.Proofs.Reference

/-
Which definitions may be empty, and how deep the definitions can be nested at one position: calculated for the conditions in
Spec/Conditions.lean.
-/

namespace Treerack
open Spec

variable {N : Type}

/-- The definitions that may be empty. -/
def nulOf (G : Grammar N) : Nat → N → Bool
  | 0, _ => false
  | k + 1, n => match G n with
    | some ⟨_, _, .char _ _ _⟩ => false
    | some ⟨_, _, .choice os⟩ => os.any (nulOf G k)
    | some ⟨_, _, .seq items⟩ => items.all fun x => !decide (0 < x.2.1) || nulOf G k x.1
    | none => false

theorem nulOf_sound {G : Grammar N} : ∀ {k : Nat} {n : N}, nulOf G k n = true → Nullable G n
  | 0, _, h => by cases h
  | k + 1, n, h => by
    unfold nulOf at h
    split at h
    · cases h
    · rename_i hg
      obtain ⟨o, ho, h⟩ := List.any_eq_true.1 h
      exact .choice hg rfl ho (nulOf_sound h)
    · rename_i hg
      refine .seq hg rfl fun x hx h0 => ?_
      have := List.all_eq_true.1 h x hx
      simp only [h0, decide_true, Bool.not_true, Bool.false_or] at this
      exact nulOf_sound this
    · cases h

/-- The highest rank of the items a sequence can begin with. -/
def leadRank (nul : N → Bool) (rank : N → Nat) : List (N × Int × Int) → Nat
  | [] => 0
  | x :: xs => max (rank x.1) (if decide (0 < x.2.1) && !nul x.1 then 0 else leadRank nul rank xs)

/-- How deep the definitions can be nested at one position. -/
def nestRank (G : Grammar N) (nul : N → Bool) : Nat → N → Nat
  | 0, _ => 0
  | k + 1, n => match G n with
    | some ⟨_, _, .char _ _ _⟩ => 0
    | some ⟨_, _, .choice os⟩ => os.foldr (fun o m => max (nestRank G nul k o) m) 0 + 1
    | some ⟨_, _, .seq items⟩ => leadRank nul (nestRank G nul k) items + 1
    | none => 0

end Treerack
