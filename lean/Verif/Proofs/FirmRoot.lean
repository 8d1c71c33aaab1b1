import Verif.Proofs.Firm
import Verif.Proofs.NoPanic
import Verif.Props.DocGen

/-
A panic of a parser that follows the reference semantics comes from reporting a failure without knowing where it is.
-/

namespace Treerack
open Spec

theorem parseInput_failed {env : Env} {root : Ptr} {input : List Rune} {rend : Option Nat} {n : Nat} (T : Straight env root)
    (hval : replacementChar ∉ input) (hp : parseInput env n root input rend = .panic) :
    ∃ c, parse env n root (newContext input rend) = .ok c ∧ c.matchLast = false ∧ c.failOffset = -1 := by
  obtain ⟨c, h1, h2, h3⟩ := parseInput_panic T.linked.closed hval hp
  have hu := parseInput_unmatched T hval hp
  obtain ⟨f, hf⟩ := T.linked.refs T.free T.grows input
  have K := T.ctxt hval hf
  obtain ⟨d, hd, hk, hal⟩ := T.linked.rootDef
  have hroot := hf (.root : Reach env root root) 0
  have hnone : f root 0 = none := by
    have := hu.unique hroot
    exact this.symm
  rcases h3 with ⟨h3, h4, -⟩ | ⟨c1, h3⟩
  · refine ⟨c, h1, ?_, h4⟩
    cases hm : c.matchLast with
    | false => rfl
    | true => exact absurd (root_placed h1 hm h4) h3
  · exfalso
    have hE := parse_exact K n root (newContext input none) .root T.rootTail .init .init start_pend rfl
    have h1' : parse env n root (newContext input none) = .ok (c.setEnd none) := by
      cases rend with
      | none =>
        have hinv := ((parse_spec T.linked.closed (Interp.trivial env (Reach env root) input) (env.bounds _) n root
          (newContext input none) .root .init).of_eq h1).inv
        rw [h1]
        congr 1
        have := hinv.rendEq
        unfold Ctx.setEnd
        rw [← this]
      | some k =>
        obtain ⟨-, -, h4⟩ := parse_tr (r := none) env n root (newContext input (some k)) rfl c h1
        rcases h4 with h4 | h4
        · rw [id_eq, h2] at h4
          cases h4
        · exact h4
    rw [h1'] at hE
    obtain ⟨P, E⟩ := hE
    have hinv := ((parse_spec T.linked.closed (Interp.trivial env (Reach env root) input) (env.bounds _) n root
      (newContext input rend) .root .init).of_eq h1).inv
    have hfs := (finalizeParse_spec (root := root) hinv h2 hd).of_eq h3
    simp only at hfs
    obtain ⟨-, -, -, -, i5⟩ := hfs
    obtain ⟨g1, -⟩ := (Results.longestMatch_some ..).1 i5
    cases hkind : d.kind with
    | char => rw [hkind] at hk; cases hk
    | choice os =>
      obtain ⟨t, ns, g2, -⟩ := E.good.chLe K .root hd hkind g1
      rw [hnone] at g2
      cases g2
    | seq is rs ac =>
      obtain ⟨ns, g2⟩ := E.good.seqHas .root T.rootTail hd hkind g1
      rw [hnone] at g2
      cases g2

/-- The test for the parser of a document. -/
def solidTest (x : Solid) (doc : Document) : Bool :=
  match ({} : Syntax).internalCalls (documentCalls doc) with
  | (s, none) => match s.Init with
    | .ok (s', none) => decide (s'.root = some x.root) && x.test s'.env
    | _ => false
  | _ => false

end Treerack
