import Verif.Proofs.Nest
import Verif.Proofs.TraceCost
import Verif.Proofs.SelfStraight

/-
C63: how often the definitions are tried.
-/

namespace Treerack
open Spec Samples

/-- C63: the traced parser is the parser, it only returns in addition which choices and sequences were executed at which offsets. -/
theorem C63_traced (env : Env) (n : Nat) (p : Ptr) (c : Ctx) : (parseTraced env n p c).erase = parse env n p c :=
  parseTraced_erase env n p c

/-- C63: during the parsing of an input, the options of a choice are tried at most once at an offset.  (Partial: sequences are
not covered, see `C63_sequence_counterexample`.) -/
theorem C63_choice_partial {env : Env} {n : Nat} {root q : Ptr} {d : PDef} {os : List Ptr} {input : List Rune} {rend : Option Nat}
    {c : Ctx} {tr : List Event} (hd : env.defs[q]? = some d) (hk : d.kind = .choice os)
    (hp : parseTraced env n root (newContext input rend) = .ok (c, tr)) (o : Nat) : tr.count (q, o) ≤ 1 :=
  (parseTraced_once hd hk o n root _ c tr hp).once

/-- C63: the same after whatever was parsed before, and then only when the choice has no recorded result at the offset and is not
being parsed there; afterwards its result is recorded. -/
theorem C63_choice_settled_partial {env : Env} {n : Nat} {p q : Ptr} {d : PDef} {os : List Ptr} {c c' : Ctx} {tr : List Event}
    (hd : env.defs[q]? = some d) (hk : d.kind = .choice os) (hp : parseTraced env n p c = .ok (c', tr)) (o : Nat) :
    tr.count (q, o) ≤ 1 ∧ ((q, o) ∈ tr → c.res.pcount o d.id = 0 ∧ c.res.longestResult o d.id = none ∧
      c'.res.longestResult o d.id ≠ none) := by
  have h := parseTraced_once hd hk o n p c c' tr hp
  refine ⟨h.once, fun hm => ?_⟩
  obtain ⟨h1, h2⟩ := h.first (List.count_pos_iff.2 hm)
  have h0 : c.res.pcount o d.id = 0 := by
    by_cases hz : c.res.pcount o d.id = 0
    · exact hz
    · exact absurd (Or.inl (by omega)) h1
  refine ⟨h0, (Results.longestResult_none ..).2 ⟨fun hn => h1 (Or.inr (Or.inr hn)), fun t ht => h1 (Or.inr (Or.inl ⟨t, ht⟩))⟩, fun hn => ?_⟩
  obtain ⟨h3, h4⟩ := (Results.longestResult_none ..).1 hn
  rcases h2 with h2 | ⟨t, h2⟩ | h2
  · rw [h.grown.pc, h0] at h2; omega
  · exact h4 t h2
  · exact h3 h2

/-- C63: altogether, the number of the attempts of choices is at most proportional to the length of the input. -/
theorem C63_choices_partial {s s' : Syntax} {root : Ptr} (h : History s) (hi : s.Init = .ok (s', none)) (hr : s'.root = some root)
    {n : Nat} {input : List Rune} {rend : Option Nat} {c : Ctx} {tr : List Event}
    (hp : parseTraced s'.env n root (newContext input rend) = .ok (c, tr)) :
    (tr.filter fun e => s'.env.isChoice e.1).length ≤ (input.length + 1) * s'.env.defs.length := by
  obtain ⟨-, -, hl, -⟩ := h.initialized hi
  obtain ⟨root', hr', hc⟩ := hl.closed
  rw [hr] at hr'
  obtain rfl := Option.some.inj hr'
  exact parseTraced_choices hc hp (fun e => s'.env.isChoice e.1) fun e _ he => Env.isChoice_iff.1 he

/-- C63: when no sequence contains itself without a choice in between, then the number of all attempts, of choices and of sequences, is
bounded by a polynomial of the length of the input.  (Partial: in the other cases it is not, see `C63_polynomial_counterexample`.) -/
theorem C63_polynomial_partial {s s' : Syntax} {root : Ptr} {rank : Ptr → Nat} (h : History s) (hi : s.Init = .ok (s', none))
    (hr : s'.root = some root) (hk : Ranked s'.env root rank) :
    ∃ K e, ∀ (input : List Rune) (rend : Option Nat) (n : Nat) (c : Ctx) (tr : List Event),
      parseTraced s'.env n root (newContext input rend) = .ok (c, tr) → tr.length ≤ K * (input.length + 1) ^ e := by
  obtain ⟨-, -, hl, -⟩ := h.initialized hi
  obtain ⟨root', hr', hc⟩ := hl.closed
  rw [hr] at hr'
  obtain rfl := Option.some.inj hr'
  exact parseTraced_polynomial hc hk

/-- C63: the parser of the syntax definitions, self/self.go, makes a polynomial number of attempts. -/
theorem C63_self : ∃ K e, ∀ (input : List Rune) (rend : Option Nat) (n : Nat) (c : Ctx) (tr : List Event),
    parseTraced selfEnv n selfRoot (newContext input rend) = .ok (c, tr) → tr.length ≤ K * (input.length + 1) ^ e :=
  parseTraced_polynomial self_linked.closed (rankedTest_sound (n := 12) (by decide +kernel) _)

/-- C63 does not hold for sequences: they do not look for a recorded result before they try their items, and with
`s = "(" (s "x")? s? ")"`, the text `(((...)))` of `2 * k` characters leads to at least `2 ^ k` attempts of `s` at the same offset. -/
theorem C63_sequence_counterexample : ∃ s', (after nestCalls).Init = .ok (s', none) ∧ s'.root = some 7 ∧
    ∀ k, ∃ N, ∀ n, N ≤ n → ∃ c tr, parseTraced s'.env n 7 (newContext (nestText k) none) = .ok (c, tr) ∧ 2 ^ k ≤ tr.count (7, k) := by
  obtain ⟨s', hi⟩ := init_ok (s := after nestCalls) (by decide +kernel)
  exact ⟨s', hi, (nest_env hi).2, nest_count hi⟩

/-- C63: the work is not bounded by a polynomial of the length of the input. -/
theorem C63_polynomial_counterexample : ∃ s', (after nestCalls).Init = .ok (s', none) ∧ s'.root = some 7 ∧
    ¬ ∃ K e, ∀ (input : List Rune) (n : Nat) (c : Ctx) (tr : List Event),
      parseTraced s'.env n 7 (newContext input none) = .ok (c, tr) → tr.length ≤ K * (input.length + 1) ^ e := by
  obtain ⟨s', hi, hr, h⟩ := C63_sequence_counterexample
  refine ⟨s', hi, hr, ?_⟩
  rintro ⟨K, e, hb⟩
  obtain ⟨k, hk⟩ := pow_beats e K
  obtain ⟨N, hN⟩ := h k
  obtain ⟨c, tr, hp, hc⟩ := hN N (Nat.le_refl _)
  have h1 := hb _ _ _ _ hp
  have h2 := hk k (Nat.le_refl _)
  have h3 : (nestText k).length + 1 = 2 * k + 1 := by simp [nestText]; omega
  rw [h3] at h1
  have h4 : tr.count (7, k) ≤ tr.length := List.count_le_length
  omega

/-! ### Examples -/

/-- The number of the attempts of the parser `p` at the offset `o`. -/
def attempts (cs : List Call) (n : Nat) (input : List Rune) (p o : Nat) : Option Nat :=
  match (after cs).Init with
  | .ok (s, none) => match s.root with
    | some r => match parseTraced s.env n r (newContext input none) with
      | .ok (_, tr) => some (tr.count (p, o))
      | _ => none
    | none => none
  | _ => none

/-- The choice `r` of `r = a | b`, the parser 4, is tried once at the offset 0. -/
example : attempts abCalls 20 (runes "b") 4 0 = some 1 := by decide +kernel

/-- The sequences of the sums, with whitespace, do not contain themselves: C63_polynomial_partial applies. -/
example : ∃ s' root, (after sumWsCalls).Init = .ok (s', none) ∧ s'.root = some root ∧ ∃ rank, Ranked s'.env root rank := by
  obtain ⟨s', hi⟩ := init_ok (s := after sumWsCalls) (by decide +kernel)
  have key : ∀ x, (after sumWsCalls).Init = x → (match x with
      | .ok (s, _) => s.root.isSome && rankedTest s.env 12
      | _ => true) = true := by
    rintro _ rfl
    decide +kernel
  have := key _ hi
  simp only [Bool.and_eq_true] at this
  obtain ⟨root, hr⟩ := Option.isSome_iff_exists.1 this.1
  exact ⟨s', root, hi, hr, _, rankedTest_sound this.2 root⟩

/-- The text `((()))` is accepted, with 8 attempts of `s` at the offset 3. -/
example : nestText 3 = runes "((()))" ∧ nodes (run nestCalls 60 (nestText 3)) =
      some [(0, runes "s", 0, 6), (1, runes "s", 1, 5), (2, runes "s", 2, 4)] ∧ attempts nestCalls 60 (nestText 3) 7 3 = some 8 := by
  decide +kernel

end Treerack
