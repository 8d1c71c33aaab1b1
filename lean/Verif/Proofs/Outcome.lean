import Verif.Proofs.Root

/-
What Parse returns after any calls.
-/

namespace Treerack
open Spec

/-- An initialized syntax has a root, and its parsers have no dangling references. -/
theorem Linkable.closed {s : Syntax} (h : Linkable s) : ∃ root, s.root = some root ∧ Closed s.env (Reach s.env root) := by
  obtain ⟨s0, root, -, hi, hr, hk⟩ := h.prep
  exact ⟨root, hr, hi.closed hk⟩

theorem History.initialized {s s' : Syntax} (h : History s) (hi : s.Init = .ok (s', none)) :
    s'.initialized = true ∧ s'.initFailed = false ∧ Linkable s' ∧ RootDone s' := by
  obtain ⟨h1, h2⟩ := (Init_weak h.inv).of_eq hi
  obtain ⟨h3, h4⟩ := h2 rfl
  exact ⟨h3, h4, h1.init h3, (h.init hi).root.init h3⟩

theorem Parse_cases {s s' : Syntax} {fuel : Nat} {input : List Rune} {rend : Option Nat}
    {x : Syntax.ParseResult} (h : s.Parse fuel input rend = .ok (s', x)) :
    (∃ e, s.Init = .ok (s', some e) ∧ x = .syntaxError e) ∨
    ∃ root y, s.Init = .ok (s', none) ∧ s'.root = some root ∧
      parseInput s'.env fuel root input rend = .ok y ∧
      x = (match y with | .error e => .error e | .ok n => .node n) := by
  unfold Syntax.Parse at h
  obtain ⟨⟨s1, e⟩, h1, h⟩ := Res.bind_eq_ok h
  cases e with
  | some e =>
    cases h
    exact Or.inl ⟨e, h1, rfl⟩
  | none =>
    simp only at h
    cases hr : s1.root with
    | none => rw [hr] at h; cases h
    | some root =>
      rw [hr] at h
      simp only at h
      obtain ⟨y, h2, h⟩ := Res.bind_eq_ok h
      cases y with
      | error e => cases h; exact Or.inr ⟨root, _, h1, hr, h2, rfl⟩
      | ok n => cases h; exact Or.inr ⟨root, _, h1, hr, h2, rfl⟩

/-- The properties of the returned value that do not depend on the grammar. -/
theorem Parse_outcome {s s' : Syntax} {fuel : Nat} {input : List Rune} {rend : Option Nat}
    {x : Syntax.ParseResult} (h : History s) (hp : s.Parse fuel input rend = .ok (s', x)) :
    match x with
    | .syntaxError _ => True
    | .error e => ErrOK s'.env input rend e
    | .node t => ∃ root, s'.root = some root ∧
        TreeOK s'.env (Reach s'.env root) (fun _ _ _ => True) root input rend t := by
  rcases Parse_cases hp with ⟨e, -, rfl⟩ | ⟨root, y, h1, h2, h3, rfl⟩
  · trivial
  · obtain ⟨-, -, hl, r, d, k1, k2, k3⟩ := h.initialized h1
    rw [h2] at k1
    obtain rfl := Option.some.inj k1
    obtain ⟨root', g1, hc⟩ := hl.closed
    rw [h2] at g1
    obtain rfl := Option.some.inj g1
    have := parseInput_spec hc (Interp.trivial s'.env (Reach s'.env root) input)
      ⟨d.toPDef, by simp [Syntax.env, k2], by
        intro hk
        rcases k3 with k3 | k3
        · cases hkk : d.kind <;> simp [Def.toPDef, PKind.isChar, DKind.isChar, hkk] at hk k3
        · exact k3⟩ h3
    cases y with
    | error e => exact this
    | ok n => exact ⟨root, h2, this⟩

/-- A budget that is sufficient for every input of the given length. -/
theorem Parse_budget {s s' : Syntax} (h : History s) (hi : s.Init = .ok (s', none)) :
    ∃ K, ∀ (input : List Rune) (rend : Option Nat) (n : Nat), K * (input.length + 1) ^ 2 ≤ n → s.Parse n input rend ≠ .oof := by
  obtain ⟨-, -, hl, -⟩ := h.initialized hi
  obtain ⟨root, hr, hc⟩ := hl.closed
  refine ⟨4 * s'.env.idBound + s'.env.recordBound + 2 * s'.env.maxItems + 9, fun input rend n hn => ?_⟩
  have hle : inputBudget s'.env input.length ≤ n := by
    refine Nat.le_trans ?_ hn
    unfold inputBudget
    have hm : input.length ≤ input.length + 1 := Nat.le_succ _
    have hpos : 0 < input.length + 1 := Nat.succ_pos _
    generalize input.length + 1 = m at hm hpos
    have h1 : m ≤ m ^ 2 := by rw [Nat.pow_two]; exact Nat.le_mul_of_pos_left _ hpos
    have h2 := Nat.mul_le_mul_right s'.env.idBound h1
    have h3 : m * (m * s'.env.recordBound) = s'.env.recordBound * m ^ 2 := by
      rw [← Nat.mul_assoc, Nat.pow_two, Nat.mul_comm]
    have h4 : s'.env.maxItems ≤ s'.env.maxItems * m ^ 2 := Nat.le_mul_of_pos_right _ (by omega)
    have h5 := Nat.mul_comm s'.env.idBound (m ^ 2)
    rw [h3]
    simp only [Nat.add_mul, Nat.mul_assoc]
    omega
  have hne := parseInput_budget (input := input) hc rend
  have heq := (parseInput_le s'.env hle root input rend).eq hne
  unfold Syntax.Parse
  simp only [hi, Res.bind_ok, hr, heq]
  cases hx : parseInput s'.env (inputBudget s'.env input.length) root input rend with
  | oof => exact absurd hx hne
  | panic => simp
  | ok y => cases y <;> simp

/-- The parsing phase alone. -/
theorem parse_budget {s s' : Syntax} {root : Ptr} (h : History s) (hi : s.Init = .ok (s', none)) (hr : s'.root = some root) :
    ∃ K, ∀ (input : List Rune) (rend : Option Nat) (n : Nat), K * (input.length + 1) ≤ n →
      parse s'.env n root (newContext input rend) ≠ .oof := by
  obtain ⟨-, -, hl, -⟩ := h.initialized hi
  obtain ⟨root', hr', hc⟩ := hl.closed
  rw [hr] at hr'
  obtain rfl := Option.some.inj hr'
  refine ⟨3 * s'.env.idBound + s'.env.maxItems + 7, fun input rend n hn => ?_⟩
  have hle : parseBudget s'.env input ≤ n := by
    refine Nat.le_trans ?_ hn
    unfold parseBudget
    have hm : input.length ≤ input.length + 1 := Nat.le_succ _
    have hpos : 0 < input.length + 1 := Nat.succ_pos _
    generalize input.length + 1 = m at hm hpos
    have h4 : s'.env.maxItems ≤ s'.env.maxItems * m := Nat.le_mul_of_pos_right _ hpos
    have h5 := Nat.mul_comm s'.env.idBound m
    simp only [Nat.add_mul, Nat.mul_assoc]
    omega
  exact spec_ne_oof (parse_spec (rend := rend) hc (Interp.trivial _ _ input) (s'.env.bounds _) n root
    (newContext input rend) .root .init) (fun h => h (enough_budget hle))

/-- Parsing always returns, after any calls. -/
theorem Parse_terminates {s s' : Syntax} (h : History s) (hi : s.Init = .ok (s', none))
    (input : List Rune) (rend : Option Nat) :
    ∃ N x, x ≠ .oof ∧ ∀ n, N ≤ n → s.Parse n input rend = x := by
  obtain ⟨-, -, hl, -⟩ := h.initialized hi
  obtain ⟨root, hr, hc⟩ := hl.closed
  obtain ⟨N, x, hx, hN⟩ := parseInput_terminates (input := input) hc rend
  refine ⟨N, (x.bind fun y => match y with
    | .error e => .ok (s', .error e)
    | .ok n => .ok (s', .node n)), ?_, ?_⟩
  · cases x with
    | panic => simp
    | oof => exact absurd rfl hx
    | ok y => cases y <;> simp
  · intro n hn
    unfold Syntax.Parse
    simp only [hi, Res.bind_ok, hr, hN n hn]
    rfl

/-- The number of the matches that are recorded during the parsing phase. -/
theorem parse_records {s s' : Syntax} {root : Ptr} (h : History s) (hi : s.Init = .ok (s', none)) (hr : s'.root = some root) :
    ∃ K, ∀ (input : List Rune) (rend : Option Nat) (n : Nat) (c : Ctx), parse s'.env n root (newContext input rend) = .ok c →
      (c.res.matches_.map fun es => es.countP fun e => decide (0 ≤ e.1)).sum ≤ K * (input.length + 1) ^ 2 := by
  obtain ⟨-, -, hl, -⟩ := h.initialized hi
  obtain ⟨root', hr', hc⟩ := hl.closed
  rw [hr] at hr'
  obtain rfl := Option.some.inj hr'
  refine ⟨s'.env.recordBound, fun input rend n c hp => ?_⟩
  have hps := (parse_spec (rend := rend) hc (s'.env.record_bounds _ input) (s'.env.bounds _) n root (newContext input rend) .root .init).of_eq hp
  have hlen := hps.inv.tokens_length
  have := live_le (L := input.length) (B := s'.env.recordBound) hps.inv.once fun off id to hh => by
    obtain ⟨h1, h2, h3⟩ := hps.inv.store off id to hh
    exact ⟨by omega, h3, by omega⟩
  rw [← Nat.mul_assoc, Nat.mul_comm, ← Nat.pow_two] at this
  exact this

end Treerack
