import Verif.Proofs.Matching
import Verif.Props.Reference

/-
C15 (character classes), C16 (quantifiers).
-/

namespace Treerack
open Spec Samples

variable {cs : List Call} {s s' : Syntax} {input : List Rune} {root : Ptr} {c c' : Ctx} {p : Ptr} {d : PDef} {i fuel : Nat}

/-- The character class of a call that defines a single character. -/
def Spec.Call.class? : Call → Option (Bool × List Rune × List (Rune × Rune))
  | .anyChar _ _ => some (true, [], [])
  | .class_ _ _ neg chars ranges => some (neg, chars, ranges)
  | _ => none

/-- C15: after any attempts to parse anything anywhere, a class matches at a position if and only if there is a character of
the class, and then it matches this one character.  (The root is excluded in syntaxes with whitespace definitions, because it
includes the whitespace around it.) -/
theorem C15_class {call : Call} {neg : Bool} {chars : List Rune} {ranges : List (Rune × Rune)}
    (h : Made cs s) (hsafe : WsSafe cs) (hi : s.Init = .ok (s', none)) (hval : replacementChar ∉ input)
    (hr : s'.root = some root) (ha : Attempts s'.env root input c) (hc : call ∈ cs)
    (hcl : call.class? = some (neg, chars, ranges))
    (hroot : rootOf cs ≠ some call.name ∨ ∀ c ∈ cs, c.commit.whitespace = false)
    (hp : Reach s'.env root p) (hd : s'.env.defs[p]? = some d) (hn : d.name = call.name) (hkw : d.commit.noKeyword = false)
    (hi' : i ≤ c.tokens.length) (hpar : parse s'.env fuel p { c with offset := i } = .ok c') :
    (c'.matchLast = true ↔ ∃ t, input[i]? = some t ∧ InClass neg chars ranges t) ∧
    (c'.matchLast = true → c'.offset = i + 1) := by
  obtain ⟨root', hr', L, hX⟩ := class_parser h hsafe hi
  rw [hr] at hr'; obtain rfl := Option.some.inj hr'
  have hdefs : charDef (charName call.name 0) neg chars ranges ∈ call.defs ∧
      ∃ al, (call.name, GDef.mk call.name al (.seq [once (charName call.name 0)])) ∈ call.defs := by
    cases call with
    | anyChar n ct => cases hcl; exact ⟨List.mem_cons_self, ct.alias, List.mem_cons_of_mem _ List.mem_cons_self⟩
    | class_ n ct a b e => cases hcl; exact ⟨List.mem_cons_self, ct.alias, List.mem_cons_of_mem _ List.mem_cons_self⟩
    | charSequence => cases hcl
    | sequence => cases hcl
    | choice => cases hcl
  obtain ⟨hd1, al, hd2⟩ := hdefs
  obtain ⟨is, rs, q, e, hk, hz, he, hek⟩ := hX call.name _ (charName call.name 0) neg chars ranges _
    (call_grammar h hc hd2) rfl (call_grammar h hc hd1) rfl hroot p d hp hd hn
  obtain ⟨hinv, -, hlim⟩ := ha.inv L
  obtain ⟨hcomp, hsound⟩ := parse_chars L hval hp hd hk (fun x hx => by rw [hz, List.mem_singleton] at hx; rw [hx]) hkw
    (hinv.at hi') hlim hpar
  simp only at hcomp hsound
  have hg := Env.grammar_some hd
  have hge := Env.grammar_some he
  -- what the definition derives
  have hder : ∀ j, Derives s'.env.grammar input p i j ↔ j = i + 1 ∧ ∃ t, input[i]? = some t ∧ InClass neg chars ranges t := by
    intro j
    constructor
    · intro hj
      cases hj with
      | choice a1 a2 => rw [hg] at a1; cases a1; simp [hk, PKind.expr] at a2
      | char a1 a2 => rw [hg] at a1; cases a1; simp [hk, PKind.expr] at a2
      | seq a1 a2 a3 =>
        rw [hg] at a1; cases a1
        simp only [hk, PKind.expr, Expr.seq.injEq] at a2
        rw [hz] at a2
        subst a2
        cases a3 with
        | @cons _ _ _ _ k _ m _ b1 b2 b3 =>
          cases b3
          have : k = 1 := by rcases b2 with ⟨b4, b5⟩ | ⟨-, b4, -⟩ <;> omega
          subst this
          cases b1 with
          | succ b4 b5 =>
            cases b4
            cases b5 with
            | choice a1 a2 => rw [hge] at a1; cases a1; simp [hek, PKind.expr] at a2
            | seq a1 a2 => rw [hge] at a1; cases a1; simp [hek, PKind.expr] at a2
            | char a1 a2 a3 a4 =>
              rw [hge] at a1; cases a1
              simp only [hek, PKind.expr, Expr.char.injEq] at a2
              obtain ⟨rfl, rfl, rfl⟩ := a2
              exact ⟨rfl, _, a3, a4⟩
    · rintro ⟨rfl, t, h1, h2⟩
      refine .seq hg (by simp only [hk, PKind.expr]; rfl) ?_
      rw [hz]
      exact .cons (k := 1) (.succ .zero (.char hge (by simp only [hek, PKind.expr]) h1 h2)) (Or.inl ⟨by omega, by omega⟩) .nil
  constructor
  · constructor
    · intro hm
      exact ((hder _).1 (hsound hm)).2
    · intro ht
      exact (hcomp (i + 1) ((hder _).2 ⟨rfl, ht⟩)).1
  · intro hm
    exact ((hder _).1 (hsound hm)).1

/-- C15: a class never matches at the end of the input. -/
theorem C15_end {call : Call} {cl : Bool × List Rune × List (Rune × Rune)}
    (h : Made cs s) (hsafe : WsSafe cs) (hi : s.Init = .ok (s', none)) (hval : replacementChar ∉ input)
    (hr : s'.root = some root) (ha : Attempts s'.env root input c) (hc : call ∈ cs) (hcl : call.class? = some cl)
    (hroot : rootOf cs ≠ some call.name ∨ ∀ c ∈ cs, c.commit.whitespace = false)
    (hp : Reach s'.env root p) (hd : s'.env.defs[p]? = some d) (hn : d.name = call.name) (hkw : d.commit.noKeyword = false)
    (hi' : input.length ≤ c.tokens.length) (hpar : parse s'.env fuel p { c with offset := input.length } = .ok c') :
    c'.matchLast = false := by
  obtain ⟨neg, chars, ranges⟩ := cl
  have := C15_class h hsafe hi hval hr ha hc hcl hroot hp hd hn hkw hi' hpar
  cases hm : c'.matchLast with
  | false => rfl
  | true =>
    obtain ⟨t, h1, -⟩ := this.1.1 hm
    rw [List.getElem?_eq_none_iff.2 (Nat.le_refl _)] at h1
    cases h1

/-- C15: an any-char matches every valid character. -/
theorem C15_any {n : Name} {ct : Commit} (h : Made cs s) (hsafe : WsSafe cs) (hi : s.Init = .ok (s', none))
    (hval : replacementChar ∉ input) (hr : s'.root = some root) (ha : Attempts s'.env root input c)
    (hc : .anyChar n ct ∈ cs) (hroot : rootOf cs ≠ some n ∨ ∀ c ∈ cs, c.commit.whitespace = false)
    (hp : Reach s'.env root p) (hd : s'.env.defs[p]? = some d) (hn : d.name = n) (hkw : d.commit.noKeyword = false)
    (hi' : i ≤ c.tokens.length) (hpar : parse s'.env fuel p { c with offset := i } = .ok c') :
    c'.matchLast = true ↔ i < input.length := by
  rw [(C15_class h hsafe hi hval hr ha hc rfl hroot hp hd hn hkw hi' hpar).1]
  constructor
  · rintro ⟨t, h1, -⟩
    exact (List.getElem?_eq_some_iff.1 h1).1
  · intro hlt
    exact ⟨input[i], List.getElem?_eq_getElem hlt, by simp [InClass]⟩

/-- A state in which the class of the digits is tried, in a syntax with whitespace. -/
example : Syntax.calls {} sumWsCalls = some (after sumWsCalls) ∧ (after sumWsCalls).Init = .ok (initOf sumWsCalls, none) ∧
    (∃ root p d c', (initOf sumWsCalls).root = some root ∧ Reach (initOf sumWsCalls).env root p ∧
      (initOf sumWsCalls).env.defs[p]? = some d ∧ d.name = runes "digit" ∧ d.commit.noKeyword = false ∧
      parse (initOf sumWsCalls).env 20 p (newContext (runes "5+") none) = .ok c' ∧ c'.matchLast = true) ∧
    rootOf sumWsCalls ≠ some (runes "digit") := by
  refine ⟨calls_ok (by decide +kernel), init_of (by decide +kernel), ?_, by decide +kernel⟩
  have key : ((initOf sumWsCalls).root.bind fun root => (follow (initOf sumWsCalls).env [1, 0, 0] root).bind fun p =>
      ((initOf sumWsCalls).env.defs[p]?).bind fun d =>
        match parse (initOf sumWsCalls).env 20 p (newContext (runes "5+") none) with
        | .ok c' => some (decide (d.name = runes "digit") && !d.commit.noKeyword && c'.matchLast)
        | _ => none) = some true := by decide +kernel
  obtain ⟨root, h1, h2⟩ := Option.bind_eq_some_iff.1 key
  obtain ⟨p, h3, h4⟩ := Option.bind_eq_some_iff.1 h2
  obtain ⟨d, h5, h6⟩ := Option.bind_eq_some_iff.1 h4
  split at h6
  · rename_i c' h7
    simp only [Option.some.injEq, Bool.and_eq_true, decide_eq_true_eq, Bool.not_eq_true'] at h6
    exact ⟨root, p, d, c', h1, follow_reach .root h3, h5, h6.1.1, h6.1.2, h7, h6.2⟩
  · cases h6

/-! ### Quantifiers -/

/-- C16: the meaning of the numbers.  Exactly one without numbers; at least the minimum without (or with a zero) maximum;
otherwise between the minimum and the maximum. -/
theorem C16_numbers (mn mx : Int) (k : Nat) :
    (mn = 0 ∧ mx = 0 → (InRange (bounds mn mx).1 (bounds mn mx).2 k ↔ k = 1)) ∧
    (¬ (mn = 0 ∧ mx = 0) → mx ≤ 0 → (InRange (bounds mn mx).1 (bounds mn mx).2 k ↔ mn ≤ k)) ∧
    (0 < mx → mn ≤ mx → (InRange (bounds mn mx).1 (bounds mn mx).2 k ↔ mn ≤ k ∧ (k : Int) ≤ mx)) := by
  unfold InRange bounds
  refine ⟨fun h => ?_, fun h h1 => ?_, fun h1 h2 => ?_⟩
  · rw [if_pos h]; simp only; omega
  · rw [if_neg h, if_pos h1]
    simp only
    split <;> omega
  · rw [if_neg (by omega)]
    simp only
    rw [if_neg (show ¬ mx ≤ 0 by omega)]
    split <;> omega

/-- C16: after any attempts, when a sequence matches, then its items occur one after the other in the matched text, each of
them as many times as its quantifier allows. -/
theorem C16_range {n : Name} {ct : Commit} {items : List SeqItem} (h : Made cs s)
    (hnw : ∀ c ∈ cs, c.commit.whitespace = false) (hi : s.Init = .ok (s', none)) (hr : s'.root = some root)
    (ha : Attempts s'.env root input c) (hc : .sequence n ct items ∈ cs) (hp : Reach s'.env root p)
    (hd : s'.env.defs[p]? = some d) (hn : d.name = n) (hi' : i ≤ c.tokens.length)
    (hpar : parse s'.env fuel p { c with offset := i } = .ok c') (hm : c'.matchLast = true) :
    DerivesItems (grammarOf cs) input (items.map fun it => (it.name, bounds it.min it.max)) i c'.offset := by
  obtain ⟨root', U⟩ := understood h (by rintro ⟨c, k1, k2⟩; rw [Call.isWs, hnw c k1] at k2; cases k2) hi
  have := U.rootEq
  rw [hr] at this; obtain rfl := Option.some.inj this
  obtain ⟨hinv, -, -⟩ := ha.inv U.linked
  have hsound := (parse_spec U.linked.closed (U.linked.interp input) (Env.bounds _ _) fuel p _ hp (hinv.at hi')).of_eq hpar
  have hD := (hsound.mtch hm).2.1
  simp only at hD
  rw [U.derives p d input i _ hp hd ⟨_, hc, hn.symm⟩, hn] at hD
  rw [wderives_iff_noWs (W := wgrammarOf cs) (by
    simp only [wgrammarOf, List.map_eq_nil_iff, List.filter_eq_nil_iff]
    intro c hc; simp [Call.isWs, hnw c hc])] at hD
  have hg := call_grammar h hc (x := (n, _)) (by simp only [Call.defs]; exact List.mem_singleton.2 rfl)
  have hW : (wgrammarOf cs).G = grammarOf cs := rfl
  rw [hW] at hD
  generalize c'.offset = j at hD
  cases hD with
  | char a1 a2 => rw [hg] at a1; cases a1; simp at a2
  | choice a1 a2 => rw [hg] at a1; cases a1; simp at a2
  | seq a1 a2 a3 =>
    rw [hg] at a1; cases a1
    simp only [Expr.seq.injEq] at a2
    rw [a2]; exact a3

theorem items_greedy {N : Type} {G : Grammar N} {B : N → Nat → Nat → Prop} {n : N} {mn mx : Int} {items : List (N × Int × Int)} :
    ∀ {its : List (N × Int × Int)} {k i : Nat} {m : Match}, RefItems G B input its k i m → ∀ j ns, its = (n, mn, mx) :: items →
      m = some (j, ns) → (0 < mx → (k : Int) < mx) →
      ∃ l to ns₁ ns₂, RefTimes G B input n l i to ns₁ ∧ RefItems G B input items 0 to (some (j, ns₂)) ∧
        (0 < mx → ((k + l : Nat) : Int) ≤ mx) ∧
        ((0 < mx ∧ ((k + l : Nat) : Int) = mx) ∨ (Ref G B input n to none ∧ mn ≤ ((k + l : Nat) : Int)) ∨
          ∃ ns', Ref G B input n to (some (to, ns')))
  | _, _, _, _, .nil, _, _, h, _, _ => by cases h
  | _, _, _, _, .fail .., _, _, _, h, _ => by cases h
  | _, k, i, _, .done h1 h2 h3, j, ns, h, hm, hk => by
    cases h; subst hm
    exact ⟨0, i, [], ns, .zero, h3, fun h => by have := hk h; simp only [Nat.add_zero]; omega, Or.inr (Or.inl ⟨h1, h2⟩)⟩
  | _, k, i, _, .empty (m := m) h1 h2, j, ns, h, hm, hk => by
    cases h
    cases m with
    | none => cases hm
    | some x =>
      obtain ⟨j', ns'⟩ := x
      simp only [prepend, Option.map_some, Option.some.injEq, Prod.mk.injEq] at hm
      obtain ⟨rfl, -⟩ := hm
      exact ⟨0, i, [], ns', .zero, h2, fun h => by have := hk h; simp only [Nat.add_zero]; omega, Or.inr (Or.inr ⟨_, h1⟩)⟩
  | _, k, i, _, .last (j := jm) (ns := ns1) (m := m) h1 h2 h3 h4 h5, j, ns, h, hm, hk => by
    cases h
    cases m with
    | none => cases hm
    | some x =>
      obtain ⟨j', ns'⟩ := x
      simp only [prepend, Option.map_some, Option.some.injEq, Prod.mk.injEq] at hm
      obtain ⟨rfl, -⟩ := hm
      exact ⟨1, jm, _, ns', .succ h1 h2 .zero, h5, fun _ => by omega, Or.inl ⟨h3, h4⟩⟩
  | _, k, i, _, .more (m := m) h1 h2 h3 h4, j, ns, h, hm, hk => by
    have ih := items_greedy (n := n) (mn := mn) (mx := mx) (items := items) h4
    cases h
    cases m with
    | none => cases hm
    | some x =>
      obtain ⟨j', ns'⟩ := x
      simp only [prepend, Option.map_some, Option.some.injEq, Prod.mk.injEq] at hm
      obtain ⟨rfl, -⟩ := hm
      obtain ⟨l, to, n1, n2, g1, g2, g3, g4⟩ := ih _ _ rfl rfl (fun h => by
        have := hk h
        have h5 : ¬ ((k + 1 : Nat) : Int) = mx := fun e => h3 ⟨h, e⟩
        omega)
      have e : k + 1 + l = k + (l + 1) := by omega
      rw [e] at g3 g4
      exact ⟨l + 1, to, _, n2, .succ h1 h2 g1, g2, g3, g4⟩

/-- C16: the items are taken greedily: an item is repeated until its maximum is reached, until there is no further match
(then there are at least as many as its minimum), or until it matches the empty text. -/
theorem C16_greedy {N : Type} {G : Grammar N} {B : N → Nat → Nat → Prop} {n : N} {mn mx : Int} {items : List (N × Int × Int)} {j : Nat} {ns : List Node}
    (h : RefItems G B input ((n, mn, mx) :: items) 0 i (some (j, ns))) :
    ∃ k to ns₁ ns₂, RefTimes G B input n k i to ns₁ ∧ RefItems G B input items 0 to (some (j, ns₂)) ∧
      (0 < mx → (k : Int) ≤ mx) ∧
      ((0 < mx ∧ (k : Int) = mx) ∨ (Ref G B input n to none ∧ mn ≤ (k : Int)) ∨ ∃ ns', Ref G B input n to (some (to, ns'))) := by
  obtain ⟨l, to, ns1, ns2, h1, h2, h3, h4⟩ := items_greedy h j ns rfl rfl (fun h => by simpa using h)
  rw [Nat.zero_add] at h3 h4
  exact ⟨l, to, ns1, ns2, h1, h2, h3, h4⟩

/-- `a:alias = "a"; r:root = a{3,2}` -/
def aboveCalls : List Call := [
  .charSequence (runes "a") { alias := true } (runes "a"),
  .sequence (runes "r") { root := true } [{ name := runes "a", min := 3, max := 2 }]]

/-- C16: what does not hold: a minimum above the maximum is accepted, and fewer occurrences than the minimum are matched. -/
theorem C16_above_counterexample : Syntax.calls {} aboveCalls = some (after aboveCalls) ∧
    (∃ s', (after aboveCalls).Init = .ok (s', none)) ∧
    (∃ s' t, run aboveCalls 30 (runes "aa") = .ok (s', .node t)) ∧ (tree (run aboveCalls 30 (runes "aaa"))).isSome = false :=
  ⟨calls_ok (by decide +kernel), init_ok (s := after aboveCalls) (by decide +kernel),
    tree_ok (x := run aboveCalls 30 (runes "aa")) (by decide +kernel), by decide +kernel⟩

/-- C16: otherwise each item occurs at least as many times as its minimum, and at most as many times as its maximum: what the
range of `C16_range` means. -/
theorem C16_within_partial (mn mx : Int) (k : Nat) (h : ¬ (0 < mx ∧ mx < mn)) (h0 : ¬ (mn = 0 ∧ mx = 0))
    (hk : InRange (bounds mn mx).1 (bounds mn mx).2 k) : mn ≤ k ∧ (0 < mx → (k : Int) ≤ mx) := by
  obtain ⟨-, h2, h3⟩ := C16_numbers mn mx k
  by_cases hmx : 0 < mx
  · have := (h3 hmx (by omega)).1 hk
    exact ⟨this.1, fun _ => this.2⟩
  · exact ⟨(h2 h0 (by omega)).1 hk, fun h => absurd h hmx⟩

/-- A quantified item: `r:root = a{2,3}`: the occurrences are limited from both sides. -/
def rangeCalls : List Call := [
  .charSequence (runes "a") { alias := true } (runes "a"),
  .sequence (runes "r") { root := true } [{ name := runes "a", min := 2, max := 3 }]]

example : Straightforward rangeCalls ∧ Syntax.calls {} rangeCalls = some (after rangeCalls) ∧
    (∃ s', (after rangeCalls).Init = .ok (s', none)) ∧
    (tree (run rangeCalls 30 (runes "a"))).isSome = false ∧ (tree (run rangeCalls 30 (runes "aa"))).isSome = true ∧
    (tree (run rangeCalls 30 (runes "aaa"))).isSome = true ∧ (tree (run rangeCalls 30 (runes "aaaa"))).isSome = false :=
  ⟨straightforward_of (fun _ => false) (fun n => if n = runes "r" then 2 else if n = runes "a" then 1 else 0) (by decide +kernel) (by decide +kernel) (by decide +kernel) (by decide +kernel) (by decide +kernel),
    calls_ok (by decide +kernel), init_ok (s := after rangeCalls) (by decide +kernel), by decide +kernel, by decide +kernel,
    by decide +kernel, by decide +kernel⟩

end Treerack
