import Verif.Proofs.RefCalls
import Verif.Proofs.Direct
import Verif.Props.Outcome

/-
C05, C06, C07, C08, C09: parsing follows the reference semantics (Spec/Reference.lean).

`Straightforward cs`: the calls define no whitespace, when there are NoKeyword definitions and keywords, then the first are not
choices and the second are texts, the calls refer to other definitions by the names given by calls, and the grammar has no other
left recursion than that of choices `a` with options of the form `s = a tail`, where the other options are next to each other (see Props/Recursion.lean).
-/

namespace Treerack
open Spec Samples

variable {cs : List Call} {s s' : Syntax} {input : List Rune} {root : Name}

/-- C06: Parse accepts an input if and only if the reference semantics of the root matches all of it. -/
theorem C06_exactness (h : Made cs s) (hi : s.Init = .ok (s', none)) (hs : Straightforward cs)
    (hval : replacementChar ∉ input) (hroot : rootOf cs = some root) :
    ∃ N, ∀ n, N ≤ n → ((∃ t, s.Parse n input none = .ok (s', .node t)) ↔
      ∃ ns, Ref (grammarOf cs) (blockedOf cs input) input root 0 (some (input.length, ns))) := by
  obtain ⟨N, r, hne, hN⟩ := C01_termination (made_history h) hi input none
  refine ⟨N, fun n hn => ?_⟩
  have hE := Parse_exact h hi hs hval hroot n
  constructor
  · rintro ⟨t, ht⟩
    exact ⟨_, (hE.of_eq ht).2⟩
  · intro hacc
    cases hp : s.Parse n input none with
    | oof => rw [hN n hn] at hp; exact absurd hp hne
    | panic => rw [hp] at hE; exact absurd hacc hE
    | ok x =>
      obtain ⟨s1, x⟩ := x
      obtain ⟨rfl, hE⟩ := hE.of_eq hp
      simp only at hE
      cases x with
      | node t => exact ⟨t, rfl⟩
      | error e => exact absurd hacc hE
      | syntaxError e => exact hE.elim

/-- C09: the returned tree is the one of the reference semantics. -/
theorem C09_tree {n : Nat} {t : Node} (h : Made cs s) (hi : s.Init = .ok (s', none))
    (hs : Straightforward cs) (hval : replacementChar ∉ input) (hroot : rootOf cs = some root)
    (hp : s.Parse n input none = .ok (s', .node t)) :
    Ref (grammarOf cs) (blockedOf cs input) input root 0 (some (input.length, [t])) :=
  ((Parse_exact h hi hs hval hroot n).of_eq hp).2

/-- C09: the reference semantics has at most one result for a definition at a position. -/
theorem C09_unique {N : Type} {G : Grammar N} {B : N → Nat → Nat → Prop} {n : N} {i : Nat} {m m' : Match} (h : Ref G B input n i m) (h' : Ref G B input n i m') :
    m = m' := h.unique h'

/-- C06, C09: when the reference semantics of the root matches the text, then Parse returns its tree. -/
theorem C09_accepted {ns : List Node} (h : Made cs s) (hi : s.Init = .ok (s', none))
    (hs : Straightforward cs) (hval : replacementChar ∉ input) (hroot : rootOf cs = some root)
    (hr : Ref (grammarOf cs) (blockedOf cs input) input root 0 (some (input.length, ns))) :
    ∃ N t, ns = [t] ∧ ∀ n, N ≤ n → s.Parse n input none = .ok (s', .node t) := by
  obtain ⟨N, hN⟩ := C06_exactness h hi hs hval hroot
  obtain ⟨t, ht⟩ := (hN N (Nat.le_refl _)).2 ⟨ns, hr⟩
  have h1 := C09_tree h hi hs hval hroot ht
  have := hr.unique h1
  cases this
  exact ⟨N, t, rfl, fun n hn => by rw [(Parse_le s hn input none).eq (by rw [ht]; simp), ht]⟩

/-- C13: an accepted text does not lead to a panic: when Parse panics, then the text is not one of the syntax.  (Partial: for
other texts see `C13_error_panic_counterexample`, for left recursion `C13_build_panic_counterexample`.) -/
theorem C13_accepted_partial {n : Nat} (h : Made cs s) (hi : s.Init = .ok (s', none))
    (hs : Straightforward cs) (hval : replacementChar ∉ input) (hroot : rootOf cs = some root)
    (hp : s.Parse n input none = .panic) : ¬ ∃ ns, Ref (grammarOf cs) (blockedOf cs input) input root 0 (some (input.length, ns)) := by
  have := Parse_exact h hi hs hval hroot n
  rw [hp] at this
  exact this

/-- C05: the nodes of the returned tree are nested and in the order of the text. -/
theorem C05_nested {n : Nat} {t : Node} (h : Made cs s) (hi : s.Init = .ok (s', none))
    (hs : Straightforward cs) (hval : replacementChar ∉ input) (hroot : rootOf cs = some root)
    (hp : s.Parse n input none = .ok (s', .node t)) : Nested t :=
  ((C09_tree h hi hs hval hroot hp).tidy _ _ rfl).2 t (by simp)

/-- C07: what a choice matches: the longest of its options, and the first one of those.  The nodes are those of this
option.  (For choices with left recursive options see C39.) -/
theorem C07_choice {N : Type} {G : Grammar N} {B : N → Nat → Nat → Prop} {n : N} {d : GDef N} {os : List N} {i j : Nat} {ns : List Node}
    (hd : G n = some d) (he : d.expr = .choice os) (hr : ∀ o, ¬ Recurs G n o) (h : Ref G B input n i (some (j, ns))) :
    ∃ front o rest ms, os = front ++ o :: rest ∧ Ref G B input o i (some (j, ms)) ∧
      ns = (if d.alias then ms else [Node.mk d.name i j input ms]) ∧
      (∀ q ∈ front, ∃ r, Ref G B input q i r ∧ ∀ x, r = some x → x.1 < j) ∧
      (∀ q ∈ rest, ∃ r, Ref G B input q i r ∧ ∀ x, r = some x → x.1 ≤ j) := by
  generalize hm : some (j, ns) = m at h
  cases h with
  | char h1 h2 => rw [hd] at h1; cases h1; rw [he] at h2; cases h2
  | noChar h1 h2 => cases hm
  | seq h1 h2 => rw [hd] at h1; cases h1; rw [he] at h2; cases h2
  | blocked => cases hm
  | noBase => cases hm
  | grow h1 h2 h3 =>
    exact absurd h3 (not_exists.2 hr)
  | choice h1 h2 _ h3 =>
    rw [hd] at h1; cases h1
    rw [he] at h2; cases h2
    obtain ⟨⟨j', ms⟩, rfl, h5⟩ := Option.map_eq_some_iff.1 hm.symm
    simp only [Prod.mk.injEq] at h5
    obtain ⟨rfl, rfl⟩ := h5
    obtain ⟨front, o, rest, g1, g2, g3, g4⟩ := h3.longest _ _ rfl
    exact ⟨front, o, rest, ms, g1, g2, rfl, g3, g4⟩

/-- C08: after any parse calls of any definitions at any positions, with any results, a definition matches at a position what
the reference semantics says.  (The left recursive options are only parsed by their choice.) -/
theorem C08_memo {rp : Ptr} {c c' : Ctx} {p : Ptr} {d : PDef} {i n : Nat} (h : Made cs s)
    (hi : s.Init = .ok (s', none)) (hs : Regular cs) (hval : replacementChar ∉ input) (hr : s'.root = some rp)
    (ha : DirectAttempts s'.env rp input c) (hp : Reach s'.env rp p) (ht : ¬ IsTail s'.env p) (hd : s'.env.defs[p]? = some d)
    (hi' : i ≤ c.tokens.length)
    (hc : parse s'.env n p { c with offset := i } = .ok c') :
    (c'.matchLast = true ∧ ∃ ns, Ref (grammarOf cs) (blockedOf cs input) input d.name i (some (c'.offset, ns))) ∨
    (c'.matchLast = false ∧ Ref (grammarOf cs) (blockedOf cs input) input d.name i none) := by
  obtain ⟨root, hr', T, -, hap, m, -, hb⟩ := calls_regular h hi hs
  rw [hr] at hr'; cases hr'
  have key := attempt_ref T hval ha hp ht hi' hc
  rw [← nameAt_env hd]
  simp only [m.ref_iff hap (hb input) T hp]
  exact key

/-- C08: the result at a position is the same whatever was tried before. -/
theorem C08_independent {rp : Ptr} {c₁ c₁' c₂ c₂' : Ctx} {p : Ptr} {i n₁ n₂ : Nat} (h : Made cs s)
    (hi : s.Init = .ok (s', none)) (hs : Regular cs) (hval : replacementChar ∉ input) (hr : s'.root = some rp)
    (ha₁ : DirectAttempts s'.env rp input c₁) (ha₂ : DirectAttempts s'.env rp input c₂) (hp : Reach s'.env rp p)
    (ht : ¬ IsTail s'.env p)
    (hi₁ : i ≤ c₁.tokens.length) (hi₂ : i ≤ c₂.tokens.length)
    (hc₁ : parse s'.env n₁ p { c₁ with offset := i } = .ok c₁') (hc₂ : parse s'.env n₂ p { c₂ with offset := i } = .ok c₂') :
    c₁'.matchLast = c₂'.matchLast ∧ (c₁'.matchLast = true → c₁'.offset = c₂'.offset) := by
  obtain ⟨root, hr', T, -, hap, m, -, hb⟩ := calls_regular h hi hs
  rw [hr] at hr'; cases hr'
  exact attempts_agree T hval ha₁ ha₂ hp ht hi₁ hi₂ hc₁ hc₂

/-! ### Examples -/

/-- The sums meet the assumptions. -/
theorem sum_straight : Straightforward sumCalls :=
  straightforward_of (fun _ => false)
      (fun n => if n = runes "sum" ∨ n = runes "tail" then 3 else if n = runes "num" then 2 else if n = runes "digit" ∨ n = runes "plus" then 1 else 0)
      (by decide +kernel) (by decide +kernel) (by decide +kernel) (by decide +kernel) (by decide +kernel)

/-- `a:alias = "a"; open:alias = "("; close:alias = ")"; list = open expr* close; expr:alias = list | aa | a | b;
aa = a a?; b = a; r:root = expr expr*` -/
def listCalls : List Call := [
  .charSequence (runes "a") { alias := true } (runes "a"),
  .charSequence (runes "open") { alias := true } (runes "("),
  .charSequence (runes "close") { alias := true } (runes ")"),
  .sequence (runes "list") {} [item "open", { name := runes "expr", min := 0, max := -1 }, item "close"],
  .choice (runes "expr") { alias := true } [runes "b", runes "list", runes "aa", runes "a"],
  .sequence (runes "aa") {} [item "a", { name := runes "a", min := 0, max := 1 }],
  .sequence (runes "b") {} [item "a"],
  .sequence (runes "r") { root := true } [item "expr", { name := runes "expr", min := 0, max := -1 }]]

/-- A recursive syntax without left recursion. -/
theorem list_straight : Straightforward listCalls :=
  straightforward_of (fun _ => false)
      (fun n => if n = runes "r" then 4 else if n = runes "expr" then 3 else if n = runes "list" ∨ n = runes "aa" ∨ n = runes "b" then 2
        else if n = runes "a" ∨ n = runes "open" ∨ n = runes "close" then 1 else 0)
      (by decide +kernel) (by decide +kernel) (by decide +kernel) (by decide +kernel) (by decide +kernel)

/-- The longest option is `aa` in `(aa)`, and the first of the longest is `b` in `(a)`. -/
example : Syntax.calls {} listCalls = some (after listCalls) ∧ (∃ s', (after listCalls).Init = .ok (s', none)) ∧
    rootOf listCalls = some (runes "r") ∧ replacementChar ∉ runes "(aa)(a)" ∧
    nodes (run listCalls 60 (runes "(aa)(a)")) = some [(0, runes "r", 0, 7), (1, runes "list", 0, 4), (2, runes "aa", 1, 3),
      (1, runes "list", 4, 7), (2, runes "b", 5, 6)] :=
  ⟨calls_ok (by decide +kernel), init_ok (s := after listCalls) (by decide +kernel), by decide +kernel, by decide +kernel, by decide +kernel⟩

theorem sample_ref {cs : List Call} {n : Nat} {s' : Syntax} {r : Syntax.ParseResult} {input : List Rune} {root : Name}
    (hc : Made cs (after cs)) (hi : ∃ s', (after cs).Init = .ok (s', none)) (hs : Straightforward cs)
    (hval : replacementChar ∉ input) (hr : rootOf cs = some root) (h : run cs n input = .ok (s', r)) :
    match (generalizing := false) r with
    | .node t => Ref (grammarOf cs) (blockedOf cs input) input root 0 (some (input.length, [t]))
    | .error _ => ¬ ∃ ns, Ref (grammarOf cs) (blockedOf cs input) input root 0 (some (input.length, ns))
    | .syntaxError _ => False := by
  obtain ⟨s1, hi⟩ := hi
  exact ((Parse_exact hc hi hs hval hr n).of_eq h).2

/-- The reference semantics accepts this text, and does not accept another one. -/
example : (∃ ns, Ref (grammarOf listCalls) (blockedOf listCalls (runes "(aa)(a)")) (runes "(aa)(a)") (runes "r") 0 (some (7, ns))) ∧
    ¬ ∃ ns, Ref (grammarOf listCalls) (blockedOf listCalls (runes "(a")) (runes "(a") (runes "r") 0 (some (2, ns)) := by
  have hi := init_ok (s := after listCalls) (by decide +kernel)
  have hc : Made listCalls (after listCalls) := calls_made (calls_ok (by decide +kernel))
  have hr : rootOf listCalls = some (runes "r") := by decide +kernel
  constructor
  · obtain ⟨s1, t, ht⟩ := tree_ok (x := run listCalls 60 (runes "(aa)(a)")) (by decide +kernel)
    exact ⟨_, sample_ref hc hi list_straight (by decide +kernel) hr ht⟩
  · obtain ⟨s1, ht⟩ := error_ok (x := run listCalls 60 (runes "(a")) (e := Option.get (error (run listCalls 60 (runes "(a"))) (by decide +kernel)) (by simp)
    exact sample_ref hc hi list_straight (by decide +kernel) hr ht

end Treerack
