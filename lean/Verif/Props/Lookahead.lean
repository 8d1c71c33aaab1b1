import Verif.Proofs.Lookahead
import Verif.Proofs.LookaheadTest
import Verif.Props.Reference

/-
C57: syntaxes for which one character of lookahead is enough (Spec/Lookahead.lean) are parsed completely: an input is accepted if
and only if it is derived from the grammar.  In general, it is only accepted when it is derived, because the parser takes the
longest option and as many items as possible, and does not try anything else (C06).
-/

namespace Treerack
open Spec Samples

variable {cs : List Call} {s s' : Syntax} {input : List Rune} {root : Name}

/-- The definitions that are used by the root, and their results. -/
theorem calls_whole (h : Made cs s) (hi : s.Init = .ok (s', none)) (hs : Regular cs) (hroot : rootOf cs = some root)
    (input : List Rune) : ∃ R : Name → Prop, R root ∧ Whole (grammarOf cs) (blockedOf cs input) input R := by
  obtain ⟨rp, -, T, -, hap, m, hr, hb⟩ := calls_regular h hi hs
  rw [hroot] at hr
  cases hr
  obtain ⟨f, hf⟩ := T.linked.refs T.free T.grows input
  have hnext : ∀ {p : Ptr} {d : GDef Name}, Reach s'.env rp p → grammarOf cs (s'.nameAt p) = some d →
      ∀ q ∈ d.expr.refs, ∃ p', Reach s'.env rp p' ∧ s'.nameAt p' = q := by
    intro p d hp hd q hq
    obtain ⟨e, he, hg⟩ := m.def_ p hp
    rw [hg] at hd
    cases hd
    have hsub := m.refs p e hp he
    simp only [GDef.map] at hq
    cases hx : e.expr with
    | char => rw [hx] at hq; cases hq
    | choice os =>
      rw [hx] at hq hsub
      simp only [Expr.map, Expr.refs, List.mem_map] at hq hsub
      obtain ⟨o, ho, rfl⟩ := hq
      exact ⟨o, hsub o ho, rfl⟩
    | seq items =>
      rw [hx] at hq hsub
      simp only [Expr.map, Expr.refs, List.mem_map] at hq hsub
      obtain ⟨y, ⟨x, hx, rfl⟩, rfl⟩ := hq
      exact ⟨x.1, hsub _ ⟨x, hx, rfl⟩, rfl⟩
  refine ⟨fun n => ∃ p, Reach s'.env rp p ∧ s'.nameAt p = n, ⟨rp, .root, rfl⟩, ?_, ?_, ?_⟩
  · rintro n d os o ⟨p, hp, rfl⟩ hd he ho
    exact hnext hp hd o (by rw [he]; exact ho)
  · rintro n d items x ⟨p, hp, rfl⟩ hd he hx
    exact hnext hp hd x.1 (by rw [he]; exact List.mem_map.2 ⟨x, hx, rfl⟩)
  · rintro n ⟨p, hp, rfl⟩ i
    exact ⟨_, (m.ref_iff hap (hb input) T hp).2 (hf hp i)⟩

/-- C57: an input whose derivations take as much as possible, without a keyword where there must not be one, is accepted. -/
theorem C57_decisive (h : Made cs s) (hi : s.Init = .ok (s', none)) (hs : Straightforward cs)
    (hrec : ∀ n x, ¬ Recurs (grammarOf cs) n x) (hval : replacementChar ∉ input) (hroot : rootOf cs = some root)
    (hd : Decisive (grammarOf cs) input (blockedOf cs input) root) :
    ∃ N, ∀ n, N ≤ n → ((∃ t, s.Parse n input none = .ok (s', .node t)) ↔ Derives (grammarOf cs) input root 0 input.length) := by
  obtain ⟨N, hN⟩ := C06_exactness h hi hs hval hroot
  obtain ⟨R, hR, W⟩ := calls_whole h hi hs.toRegular hroot input
  refine ⟨N, fun n hn => (hN n hn).trans ⟨?_, ?_⟩⟩
  · rintro ⟨ns, hr⟩
    exact Ref.sound hrec hr _ _ rfl
  · exact hd.ref hrec W hR

/-- C57: with one character of lookahead, an input without a keyword where there must not be one is accepted if and only if it is
derived from the grammar. -/
theorem C57_lookahead (h : Made cs s) (hi : s.Init = .ok (s', none)) (hs : Straightforward cs)
    (hrec : ∀ n x, ¬ Recurs (grammarOf cs) n x) (hval : replacementChar ∉ input) (hroot : rootOf cs = some root)
    (hl : LL1 (grammarOf cs) root) (hk : ∀ n i j, Within (grammarOf cs) input root n i j → ¬ blockedOf cs input n i j) :
    ∃ N, ∀ n, N ≤ n → ((∃ t, s.Parse n input none = .ok (s', .node t)) ↔ Derives (grammarOf cs) input root 0 input.length) :=
  C57_decisive h hi hs hrec hval hroot (hl.decisive hk)

/-- C57: with one character of lookahead, and no definition that must not match keywords, an input is accepted if and only if it
is derived from the grammar. -/
theorem C57_complete (h : Made cs s) (hi : s.Init = .ok (s', none)) (hs : Straightforward cs)
    (hrec : ∀ n x, ¬ Recurs (grammarOf cs) n x) (hval : replacementChar ∉ input) (hroot : rootOf cs = some root)
    (hl : LL1 (grammarOf cs) root) (hk : ∀ c ∈ cs, c.commit.noKeyword = false) :
    ∃ N, ∀ n, N ≤ n → ((∃ t, s.Parse n input none = .ok (s', .node t)) ↔ Derives (grammarOf cs) input root 0 input.length) := by
  refine C57_lookahead h hi hs hrec hval hroot hl ?_
  rintro n i j - ⟨⟨c, hc, -, hn⟩, -⟩
  rw [hk c hc] at hn
  cases hn

/-! ### Examples -/

/-- `open:alias = "("; close:alias = ")"; comma:alias = ","; num = [0-9]+; group:alias = comma expr;
list = open (expr (comma expr)*)? close; expr:alias = num | list; r:root = expr` -/
def nestedCalls : List Call := [
  .charSequence (runes "open") { alias := true } (runes "("),
  .charSequence (runes "close") { alias := true } (runes ")"),
  .charSequence (runes "comma") { alias := true } (runes ","),
  .class_ (runes "digit") { alias := true } false [] [(48, 57)],
  .sequence (runes "num") {} [{ name := runes "digit", min := 1, max := -1 }],
  .sequence (runes "more") { alias := true } [item "comma", item "expr"],
  .sequence (runes "exprs") { alias := true } [item "expr", { name := runes "more", min := 0, max := -1 }],
  .sequence (runes "list") {} [item "open", { name := runes "exprs", min := 0, max := 1 }, item "close"],
  .choice (runes "expr") { alias := true } [runes "num", runes "list"],
  .sequence (runes "r") { root := true } [item "expr"]]

theorem nested_straight : Straightforward nestedCalls :=
  straightforward_of (fun _ => false)
    (fun n => if n = runes "r" then 5 else if n = runes "exprs" then 4 else if n = runes "expr" then 3
      else if n = runes "num" ∨ n = runes "list" ∨ n = runes "more" then 2
      else if n = runes "open" ∨ n = runes "close" ∨ n = runes "comma" ∨ n = runes "digit" then 1 else 0)
    (by decide +kernel) (by decide +kernel) (by decide +kernel) (by decide +kernel) (by decide +kernel)

theorem nested_ll1 : LL1 (grammarOf nestedCalls) (runes "r") :=
  ll1Test_sound (k := 12) (fun hd => mem_of_lookup hd) (by decide +kernel) _

theorem nested_norec : ∀ n x, ¬ Recurs (grammarOf nestedCalls) n x := by
  intro n x h
  have := (onlyDirect_of (fun _ => false)
    (fun n => if n = runes "r" then 5 else if n = runes "exprs" then 4 else if n = runes "expr" then 3
      else if n = runes "num" ∨ n = runes "list" ∨ n = runes "more" then 2
      else if n = runes "open" ∨ n = runes "close" ∨ n = runes "comma" ∨ n = runes "digit" then 1 else 0) (fun _ => false)
    (nestedCalls.flatMap Call.defs) (fun hd => mem_of_lookup hd) (by decide +kernel) (by decide +kernel)).2 n x h
  cases this

/-- The nested lists are parsed completely. -/
example {input : List Rune} (hval : replacementChar ∉ input) :
    ∃ s', (after nestedCalls).Init = .ok (s', none) ∧ ∃ N, ∀ n, N ≤ n →
      ((∃ t, (after nestedCalls).Parse n input none = .ok (s', .node t)) ↔
        Derives (grammarOf nestedCalls) input (runes "r") 0 input.length) := by
  obtain ⟨s', hi⟩ := init_ok (s := after nestedCalls) (by decide +kernel)
  exact ⟨s', hi, C57_complete (calls_made (calls_ok (by decide +kernel))) hi nested_straight nested_norec hval (by decide +kernel) nested_ll1 (by decide +kernel)⟩

/-- `a:alias = "a"; r:root = a* a` -/
def greedyCalls : List Call := [
  .charSequence (runes "a") { alias := true } (runes "a"),
  .sequence (runes "r") { root := true } [{ name := runes "a", min := 0, max := -1 }, item "a"]]

/-- C57: without one character of lookahead, a text of the grammar may be rejected. -/
theorem C57_greedy_counterexample : Made greedyCalls (after greedyCalls) ∧ (∃ s', (after greedyCalls).Init = .ok (s', none)) ∧
    Straightforward greedyCalls ∧ rootOf greedyCalls = some (runes "r") ∧
    Derives (grammarOf greedyCalls) (runes "a") (runes "r") 0 1 ∧
    ∀ n s' t, (after greedyCalls).Parse n (runes "a") none ≠ .ok (s', .node t) := by
  refine ⟨calls_made (calls_ok (by decide +kernel)), init_ok (by decide +kernel),
    straightforward_of (fun _ => false) (fun n => if n = runes "r" then 2 else if n = runes "a" then 1 else 0)
      (by decide +kernel) (by decide +kernel) (by decide +kernel) (by decide +kernel) (by decide +kernel), by decide +kernel, ?_, ?_⟩
  · have ha : Derives (grammarOf greedyCalls) (runes "a") (runes "a") 0 1 := by
      refine .seq (d := ⟨runes "a", true, .seq [(runes "a:0", 1, 1)]⟩) rfl rfl (.cons (k := 1) (.succ .zero ?_) ?_ .nil)
      · exact .char (d := ⟨runes "a:0", true, .char false [97] []⟩) (t := 97) rfl rfl rfl (by simp [InClass])
      · exact .inl (by decide)
    refine .seq (d := ⟨runes "r", false, .seq [(runes "a", 0, -1), (runes "a", 1, 1)]⟩) rfl rfl
      (.cons (k := 0) .zero (.inl (by decide)) (.cons (k := 1) (.succ .zero ha) (.inl (by decide)) .nil))
  · intro n s' t h
    have hle : ∀ k, n ≤ k → (after greedyCalls).Parse k (runes "a") none = .ok (s', .node t) := fun k hk => by
      rw [(Parse_le _ hk (runes "a") none).eq (by rw [h]; simp), h]
    have h1 : ∃ e, error ((after greedyCalls).Parse (n + 40) (runes "a") none) = some e := by
      obtain ⟨e, he⟩ := Option.isSome_iff_exists.1 (show (error (run greedyCalls 40 (runes "a"))).isSome = true by decide +kernel)
      obtain ⟨s1, h1⟩ := error_ok he
      have h1 : (after greedyCalls).Parse 40 (runes "a") none = _ := h1
      rw [(Parse_le (after greedyCalls) (show 40 ≤ n + 40 by omega) (runes "a") none).eq (by rw [h1]; simp), h1]
      exact ⟨_, rfl⟩
    obtain ⟨e, h1⟩ := h1
    rw [hle (n + 40) (by omega)] at h1
    cases h1

end Treerack
