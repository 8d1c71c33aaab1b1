import Verif.Proofs.Language
import Verif.Props.Samples

/-
C02, C04, C19, C20: what is accepted, in terms of the definition calls.

`Made cs s`: the definitions `cs` were added to a new syntax by calls of the API or by reading documents, and none of
them failed.
`s.Parse fuel input rend`: the text `input` is parsed; the reader ends with io.EOF (`rend = none`) or with
another error.
-/

namespace Treerack
open Spec Samples

variable {cs : List Call} {s s' : Syntax} {fuel : Nat} {input : List Rune} {rend : Option Nat} {t : Node}

/-- C02: when a tree is returned, then the complete text is derived from the root definition. -/
theorem C02_soundness (h : Made cs s) (hws : ∀ c ∈ cs, c.commit.whitespace = false)
    (hp : s.Parse fuel input rend = .ok (s', .node t)) :
    ∃ root, rootOf cs = some root ∧ Derives (grammarOf cs) input root 0 input.length := by
  obtain ⟨root, U, T⟩ := Parse_node h (fun ⟨c, h1, h2⟩ => by
    rw [Call.isWs, hws c h1] at h2; cases h2) hp
  obtain ⟨d, hd, hn⟩ := U.rootDef
  refine ⟨d.name, hn, ?_⟩
  obtain ⟨d', hd', hk, hal⟩ := U.linked.rootDef
  rw [hd] at hd'
  obtain rfl := Option.some.inj hd'
  have := (U.derives root d input _ _ .root hd (U.visible root d .root hd hk hal).call).1 T.match_
  refine (wderives_iff_noWs (W := wgrammarOf cs) ?_).1 this
  simp only [wgrammarOf, List.map_eq_nil_iff, List.filter_eq_nil_iff]
  intro c hc
  rw [Call.isWs, hws c hc]
  simp

/-- C02, C19: with whitespace definitions, the text is derived with whitespace between the items. -/
theorem C19_soundness_partial (h : Made cs s) (hsafe : WsSafe cs)
    (hp : s.Parse fuel input rend = .ok (s', .node t)) :
    ∃ root, rootOf cs = some root ∧ WDerives (wgrammarOf cs) input root 0 input.length := by
  obtain ⟨root, U, T⟩ := Parse_node h hsafe hp
  obtain ⟨d, hd, hn⟩ := U.rootDef
  refine ⟨d.name, hn, ?_⟩
  obtain ⟨d', hd', hk, hal⟩ := U.linked.rootDef
  rw [hd] at hd'
  obtain rfl := Option.some.inj hd'
  exact (U.derives root d input _ _ .root hd (U.visible root d .root hd hk hal).call).1 T.match_

/-- C04: every node at any depth has the name of a definition call, and its text is derived from that
definition. -/
theorem C04_nodes (h : Made cs s) (hws : ∀ c ∈ cs, c.commit.whitespace = false)
    (hp : s.Parse fuel input rend = .ok (s', .node t)) (m : Node) (hm : Sub m t) :
    (∃ c ∈ cs, c.name = m.name) ∧ Derives (grammarOf cs) input m.name m.from_ m.to := by
  obtain ⟨root, U, T⟩ := Parse_node h (fun ⟨c, h1, h2⟩ => by
    rw [Call.isWs, hws c h1] at h2; cases h2) hp
  obtain ⟨p, d, hR, hd, hk, hal, hn, -, -, -, hD⟩ := T.nodes m hm
  have hv := (U.visible p d hR hd hk hal).call
  rw [hn]
  refine ⟨hv, ?_⟩
  have := (U.derives p d input _ _ hR hd hv).1 hD
  refine (wderives_iff_noWs (W := wgrammarOf cs) ?_).1 this
  simp only [wgrammarOf, List.map_eq_nil_iff, List.filter_eq_nil_iff]
  intro c hc
  rw [Call.isWs, hws c hc]
  simp

/-- C04 with whitespace definitions. -/
theorem C04_nodes_ws_partial (h : Made cs s) (hsafe : WsSafe cs)
    (hp : s.Parse fuel input rend = .ok (s', .node t)) (m : Node) (hm : Sub m t) :
    (∃ c ∈ cs, c.name = m.name) ∧ WDerives (wgrammarOf cs) input m.name m.from_ m.to := by
  obtain ⟨root, U, T⟩ := Parse_node h hsafe hp
  obtain ⟨p, d, hR, hd, hk, hal, hn, -, -, -, hD⟩ := T.nodes m hm
  have hv := (U.visible p d hR hd hk hal).call
  rw [hn]
  exact ⟨hv, (U.derives p d input _ _ hR hd hv).1 hD⟩

/-- C19: after `Init`, the parser of the root derives exactly the texts of the grammar with whitespace
between the items; and so does every parser that has the name of a definition call. -/
theorem C19_language_partial (h : Made cs s) (hsafe : WsSafe cs) (hi : s.Init = .ok (s', none)) :
    ∃ root n, s'.root = some root ∧ rootOf cs = some n ∧
      (∀ input i j, Derives s'.env.grammar input root i j ↔ WDerives (wgrammarOf cs) input n i j) ∧
      ∀ p d, Reach s'.env root p → s'.env.defs[p]? = some d → (∃ c ∈ cs, c.name = d.name) →
        ∀ input i j, Derives s'.env.grammar input p i j ↔ WDerives (wgrammarOf cs) input d.name i j := by
  obtain ⟨root, U⟩ := understood h hsafe hi
  obtain ⟨d, hd, hn⟩ := U.rootDef
  obtain ⟨d', hd', hk, hal⟩ := U.linked.rootDef
  rw [hd] at hd'
  obtain rfl := Option.some.inj hd'
  refine ⟨root, d.name, U.rootEq, hn, fun input i j => ?_, fun p e hp he hc input i j => ?_⟩
  · exact U.derives root d input i j .root hd (U.visible root d .root hd hk hal).call
  · exact U.derives p e input i j hp he hc

/-- C20: a sequence marked NoWhitespace is the concatenation of its items, there is no whitespace between
them. -/
theorem C20_nows (h : Made cs s) {n : Name} {ct : Commit} {items : List SeqItem}
    (hc : Call.sequence n ct items ∈ cs) (hn : ct.noWhitespace = true) (hroot : rootOf cs ≠ some n)
    (i j : Nat) : WDerives (wgrammarOf cs) input n i j ↔
      WTight (wgrammarOf cs) input (items.map fun it => (it.name, bounds it.min it.max)) i j := by
  have hne : cs ≠ [] := by rintro rfl; simp at hc
  obtain ⟨rn, hrn⟩ := rootOf_some hne
  have hr : (wgrammarOf cs).root = rn := by simp [wgrammarOf, hrn]
  have hnr : n ≠ (wgrammarOf cs).root := by
    rintro rfl
    rw [hr] at hroot
    exact hroot hrn
  have hG := call_grammar h hc (x := (n, { name := n, alias := ct.alias, expr := .seq (items.map fun i => (i.name, bounds i.min i.max)) }))
    (by simp [Call.defs])
  have ht : (wgrammarOf cs).tight n = true := by
    simp only [wgrammarOf, List.any_eq_true]
    exact ⟨_, hc, by simp [Call.name, Call.isTight, Call.commit, hn]⟩
  rw [wderives_nonroot hnr]
  exact wbody_tight hG ht

/-- C20: a character sequence derives exactly its characters. -/
theorem C20_charSequence (h : Made cs s) {n : Name} {ct : Commit} {chars : List Rune}
    (hc : Call.charSequence n ct chars ∈ cs) (hroot : rootOf cs ≠ some n) (i j : Nat) :
    WDerives (wgrammarOf cs) input n i j ↔
      j = i + chars.length ∧ (input.drop i).take chars.length = chars := by
  have hne : cs ≠ [] := by rintro rfl; simp at hc
  obtain ⟨rn, hrn⟩ := rootOf_some hne
  have hr : (wgrammarOf cs).root = rn := by simp [wgrammarOf, hrn]
  have hnr : n ≠ (wgrammarOf cs).root := by
    rintro rfl
    rw [hr] at hroot
    exact hroot hrn
  have hG := call_grammar h hc (x := (n, { name := n, alias := ct.alias, expr := .seq ((List.range chars.length).map fun i => once (charName n i)) }))
    (by simp [Call.defs])
  have ht : (wgrammarOf cs).tight n = true := by
    simp only [wgrammarOf, List.any_eq_true]
    exact ⟨_, hc, by simp [Call.name, Call.isTight]⟩
  have key := wtight_chars (W := wgrammarOf cs) (input := input) (chars.zipIdx.map fun x => (charName n x.2, x.1)) (by
    intro x hx
    obtain ⟨y, hy, rfl⟩ := List.mem_map.1 hx
    refine ⟨?_, ?_⟩
    · intro he
      rw [hr] at he
      simp only at he
      obtain ⟨c', hc', rfl⟩ := rootOf_call hrn
      exact call_notChar h hc' (by rw [← he]; exact call_grammar h hc (x := charDef (charName n y.2) false [y.1] []) (by
        simp only [Call.defs, List.mem_append]
        exact Or.inl (List.mem_map.2 ⟨y, hy, rfl⟩))) _ _ _ rfl
    · refine ⟨charName n y.2, true, call_grammar h hc (x := charDef (charName n y.2) false [y.1] []) ?_⟩
      simp only [Call.defs, List.mem_append]
      exact Or.inl (List.mem_map.2 ⟨y, hy, rfl⟩)) i j
  have hlist : (chars.zipIdx.map fun x => (charName n x.2, x.1)).map (fun x => once x.1) =
      (List.range chars.length).map fun i => once (charName n i) := by
    rw [List.map_map]
    rw [show ((fun x : Name × Rune => once x.1) ∘ fun x : Rune × Nat => (charName n x.2, x.1)) =
      (fun i => once (charName n i)) ∘ Prod.snd from rfl, ← List.map_map, List.zipIdx_map_snd, List.range_eq_range']
  rw [hlist] at key
  simp only [List.length_map, List.length_zipIdx, List.map_map] at key
  rw [show (Prod.snd ∘ fun x : Rune × Nat => (charName n x.2, x.1)) = Prod.fst from rfl, List.zipIdx_map_fst] at key
  rw [← key]
  rw [wderives_nonroot hnr]
  exact wbody_tight hG ht

/-! ### Examples -/

/-- Accepted by the grammar without whitespace, with the nodes of the numbers. -/
example : Syntax.calls {} sumCalls = some (after sumCalls) ∧ (∀ c ∈ sumCalls, c.commit.whitespace = false) ∧
    (∃ s' t, (after sumCalls).Parse 30 (runes "1+23") none = .ok (s', .node t)) ∧
    nodes (run sumCalls 30 (runes "1+23")) =
      some [(0, runes "sum", 0, 4), (1, runes "num", 0, 1), (1, runes "num", 2, 4)] :=
  ⟨calls_ok (by decide +kernel), by decide +kernel, tree_ok (x := run sumCalls 30 (runes "1+23")) (by decide +kernel), by decide +kernel⟩

/-- Whitespace between the items of `sum` and `tail`, but not inside of `num`. -/
example : Syntax.calls {} sumWsCalls = some (after sumWsCalls) ∧ WsSafe sumWsCalls ∧
    (∃ s' t, (after sumWsCalls).Parse 30 (runes " 1 + 23 ") none = .ok (s', .node t)) ∧
    nodes (run sumWsCalls 30 (runes " 1 + 23 ")) =
      some [(0, runes "sum", 0, 8), (1, runes "num", 1, 2), (1, runes "num", 5, 7)] ∧
    nodes (run sumWsCalls 30 (runes "1 + 2 3")) = none := by
  refine ⟨calls_ok (by decide +kernel), fun _ => ⟨?_, ?_⟩, tree_ok (x := run sumWsCalls 30 (runes " 1 + 23 ")) (by decide +kernel),
    by decide +kernel, by decide +kernel⟩
  · refine Or.inl ?_; unfold NoColon; decide +kernel
  · intro c hc hk
    have : ∀ c ∈ sumWsCalls, c.commit.keyword = false := by decide +kernel
    rw [this c hc] at hk; cases hk

/-- The definitions of C20 in the sample. -/
example : Call.charSequence (runes "plus") { alias := true } (runes "+") ∈ sumWsCalls ∧
    Call.sequence (runes "num") { noWhitespace := true } [{ name := runes "digit", min := 1, max := -1 }] ∈ sumWsCalls ∧
    rootOf sumWsCalls ≠ some (runes "plus") ∧ rootOf sumWsCalls ≠ some (runes "num") := by decide +kernel

/-! ### Counterexample

The condition `WsSafe` cannot be dropped: a keyword definition that is a sequence is replaced in the
registry when the whitespace is applied, but the list of the keywords keeps the original object with its
original id (syntax.go:326-345, whitespace.go:112-130).  The id collides with that of another definition:
here the text "ab", a keyword, is accepted as the definition `x = c d`. -/

theorem C19_stale_keyword_counterexample :
    nodes (run staleCalls 60 (runes "ab")) = some [(0, runes "r", 0, 2), (1, runes "x", 0, 2)] ∧
    ¬ WDerives (wgrammarOf staleCalls) (runes "ab") (runes "x") 0 2 := by
  refine ⟨by decide +kernel, ?_⟩
  intro h
  have hx : (wgrammarOf staleCalls).G (runes "x") = some { name := runes "x", alias := false, expr := .seq [once (runes "c"), once (runes "d")] } :=
    call_grammar (cs := staleCalls) (s := after staleCalls) (calls_made (calls_ok (by decide +kernel)))
      (c := .sequence (runes "x") {} [item "c", item "d"]) (by decide +kernel)
      (x := (runes "x", { name := runes "x", alias := false, expr := .seq [once (runes "c"), once (runes "d")] })) (by
        simp [Call.defs, item, bounds, once])
  have hc := C20_charSequence (input := runes "ab") (cs := staleCalls) (s := after staleCalls) (calls_made (calls_ok (by decide +kernel)))
    (n := runes "c") (ct := { alias := true }) (chars := runes "c") (by decide +kernel) (by decide +kernel) 0
  rw [wderives_nonroot (by decide +kernel)] at h
  have htight : (wgrammarOf staleCalls).tight (runes "x") = false := by decide +kernel
  cases h with
  | choice h1 h2 => rw [hx] at h1; cases h1; simp at h2
  | tight h1 h2 h3 => rw [htight] at h3; cases h3
  | loose h1 h2 h3 h4 =>
    rw [hx] at h1; cases h1
    simp only [Expr.seq.injEq] at h2
    subst h2
    cases h4 with
    | cons h5 h6 h7 =>
      cases h5 with
      | zero => simp [InRange] at h6
      | first h8 => exact absurd ((hc _).1 h8).2 (by decide +kernel)
      | succ h8 h9 h10 h11 =>
        have := h9 rfl
        simp [InRange] at h6
        omega

end Treerack
