import Verif.Spec.Recursion
import Verif.Props.Reference
import Verif.Props.Language

/-
C39: direct left recursion.

The options of the choice `a` are `fs`, then `bs`, and then `ls`.  Those of `fs` and `ls` are left recursive, they are sequences
that start with one `a`.  What follows it there is a tail.  The options `bs` are the bases.
-/

namespace Treerack
open Spec Samples

namespace Spec

variable {N : Type} {G : Grammar N} {B : N → Nat → Nat → Prop} {input : List Rune} {d : GDef N} {ss bs : List N}

theorem RefChain.tails {i k j : Nat} {ns : List Node} (h : RefChain G B input d ss bs i k j ns) :
    ∀ {ts : List (GDef N × Nat × List Node)} {t : Nat}, Tails G B input ss k j ts t →
      ∃ l ms ts', RefOptions G B input bs i (some (l, ms)) ∧ Tails G B input ss 0 l ts' t ∧
        leftAssoc d input i (d.wrap input i l ms) ts' = leftAssoc d input i ns ts := by
  induction k generalizing j ns with
  | zero =>
    intro ts t ht
    cases h with
    | base h => exact ⟨_, _, _, h, ht, rfl⟩
  | succ k ih =>
    intro ts t ht
    cases h with
    | skip h1 h2 h3 h4 h5 => exact ih h1 (.miss h2 h3 h4 h5 ht)
    | step h1 h2 h3 h4 h5 h6 => exact ih h1 (.hit h2 h3 h4 h5 h6 ht)

theorem Tails.chain {i k j t : Nat} {ts : List (GDef N × Nat × List Node)} (h : Tails G B input ss k j ts t) :
    ∀ {ns : List Node}, RefChain G B input d ss bs i k j ns → ∃ l, RefChain G B input d ss bs i l t (leftAssoc d input i ns ts) := by
  induction h with
  | nil => exact fun hc => ⟨_, hc⟩
  | hit h1 h2 h3 h4 h5 _ ih => exact fun hc => ih (.step hc h1 h2 h3 h4 h5)
  | miss h1 h2 h3 h4 _ ih => exact fun hc => ih (.skip hc h1 h2 h3 h4)

end Spec

variable {cs : List Call} {s s' : Syntax} {input : List Rune} {a t : Name} {ct : Commit} {os fs bs ls : List Name}

/-- What a left recursive choice matches in the reference semantics: the longest of its bases, followed by tails, as long as there
are any; and the nodes are those of the left associative tree. -/
theorem C39_match {N : Type} {G : Grammar N} {B : N → Nat → Nat → Prop} {a : N} {os fs bs ls : List N} {d : GDef N} {i j : Nat}
    {ns : List Node} (hd : G a = some d) (he : d.expr = .choice os) (hr : ∃ t, Recurs G a t) (hg : Growth G a os fs bs ls) :
    Ref G B input a i (some (j, ns)) ↔ ∃ k ms ts, RefOptions G B input bs i (some (k, ms)) ∧
      Tails G B input (ls ++ fs) 0 k ts j ∧ RefFails G B input (ls ++ fs) j ∧ ns = leftAssoc d input i (d.wrap input i k ms) ts := by
  constructor
  · intro h
    obtain ⟨l, h1, h2⟩ := hg.ref_some hd he hr h
    obtain ⟨k, ms, ts, h3, h4, h5⟩ := h1.tails .nil
    exact ⟨k, ms, ts, h3, h4, h2, h5.symm⟩
  · rintro ⟨k, ms, ts, h1, h2, h3, rfl⟩
    obtain ⟨l, h4⟩ := h2.chain (.base h1)
    exact .grow hd he hr hg h4 h3

/-- C39: a left recursive root accepts exactly the texts that are a base followed by any number of tails, and the returned tree is
the left associative one.  (Partial: only without whitespace definitions, when no left recursive option has bases both in front of
it and behind it, when neither `a` nor a tail may match the empty text, and when only `a` refers to the left recursive options; see
the counterexamples.) -/
theorem C39_root_partial (h : Made cs s) (hi : s.Init = .ok (s', none)) (S : Straightforward cs) (hval : replacementChar ∉ input)
    (hc : .choice a ct os ∈ cs) (ht : Recurs (grammarOf cs) a t) (hg : Growth (grammarOf cs) a os fs bs ls)
    (hroot : rootOf cs = some a) :
    ∃ N, ∀ n, N ≤ n → ∀ r, s.Parse n input none = .ok (s', .node r) ↔
      ∃ k ms ts, RefOptions (grammarOf cs) (blockedOf cs input) input bs 0 (some (k, ms)) ∧
        Tails (grammarOf cs) (blockedOf cs input) input (ls ++ fs) 0 k ts input.length ∧
        [r] = leftAssoc ⟨a, ct.alias, .choice os⟩ input 0 ((⟨a, ct.alias, .choice os⟩ : GDef Name).wrap input 0 k ms) ts := by
  have h1 := call_grammar h hc (x := (a, _)) (List.mem_singleton.2 rfl)
  obtain ⟨root, hr', T, hap, m, hroot', hbl⟩ := calls_straight h hi S
  have hex : ∃ x, Ref (grammarOf cs) (blockedOf cs input) input a 0 x := by
    obtain ⟨f, hf⟩ := T.linked.refs T.free T.grows input
    refine ⟨f root 0, ?_⟩
    rw [hroot] at hroot'
    obtain rfl := Option.some.inj hroot'
    exact (m.ref_iff hap (hbl input) T.toParsable .root).2 (hf .root 0)
  have key : ∀ ns, Ref (grammarOf cs) (blockedOf cs input) input a 0 (some (input.length, ns)) ↔
      ∃ k ms ts, RefOptions (grammarOf cs) (blockedOf cs input) input bs 0 (some (k, ms)) ∧
        Tails (grammarOf cs) (blockedOf cs input) input (ls ++ fs) 0 k ts input.length ∧
        ns = leftAssoc ⟨a, ct.alias, .choice os⟩ input 0 ((⟨a, ct.alias, .choice os⟩ : GDef Name).wrap input 0 k ms) ts := by
    intro ns
    rw [C39_match h1 rfl ⟨t, ht⟩ hg]
    constructor
    · rintro ⟨k, ms, ts, k1, k2, k3, k4⟩
      exact ⟨k, ms, ts, k1, k2, k4⟩
    · rintro ⟨k, ms, ts, k1, k2, k4⟩
      refine ⟨k, ms, ts, k1, k2, ?_, k4⟩
      obtain ⟨x, hx⟩ := hex
      obtain ⟨l, hch⟩ := k2.chain (.base (d := ⟨a, ct.alias, .choice os⟩) k1)
      obtain ⟨y, rfl, k5⟩ := hch.ref h1 rfl ⟨t, ht⟩ hg hx
      obtain ⟨_, -, k6⟩ := hg.ref_some h1 rfl ⟨t, ht⟩ hx
      have k7 := (hx.bounded _ rfl).2
      rwa [show y.1 = input.length by omega] at k6
  obtain ⟨N, hN⟩ := C06_exactness h hi S hval hroot
  refine ⟨N, fun n hn r => ?_⟩
  rw [← key]
  constructor
  · exact C09_tree h hi S hval hroot
  · intro hr
    obtain ⟨r', hr'⟩ := (hN n hn).2 ⟨_, hr⟩
    have := C09_tree h hi S hval hroot hr'
    have := hr.unique this
    simp only [Option.some.injEq, Prod.mk.injEq, List.cons.injEq, and_true, true_and] at this
    rw [this]; exact hr'

/-- C39: a left recursive definition anywhere in a syntax: after any attempts, it matches a base and as many tails as there are
behind it, or, when there is no base, then nothing. -/
theorem C39_match_partial {rp p : Ptr} {d : PDef} {c c' : Ctx} {i n : Nat} (h : Made cs s) (hi : s.Init = .ok (s', none))
    (S : Regular cs) (hval : replacementChar ∉ input) (hc : .choice a ct os ∈ cs) (ht : Recurs (grammarOf cs) a t)
    (hg : Growth (grammarOf cs) a os fs bs ls) (hr : s'.root = some rp)
    (ha : DirectAttempts s'.env rp input c) (hp : Reach s'.env rp p) (hd : s'.env.defs[p]? = some d) (hdn : d.name = a)
    (hi' : i ≤ c.tokens.length) (hpar : parse s'.env n p { c with offset := i } = .ok c') :
    (c'.matchLast = true ∧ ∃ k ms ts, RefOptions (grammarOf cs) (blockedOf cs input) input bs i (some (k, ms)) ∧
      Tails (grammarOf cs) (blockedOf cs input) input (ls ++ fs) 0 k ts c'.offset ∧
      RefFails (grammarOf cs) (blockedOf cs input) input (ls ++ fs) c'.offset) ∨
    (c'.matchLast = false ∧ RefOptions (grammarOf cs) (blockedOf cs input) input bs i none) := by
  have h1 := call_grammar h hc (x := (a, _)) (List.mem_singleton.2 rfl)
  obtain ⟨root, hr', T, -, hap, m, -, -⟩ := calls_regular h hi S
  rw [hr] at hr'; obtain rfl := Option.some.inj hr'
  have hnt : ¬ IsTail s'.env p := by
    rintro ⟨q, hq⟩
    obtain ⟨-, -, e, tail, -, -, -, g4, g5⟩ := id hq
    obtain ⟨x, g1, g2⟩ := m.def_ p hp
    rw [g4] at g1; cases g1
    rw [nameAt_env hd, hdn, h1] at g2
    have := congrArg (fun x => x.map GDef.expr) g2
    simp [GDef.map, g5, Expr.map] at this
  rcases C08_memo h hi S hval hr ha hp hnt hd hi' hpar with ⟨k1, ns, k2⟩ | ⟨k1, k2⟩
  · rw [hdn, C39_match h1 rfl ⟨t, ht⟩ hg] at k2
    obtain ⟨k, ms, ts, g1, g2, g3, -⟩ := k2
    exact Or.inl ⟨k1, k, ms, ts, g1, g2, g3⟩
  · rw [hdn] at k2
    exact Or.inr ⟨k1, hg.ref_none h1 rfl ⟨t, ht⟩ k2⟩

/-- The left recursive options of the calls: the sequences that start with exactly one reference to the choice. -/
theorem recurs_iff (h : Made cs s) (hc : .choice a ct os ∈ cs) {ct' : Commit} {items : List SeqItem}
    (ht : .sequence t ct' items ∈ cs) : Recurs (grammarOf cs) a t ↔
      t ∈ os ∧ ∃ it rest, items = it :: rest ∧ it.name = a ∧ bounds it.min it.max = (1, 1) := by
  have h1 := call_grammar h hc (x := (a, _)) (List.mem_singleton.2 rfl)
  have h2 := call_grammar h ht (x := (t, _)) (List.mem_singleton.2 rfl)
  simp only at h1 h2
  constructor
  · rintro ⟨d, os', e, tail, g1, g2, g3, g4, g5⟩
    rw [h1] at g1; cases g1; cases g2
    rw [h2] at g4; cases g4
    cases items with
    | nil => cases g5
    | cons it rest =>
      simp only [List.map_cons, Expr.seq.injEq, List.cons.injEq, Prod.mk.injEq] at g5
      exact ⟨g3, it, rest, rfl, g5.1.1, g5.1.2⟩
  · rintro ⟨g1, it, rest, rfl, rfl, g3⟩
    refine ⟨_, _, _, rest.map fun x => (x.name, bounds x.min x.max), h1, rfl, g1, h2, ?_⟩
    simp only [List.map_cons, g3]

/-! ### Examples -/

/-- `digit:alias = [0-9]; num = digit+; op:alias = "-"; sub = expr op prim; open:alias = "("; close:alias = ")";
group:alias = open expr close; prim:alias = num | group; expr:alias:root = sub | prim`, with the left recursive option first or
last. -/
def subCalls (first : Bool) : List Call := [
  .class_ (runes "digit") { alias := true } false [] [(48, 57)],
  .sequence (runes "num") {} [{ name := runes "digit", min := 1, max := -1 }],
  .charSequence (runes "op") { alias := true } (runes "-"),
  .charSequence (runes "open") { alias := true } (runes "("),
  .charSequence (runes "close") { alias := true } (runes ")"),
  .sequence (runes "sub") {} [item "expr", item "op", item "prim"],
  .sequence (runes "group") { alias := true } [item "open", item "expr", item "close"],
  .choice (runes "prim") { alias := true } [runes "num", runes "group"],
  .choice (runes "expr") { root := true } (if first then [runes "sub", runes "prim"] else [runes "prim", runes "sub"])]

theorem sub_straight (first : Bool) : Straightforward (subCalls first) := by
  cases first <;> exact straightforward_of (fun _ => false)
    (fun n => if n = runes "sub" then 5 else if n = runes "expr" then 4 else if n = runes "prim" then 3
      else if n = runes "num" ∨ n = runes "group" then 2
      else if n = runes "digit" ∨ n = runes "op" ∨ n = runes "open" ∨ n = runes "close" then 1 else 0)
    (by decide +kernel) (by decide +kernel) (by decide +kernel) (by decide +kernel) (by decide +kernel)

/-- The assumptions are met, and the tree of `1-(2-3)-4`. -/
example (first : Bool) : Made (subCalls first) (after (subCalls first)) ∧
    (∃ s', (after (subCalls first)).Init = .ok (s', none)) ∧ rootOf (subCalls first) = some (runes "expr") ∧
    nodes (run (subCalls first) 100 (runes "1-(2-3)-4")) = some [(0, runes "expr", 0, 9), (1, runes "sub", 0, 9),
      (2, runes "expr", 0, 7), (3, runes "sub", 0, 7), (4, runes "expr", 0, 1), (5, runes "num", 0, 1), (4, runes "expr", 3, 6),
      (5, runes "sub", 3, 6), (6, runes "expr", 3, 4), (7, runes "num", 3, 4), (6, runes "num", 5, 6), (2, runes "num", 8, 9)] := by
  cases first
  · exact ⟨calls_made (calls_ok (by decide +kernel)), init_ok (s := after (subCalls false)) (by decide +kernel), by decide +kernel,
      by decide +kernel⟩
  · exact ⟨calls_made (calls_ok (by decide +kernel)), init_ok (s := after (subCalls true)) (by decide +kernel), by decide +kernel,
      by decide +kernel⟩

/-- `p = "+"; m = "-"; n = "1"; add = e p n; sub = e m n; e:root = add | n | sub` -/
def addSubCalls : List Call := [
  .charSequence (runes "p") {} (runes "+"),
  .charSequence (runes "m") {} (runes "-"),
  .charSequence (runes "n") {} (runes "1"),
  .sequence (runes "add") {} [item "e", item "p", item "n"],
  .sequence (runes "sub") {} [item "e", item "m", item "n"],
  .choice (runes "e") { root := true } [runes "add", runes "n", runes "sub"]]

theorem addSub_straight : Straightforward addSubCalls :=
  straightforward_of (fun _ => false)
    (fun n => if n = runes "add" ∨ n = runes "sub" then 3 else if n = runes "e" then 2
      else if n = runes "p" ∨ n = runes "m" ∨ n = runes "n" then 1 else 0)
    (by decide +kernel) (by decide +kernel) (by decide +kernel) (by decide +kernel) (by decide +kernel)

/-- The assumptions are met with two left recursive options, one in front of the base and one behind it, and the tree of
`1+1-1-1`. -/
example : Made addSubCalls (after addSubCalls) ∧ (∃ s', (after addSubCalls).Init = .ok (s', none)) ∧
    rootOf addSubCalls = some (runes "e") ∧ Recurs (grammarOf addSubCalls) (runes "e") (runes "add") ∧
    Growth (grammarOf addSubCalls) (runes "e") [runes "add", runes "n", runes "sub"] [runes "add"] [runes "n"] [runes "sub"] ∧
    nodes (run addSubCalls 100 (runes "1+1-1-1")) = some [(0, runes "e", 0, 7), (1, runes "sub", 0, 7), (2, runes "e", 0, 5),
      (3, runes "sub", 0, 5), (4, runes "e", 0, 3), (5, runes "add", 0, 3), (6, runes "e", 0, 1), (7, runes "n", 0, 1),
      (6, runes "p", 1, 2), (6, runes "n", 2, 3), (4, runes "m", 3, 4), (4, runes "n", 4, 5), (2, runes "m", 5, 6),
      (2, runes "n", 6, 7)] := by
  refine ⟨calls_made (calls_ok (by decide +kernel)), init_ok (by decide +kernel), by decide +kernel,
    isRecursive_iff.1 (by decide +kernel), ⟨rfl, ?_, ?_, ?_, by simp⟩, by decide +kernel⟩
  · intro o ho
    rw [List.mem_singleton.1 ho]
    exact isRecursive_iff.1 (by decide +kernel)
  · intro o ho hr
    rw [List.mem_singleton.1 ho] at hr
    exact absurd (isRecursive_iff.2 hr) (by decide +kernel)
  · intro o ho
    rw [List.mem_singleton.1 ho]
    exact isRecursive_iff.1 (by decide +kernel)

/-! ### Counterexamples -/

/-- `x = "x"; y = "yyy"; b = "xy"; s = a y; a:root = x | s | b` -/
def middleCalls : List Call := [
  .charSequence (runes "x") {} (runes "x"),
  .charSequence (runes "y") {} (runes "yyy"),
  .charSequence (runes "b") {} (runes "xy"),
  .sequence (runes "s") {} [item "a", item "y"],
  .choice (runes "a") { root := true } [runes "x", runes "s", runes "b"]]

/-- C39 is not true when a left recursive option has bases both in front of it and behind it: the tree of `xyyy` has the node of
the left recursive option, but inside of it only the base `xy`, no tail, and the text `xyyyy`, the same base with a tail, is
rejected. -/
theorem C39_middle_counterexample : Made middleCalls (after middleCalls) ∧
    nodes (run middleCalls 60 (runes "xyyy")) = some [(0, runes "a", 0, 4), (1, runes "s", 0, 4), (2, runes "a", 0, 2),
      (3, runes "b", 0, 2)] ∧
    (nodes (run middleCalls 60 (runes "xyyyy"))).isSome = false ∧
    Derives (grammarOf middleCalls) (runes "xyyyy") (runes "a") 0 5 := by
  have hm : Made middleCalls (after middleCalls) := calls_made (calls_ok (by decide +kernel))
  refine ⟨hm, by decide +kernel, by decide +kernel, ?_⟩
  have txt : ∀ {n : Name} {chars : List Rune} {i j : Nat}, .charSequence n {} chars ∈ middleCalls → rootOf middleCalls ≠ some n →
      (j = i + chars.length ∧ ((runes "xyyyy").drop i).take chars.length = chars) →
      Derives (grammarOf middleCalls) (runes "xyyyy") n i j := by
    intro n chars i j h1 h2 h3
    have := (C20_charSequence (input := runes "xyyyy") hm h1 h2 i j).2 h3
    rwa [wderives_iff_noWs (W := wgrammarOf middleCalls) (by decide +kernel)] at this
  have ha := call_grammar hm (c := .choice (runes "a") { root := true } [runes "x", runes "s", runes "b"]) (by decide +kernel)
    (x := (runes "a", _)) (List.mem_singleton.2 rfl)
  have hs := call_grammar hm (c := .sequence (runes "s") {} [item "a", item "y"]) (by decide +kernel)
    (x := (runes "s", _)) (List.mem_singleton.2 rfl)
  have a2 : Derives (grammarOf middleCalls) (runes "xyyyy") (runes "a") 0 2 :=
    .choice ha rfl (o := runes "b") (by simp) (txt (chars := runes "xy") (by decide +kernel) (by decide +kernel) (by decide +kernel))
  have y5 : Derives (grammarOf middleCalls) (runes "xyyyy") (runes "y") 2 5 :=
    txt (chars := runes "yyy") (by decide +kernel) (by decide +kernel) (by decide +kernel)
  have s5 : Derives (grammarOf middleCalls) (runes "xyyyy") (runes "s") 0 5 :=
    .seq hs rfl (.cons (k := 1) (.succ .zero a2) (Or.inl ⟨by decide, by decide⟩) (.cons (k := 1) (.succ .zero y5) (Or.inl ⟨by decide, by decide⟩) .nil))
  exact .choice ha rfl (o := runes "s") (by simp) s5

/-- `x = "x"; b = "b"; s = a x*; a:root = s | b` -/
def emptyTailCalls : List Call := [
  .charSequence (runes "x") {} (runes "x"),
  .charSequence (runes "b") {} (runes "b"),
  .sequence (runes "s") {} [item "a", { name := runes "x", min := 0, max := -1 }],
  .choice (runes "a") { root := true } [runes "s", runes "b"]]

/-- C39 is not true when the tail may match the empty text: the tree of `b` has the node of the left recursive option, but
nothing inside of it. -/
theorem C39_empty_tail_counterexample : Made emptyTailCalls (after emptyTailCalls) ∧
    nodes (run emptyTailCalls 60 (runes "b")) = some [(0, runes "a", 0, 1), (1, runes "s", 0, 1)] ∧
    nodes (run emptyTailCalls 60 (runes "bx")) = some [(0, runes "a", 0, 2), (1, runes "s", 0, 2), (2, runes "a", 0, 1),
      (3, runes "b", 0, 1), (2, runes "x", 1, 2)] :=
  ⟨calls_made (calls_ok (by decide +kernel)), by decide +kernel, by decide +kernel⟩

/-- `x = "x"; b = "b"; s = a x; a = s | b; y = "y"; r:root = s | y` -/
def sharedTailCalls : List Call := [
  .charSequence (runes "x") {} (runes "x"),
  .charSequence (runes "b") {} (runes "b"),
  .sequence (runes "s") {} [item "a", item "x"],
  .choice (runes "a") {} [runes "s", runes "b"],
  .charSequence (runes "y") {} (runes "y"),
  .choice (runes "r") { root := true } [runes "s", runes "y"]]

/-- C39 is not true when another definition refers to the left recursive option: `s` is `a x`, `a` is `b` with any number of
`x`, but inside of `s` it matches only `b`. -/
theorem C39_shared_counterexample : Made sharedTailCalls (after sharedTailCalls) ∧
    (nodes (run sharedTailCalls 60 (runes "bx"))).isSome = true ∧ (nodes (run sharedTailCalls 60 (runes "bxx"))).isSome = false ∧
    Derives (grammarOf sharedTailCalls) (runes "bxx") (runes "r") 0 3 := by
  have hm : Made sharedTailCalls (after sharedTailCalls) := calls_made (calls_ok (by decide +kernel))
  refine ⟨hm, by decide +kernel, by decide +kernel, ?_⟩
  have txt : ∀ {n : Name} {chars : List Rune} {i j : Nat}, .charSequence n {} chars ∈ sharedTailCalls → rootOf sharedTailCalls ≠ some n →
      (j = i + chars.length ∧ ((runes "bxx").drop i).take chars.length = chars) → Derives (grammarOf sharedTailCalls) (runes "bxx") n i j := by
    intro n chars i j h1 h2 h3
    have := (C20_charSequence (input := runes "bxx") hm h1 h2 i j).2 h3
    rwa [wderives_iff_noWs (W := wgrammarOf sharedTailCalls) (by decide +kernel)] at this
  have hx : ∀ i, i = 1 ∨ i = 2 → Derives (grammarOf sharedTailCalls) (runes "bxx") (runes "x") i (i + 1) := by
    rintro i (rfl | rfl) <;> exact txt (chars := runes "x") (by decide +kernel) (by decide +kernel) (by decide +kernel)
  have hr := call_grammar hm (c := .choice (runes "r") { root := true } [runes "s", runes "y"]) (by decide +kernel)
    (x := (runes "r", _)) (List.mem_singleton.2 rfl)
  have ha := call_grammar hm (c := .choice (runes "a") {} [runes "s", runes "b"]) (by decide +kernel)
    (x := (runes "a", _)) (List.mem_singleton.2 rfl)
  have hs := call_grammar hm (c := .sequence (runes "s") {} [item "a", item "x"]) (by decide +kernel)
    (x := (runes "s", _)) (List.mem_singleton.2 rfl)
  have step : ∀ i, i = 1 ∨ i = 2 → Derives (grammarOf sharedTailCalls) (runes "bxx") (runes "a") 0 i →
      Derives (grammarOf sharedTailCalls) (runes "bxx") (runes "s") 0 (i + 1) := fun i hi hd =>
    .seq hs rfl (.cons (k := 1) (.succ .zero hd) (Or.inl ⟨by decide, by decide⟩) (.cons (k := 1) (.succ .zero (hx i hi)) (Or.inl ⟨by decide, by decide⟩) .nil))
  have a1 : Derives (grammarOf sharedTailCalls) (runes "bxx") (runes "a") 0 1 :=
    .choice ha rfl (o := runes "b") (by simp) (txt (chars := runes "b") (by decide +kernel) (by decide +kernel) (by decide +kernel))
  have a2 : Derives (grammarOf sharedTailCalls) (runes "bxx") (runes "a") 0 2 :=
    .choice ha rfl (o := runes "s") (by simp) (step 1 (Or.inl rfl) a1)
  exact .choice hr rfl (o := runes "s") (by simp) (step 2 (Or.inr rfl) a2)

end Treerack
