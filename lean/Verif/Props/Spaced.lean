import Verif.Proofs.SpacedParse
import Verif.Props.Keywords
import Verif.Props.Recursion

/-
C05, C06, C07, C08, C09, C13, C16, C18, C39 in syntaxes with whitespace definitions: parsing follows the reference semantics
(Spec/Reference.lean) of the grammar in which the whitespace is explicit (Spec/Spaced.lean).

`StraightforwardWs cs`: there is a whitespace definition, the names are symbols or numbered members (as in documents), the keywords are
not rewritten by the whitespace, when there are NoKeyword definitions and keywords, then the first are not choices and the second are
texts, the calls refer to other definitions by the names given by calls, and the grammar with explicit whitespace has no other left
recursion than that of choices of the form `a = s | b` or `a = b | s`, where `s = a tail`.
-/

namespace Treerack
open Spec Samples

variable {cs : List Call} {s s' : Syntax} {input : List Rune} {root : Name}

/-- C06: Parse accepts an input if and only if the reference semantics of the root matches all of it. -/
theorem C06_exactness_ws (h : Made cs s) (hi : s.Init = .ok (s', none)) (hs : StraightforwardWs cs)
    (hval : replacementChar ∉ input) (hroot : rootOf cs = some root) :
    ∃ N, ∀ n, N ≤ n → ((∃ t, s.Parse n input none = .ok (s', .node t)) ↔
      ∃ ns, RefWs cs input (.given root) 0 (some (input.length, ns))) := by
  obtain ⟨N, r, hne, hN⟩ := C01_termination (made_history h) hi input none
  refine ⟨N, fun n hn => ?_⟩
  have hE := Parse_exact_ws h hi hs hval hroot n
  constructor
  · rintro ⟨t, ht⟩
    exact ⟨_, (hE.of_eq ht).2⟩
  · intro hacc
    cases hp : s.Parse n input none with
    | oof => rw [hN n hn] at hp; exact absurd hp hne
    | panic => rw [hp] at hE; exact absurd hacc hE
    | ok x =>
      obtain ⟨s1, x⟩ := x
      obtain ⟨rfl, hE⟩ := hE.of_eq hp
      simp only at hE
      cases x with
      | node t => exact ⟨t, rfl⟩
      | error e => exact absurd hacc hE
      | syntaxError e => exact hE.elim

/-- C09: the returned tree is the one of the reference semantics. -/
theorem C09_tree_ws {n : Nat} {t : Node} (h : Made cs s) (hi : s.Init = .ok (s', none))
    (hs : StraightforwardWs cs) (hval : replacementChar ∉ input) (hroot : rootOf cs = some root)
    (hp : s.Parse n input none = .ok (s', .node t)) : RefWs cs input (.given root) 0 (some (input.length, [t])) :=
  ((Parse_exact_ws h hi hs hval hroot n).of_eq hp).2

/-- C06, C09: when the reference semantics of the root matches the text, then Parse returns its tree. -/
theorem C09_accepted_ws {ns : List Node} (h : Made cs s) (hi : s.Init = .ok (s', none))
    (hs : StraightforwardWs cs) (hval : replacementChar ∉ input) (hroot : rootOf cs = some root)
    (hr : RefWs cs input (.given root) 0 (some (input.length, ns))) :
    ∃ N t, ns = [t] ∧ ∀ n, N ≤ n → s.Parse n input none = .ok (s', .node t) := by
  obtain ⟨N, hN⟩ := C06_exactness_ws h hi hs hval hroot
  obtain ⟨t, ht⟩ := (hN N (Nat.le_refl _)).2 ⟨ns, hr⟩
  have h1 := C09_tree_ws h hi hs hval hroot ht
  have := hr.unique h1
  cases this
  exact ⟨N, t, rfl, fun n hn => by rw [(Parse_le s hn input none).eq (by rw [ht]; simp), ht]⟩

/-- C13: an accepted text does not lead to a panic. -/
theorem C13_accepted_ws_partial {n : Nat} (h : Made cs s) (hi : s.Init = .ok (s', none))
    (hs : StraightforwardWs cs) (hval : replacementChar ∉ input) (hroot : rootOf cs = some root)
    (hp : s.Parse n input none = .panic) : ¬ ∃ ns, RefWs cs input (.given root) 0 (some (input.length, ns)) := by
  have := Parse_exact_ws h hi hs hval hroot n
  rw [hp] at this
  exact this

/-- C05: the nodes of the returned tree are nested and in the order of the text. -/
theorem C05_nested_ws {n : Nat} {t : Node} (h : Made cs s) (hi : s.Init = .ok (s', none))
    (hs : StraightforwardWs cs) (hval : replacementChar ∉ input) (hroot : rootOf cs = some root)
    (hp : s.Parse n input none = .ok (s', .node t)) : Nested t :=
  ((C09_tree_ws h hi hs hval hroot hp).tidy _ _ rfl).2 t (by simp)

/-- C08: after any parse calls of any definitions at any positions, with any results, a definition matches at a position what
the reference semantics says.  (The left recursive options are only parsed by their choice.) -/
theorem C08_memo_ws {rp : Ptr} {c c' : Ctx} {p : Ptr} {d : PDef} {call : Call} {i n : Nat} (h : Made cs s)
    (hi : s.Init = .ok (s', none)) (hs : RegularWs cs) (hval : replacementChar ∉ input) (hr : s'.root = some rp)
    (ha : DirectAttempts s'.env rp input c) (hp : Reach s'.env rp p) (ht : ¬ IsTail s'.env p) (hd : s'.env.defs[p]? = some d)
    (hc : call ∈ cs) (hn : d.name = call.name) (hi' : i ≤ c.tokens.length)
    (hpar : parse s'.env n p { c with offset := i } = .ok c') :
    (c'.matchLast = true ∧ ∃ ns, RefWs cs input (.given call.name) i (some (c'.offset, ns))) ∨
    (c'.matchLast = false ∧ RefWs cs input (.given call.name) i none) := by
  obtain ⟨root, f, K⟩ := calls_spaced h hi hs
  obtain rfl := Option.some.inj (hr.symm.trans K.rootEq)
  have key := attempt_ref K.parsable hval ha hp ht hi' hpar
  rw [← K.call hc hp hd hn]
  simp only [K.ref_iff hp]
  exact key

/-- C08: the result at a position is the same whatever was tried before.  (This includes the definitions that are generated for the
whitespace.) -/
theorem C08_independent_ws {rp : Ptr} {c₁ c₁' c₂ c₂' : Ctx} {p : Ptr} {i n₁ n₂ : Nat} (h : Made cs s)
    (hi : s.Init = .ok (s', none)) (hs : RegularWs cs) (hval : replacementChar ∉ input) (hr : s'.root = some rp)
    (ha₁ : DirectAttempts s'.env rp input c₁) (ha₂ : DirectAttempts s'.env rp input c₂) (hp : Reach s'.env rp p)
    (ht : ¬ IsTail s'.env p)
    (hi₁ : i ≤ c₁.tokens.length) (hi₂ : i ≤ c₂.tokens.length)
    (hc₁ : parse s'.env n₁ p { c₁ with offset := i } = .ok c₁') (hc₂ : parse s'.env n₂ p { c₂ with offset := i } = .ok c₂') :
    c₁'.matchLast = c₂'.matchLast ∧ (c₁'.matchLast = true → c₁'.offset = c₂'.offset) := by
  obtain ⟨root, f, K⟩ := calls_spaced h hi hs
  obtain rfl := Option.some.inj (hr.symm.trans K.rootEq)
  exact attempts_agree K.parsable hval ha₁ ha₂ hp ht hi₁ hi₂ hc₁ hc₂

/-- C18: a keyword check has no effect on what is matched later. -/
theorem C18_check_ws_partial {rp p q : Ptr} {e : PDef} {c c₁ c₂ c₃ : Ctx} {i i' j n n' fuel : Nat} {b : Bool} (h : Made cs s)
    (hi : s.Init = .ok (s', none)) (hs : RegularWs cs) (hval : replacementChar ∉ input) (hr : s'.root = some rp)
    (ha : DirectAttempts s'.env rp input c) (hq : Reach s'.env rp q) (he : s'.env.defs[q]? = some e)
    (hne : e.commit.noKeyword = true) (hij : i' ≤ j) (hi' : i' ≤ c.tokens.length)
    (hck : isKeyword (parse s'.env n') s'.env.keywords c i' j = .ok (b, c₁)) (hp : Reach s'.env rp p)
    (ht : ¬ IsTail s'.env p) (hi₁ : i ≤ c.tokens.length) (hi₂ : i ≤ c₁.tokens.length)
    (h₁ : parse s'.env fuel p { c with offset := i } = .ok c₂) (h₂ : parse s'.env n p { c₁ with offset := i } = .ok c₃) :
    c₂.matchLast = c₃.matchLast ∧ (c₂.matchLast = true → c₂.offset = c₃.offset) :=
  C08_independent_ws h hi hs hval hr ha (ha.check hq he hne hij hi' hck) hp ht hi₁ hi₂ h₁ h₂

/-- C18: after any attempts and checks, a check tells exactly whether the text is a keyword. -/
theorem C18_exact_ws_partial {rp q : Ptr} {e : PDef} {c c' : Ctx} {i j fuel : Nat} {b : Bool} (h : Made cs s)
    (hi : s.Init = .ok (s', none)) (hs : RegularWs cs) (hval : replacementChar ∉ input) (hr : s'.root = some rp)
    (ha : DirectAttempts s'.env rp input c) (hq : Reach s'.env rp q) (he : s'.env.defs[q]? = some e)
    (hne : e.commit.noKeyword = true) (hij : i ≤ j) (hi' : i ≤ c.tokens.length)
    (hck : isKeyword (parse s'.env fuel) s'.env.keywords c i j = .ok (b, c')) : b = true ↔ SpacedKeyword cs input i j := by
  obtain ⟨root, f, S⟩ := calls_spaced h hi hs
  obtain rfl := Option.some.inj (hr.symm.trans S.rootEq)
  have T := S.parsable
  obtain ⟨g, hg⟩ := T.linked.refs T.free T.grows input
  have K := T.ctxt hval hg
  obtain ⟨h1, h2, -, -⟩ := attempt_exact K ha
  have hE := keyword_exact K hq he (parse_keyword K fuel) h1 h2 hij hi'
  rw [if_pos hne] at hE
  have hE := (hE.of_eq hck).2.2.2
  simp only at hE
  rw [hE, S.blocked input hq]
  exact ⟨fun hx => hx.2, fun hx => ⟨(S.flag hq he).1 hne, hx⟩⟩

/-- The items behind the first one, with the whitespace. -/
def tailOf (cs : List Call) (t : Name) (items : List SeqItem) : List (Part Name × Int × Int) :=
  if (wgrammarOf cs).tight t then items.map fun x => (.given x.name, bounds x.min x.max)
  else spacedItems t 1 (items.map fun x => (x.name, bounds x.min x.max))

/-- A left recursive option in a syntax with whitespace definitions, and its tail. -/
theorem C39_option_ws {a t : Name} {ct : Commit} {it : SeqItem} {items : List SeqItem} (h : Made cs s)
    (ht : .sequence t ct (it :: items) ∈ cs) (hn : it.name = a) (hb : bounds it.min it.max = (1, 1)) (hrt : (wgrammarOf cs).root ≠ t) :
    ∃ dt, spaced (wgrammarOf cs) (.given t) = some dt ∧ dt.expr = .seq ((.given a, 1, 1) :: tailOf cs t items) := by
  have h2 := call_grammar h ht (x := (t, _)) (List.mem_singleton.2 rfl)
  simp only [List.map_cons, hn, hb] at h2
  have h2' : (wgrammarOf cs).G t = _ := h2
  refine ⟨_, by simp only [spaced, h2', Option.map_some, if_neg hrt.symm]; rfl, ?_⟩
  simp only [WGrammar.inner, tailOf]
  split
  · simp [Expr.map, Function.comp_def]
  · simp [spacedItems, spacedItem, lead]

/-- C39: a left recursive definition in a syntax with whitespace definitions: after any attempts, it matches a base and as many
tails as there are behind it, with whitespace between them, or, when there is no base, then nothing.  (A left recursive root with
whitespace around it is not directly left recursive.) -/
theorem C39_match_ws_partial {a : Name} {t : Part Name} {ct : Commit} {os : List Name} {fs bs ls : List (Part Name)} {rp p : Ptr}
    {d : PDef} {c c' : Ctx} {i n : Nat} (h : Made cs s) (hi : s.Init = .ok (s', none)) (hs : RegularWs cs)
    (hval : replacementChar ∉ input) (hc : .choice a ct os ∈ cs) (hra : rootOf cs ≠ some a)
    (ht : Recurs (spaced (wgrammarOf cs)) (.given a) t) (hg : Growth (spaced (wgrammarOf cs)) (.given a) (os.map .given) fs bs ls)
    (hr : s'.root = some rp) (ha : DirectAttempts s'.env rp input c) (hp : Reach s'.env rp p) (hd : s'.env.defs[p]? = some d)
    (hdn : d.name = a) (hi' : i ≤ c.tokens.length) (hpar : parse s'.env n p { c with offset := i } = .ok c') :
    (c'.matchLast = true ∧ ∃ k ms ts,
      RefOptions (spaced (wgrammarOf cs)) (spacedBlocked cs input) input bs i (some (k, ms)) ∧
      Tails (spaced (wgrammarOf cs)) (spacedBlocked cs input) input (ls ++ fs) 0 k ts c'.offset ∧
      RefFails (spaced (wgrammarOf cs)) (spacedBlocked cs input) input (ls ++ fs) c'.offset) ∨
    (c'.matchLast = false ∧ RefOptions (spaced (wgrammarOf cs)) (spacedBlocked cs input) input bs i none) := by
  have h1 := call_grammar h hc (x := (a, _)) (List.mem_singleton.2 rfl)
  obtain ⟨root, f, K⟩ := calls_spaced h hi hs
  obtain rfl := Option.some.inj (hr.symm.trans K.rootEq)
  have na : a ≠ (wgrammarOf cs).root := fun hh => hra (by rw [K.rootName, hh])
  have h1' : (wgrammarOf cs).G a = _ := h1
  obtain ⟨da, g1, g2⟩ : ∃ da, spaced (wgrammarOf cs) (.given a) = some da ∧ da.expr = .choice (os.map .given) :=
    ⟨_, by simp only [spaced, h1', Option.map_some, if_neg na]; rfl, rfl⟩
  have hnt : ¬ IsTail s'.env p := by
    rintro ⟨q, hq⟩
    obtain ⟨-, -, e, tail, -, -, -, k4, k5⟩ := id hq
    obtain ⟨x, k1, k2⟩ := K.morphism.def_ p hp
    rw [k4] at k1; cases k1
    rw [K.call hc hp hd hdn] at k2
    obtain ⟨gd, k6, k7⟩ := (relabeled _ _).back k2
    have k6 : spaced (wgrammarOf cs) (.given a) = some gd := k6
    rw [g1] at k6
    obtain rfl := Option.some.inj k6
    have := k7.expr
    simp [GDef.map, k5, Expr.map, g2] at this
  rcases C08_memo_ws h hi hs hval hr ha hp hnt hd hc hdn hi' hpar with ⟨k1, ns, k2⟩ | ⟨k1, k2⟩
  · obtain ⟨k, ms, ts, l1, l2, l3, -⟩ := (C39_match g1 g2 ⟨t, ht⟩ hg).1 k2
    exact Or.inl ⟨k1, k, ms, ts, l1, l2, l3⟩
  · exact Or.inr ⟨k1, hg.ref_none g1 g2 ⟨t, ht⟩ k2⟩

/-! ### Examples -/

/-- The ranks of the definitions, for the criterion. -/
def partRank (r : Name → Nat) (top : Name) : Part Name → Nat
  | .given n => if n = top then 9 else r n
  | .space => 2
  | .rest _ _ => 7
  | .several _ _ => 7
  | .body => 8

/-- The sums with whitespace meet the assumptions. -/
theorem sumWs_straight : StraightforwardWs sumWsCalls :=
  straightforwardWs_of (fun _ => false)
    (partRank (fun n => if n = runes "num" ∨ n = runes "tail" then 3
      else if n = runes "digit" ∨ n = runes "plus" ∨ n = runes "space" then 1 else 0) (runes "sum"))
    (by decide +kernel) (by decide +kernel) (by decide +kernel) (by decide +kernel) (by decide +kernel) (by decide +kernel)

/-- A syntax with whitespace, keywords and left recursion. -/
theorem var_straight : StraightforwardWs varCalls :=
  straightforwardWs_of (fun _ => false)
    (partRank (fun n => if n = runes "call" then 5 else if n = runes "expr" then 4 else if n = runes "var" ∨ n = runes "if" then 3
      else if n = runes "letter" ∨ n = runes "space" then 1 else 0) (runes "r"))
    (by decide +kernel) (by decide +kernel) (by decide +kernel) (by decide +kernel) (by decide +kernel) (by decide +kernel)

theorem sample_refWs {n : Nat} {s' : Syntax} {r : Syntax.ParseResult}
    (hc : Made cs (after cs)) (hi : ∃ s', (after cs).Init = .ok (s', none)) (hs : StraightforwardWs cs)
    (hval : replacementChar ∉ input) (hr : rootOf cs = some root) (h : run cs n input = .ok (s', r)) :
    match (generalizing := false) r with
    | .node t => RefWs cs input (.given root) 0 (some (input.length, [t]))
    | .error _ => ¬ ∃ ns, RefWs cs input (.given root) 0 (some (input.length, ns))
    | .syntaxError _ => False := by
  obtain ⟨s1, hi⟩ := hi
  exact ((Parse_exact_ws hc hi hs hval hr n).of_eq h).2

/-- The assumptions are met, the reference semantics accepts a text, and does not accept another one, because of the keyword. -/
example : (∃ ns, RefWs varCalls (runes " a  iff") (.given (runes "r")) 0 (some (7, ns))) ∧
    nodes (run varCalls 60 (runes " a  iff")) = some [(0, runes "r", 0, 7), (1, runes "call", 1, 7), (2, runes "var", 1, 2),
      (2, runes "var", 4, 7)] ∧
    ¬ ∃ ns, RefWs varCalls (runes "a if") (.given (runes "r")) 0 (some (4, ns)) := by
  have hi := init_ok (s := after varCalls) (by decide +kernel)
  have hc : Made varCalls (after varCalls) := calls_made (calls_ok (by decide +kernel))
  have hr : rootOf varCalls = some (runes "r") := by decide +kernel
  refine ⟨?_, by decide +kernel, ?_⟩
  · obtain ⟨s1, t, ht⟩ := tree_ok (x := run varCalls 60 (runes " a  iff")) (by decide +kernel)
    exact ⟨_, sample_refWs hc hi var_straight (by decide +kernel) hr ht⟩
  · obtain ⟨s1, ht⟩ := error_ok (x := run varCalls 60 (runes "a if")) (e := Option.get (error (run varCalls 60 (runes "a if"))) (by decide +kernel)) (by simp)
    exact sample_refWs hc hi var_straight (by decide +kernel) hr ht

/-- The left recursive definition of the syntax meets the assumptions of C39. -/
example : .choice (runes "expr") { alias := true } [runes "call", runes "var", runes "if"] ∈ varCalls ∧
    rootOf varCalls ≠ some (runes "expr") ∧
    tailOf varCalls (runes "call") [item "var"] = [(.space, 0, -1), (.given (runes "var"), 1, 1)] ∧
    Recurs (spaced (wgrammarOf varCalls)) (.given (runes "expr")) (.given (runes "call")) ∧
    Growth (spaced (wgrammarOf varCalls)) (.given (runes "expr")) ([runes "call", runes "var", runes "if"].map .given)
      [.given (runes "call")] [.given (runes "var"), .given (runes "if")] [] := by
  refine ⟨by decide +kernel, by decide +kernel, by decide +kernel, isRecursive_iff.1 (by decide +kernel), ⟨rfl, ?_, ?_, ?_, by simp⟩⟩
  · intro o ho
    rw [List.mem_singleton.1 ho]
    exact isRecursive_iff.1 (by decide +kernel)
  · intro o ho hr
    have : o = .given (runes "var") ∨ o = .given (runes "if") := by simpa using ho
    rcases this with rfl | rfl <;> exact absurd (isRecursive_iff.2 hr) (by decide +kernel)
  · intro o ho; cases ho

end Treerack
