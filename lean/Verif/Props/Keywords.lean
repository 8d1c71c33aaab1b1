import Verif.Proofs.KeywordCalls
import Verif.Props.Reference
import Verif.Props.Language

/-
C17, C18: keywords.

The checks are exact for sequences, when the keywords are texts: characters, or fixed sequences of characters.
-/

namespace Treerack
open Spec Samples

variable {cs : List Call} {s s' : Syntax} {input : List Rune} {root : Ptr} {c c' : Ctx} {p : Ptr} {d : PDef} {i fuel : Nat}

theorem AttemptsOf.allowed {Q : Ptr → Prop} (L : Linked s.env root) (hval : replacementChar ∉ input) (h : AttemptsOf Q s.env root input c) :
    Inv s.env input none (AllowedH s.env root input) c := by
  induction h with
  | start => exact .init
  | @attempt c c' p i n _ hp _ hi hc ih =>
    exact ((parse_spec L.closed (L.allowed hval) (s.env.bounds _) n p { c with offset := i } hp (ih.at hi)).of_eq hc).inv
  | @check c c' p d i j n b _ hp hd hn hij hi hc ih => exact ((check_spec L.closed (L.allowed hval) ih hi).of_eq hc).2

/-- C17: after any attempts to parse anything anywhere, a sequence or a text with the NoKeyword flag does not match the text of
a keyword that is a text.  The syntax may have left recursion and whitespace definitions.  (Partial: for choices see
`C17_choice_counterexample`, for keywords that are not texts see `C17_memo_counterexample`.  The root is excluded in
syntaxes with whitespace definitions, because it includes the whitespace around it.) -/
theorem C17_match_partial {call k : Call} (h : Made cs s) (hsafe : WsSafe cs) (hi : s.Init = .ok (s', none))
    (hval : replacementChar ∉ input) (hr : s'.root = some root) (ha : Attempts s'.env root input c)
    (hc : call ∈ cs) (hnk : call.commit.noKeyword = true) (hch : call.isChoice = false)
    (hroot : rootOf cs ≠ some call.name ∨ ∀ c ∈ cs, c.commit.whitespace = false)
    (hk : k ∈ cs) (hkk : k.commit.keyword = true) (hkt : k.isText = true)
    (hp : Reach s'.env root p) (hd : s'.env.defs[p]? = some d) (hn : d.name = call.name)
    (hi' : i ≤ c.tokens.length) (hpar : parse s'.env fuel p { c with offset := i } = .ok c') (hm : c'.matchLast = true) :
    ¬ WDerives (wgrammarOf cs) input k.name i c'.offset := by
  obtain ⟨root', U, K⟩ := keyword_parsers h hsafe hi
  have := U.rootEq
  rw [hr] at this; obtain rfl := Option.some.inj this
  obtain ⟨h1, is, rs, ac, h2⟩ := K.rejects hc hnk hch hroot hp hd hn
  obtain ⟨q, e, k1, k2, k3, k4⟩ := K.keyword hk hkk hkt
  have hA := ((parse_spec U.linked.closed (U.linked.allowed hval) (Env.bounds _ _) fuel p _ hp
    ((ha.allowed U.linked hval).at hi')).of_eq hpar).mtch hm
  rw [← k3, ← U.derives q e input i c'.offset (.keyword k1) k2 ⟨k, hk, k3.symm⟩]
  exact hA.2.1.2 d is rs ac hd h2 h1 q k1 k4

/-- C17: no node of a returned tree, at any depth, is the match of a definition with the NoKeyword flag, that is a sequence or a
text, and has the text of a keyword. -/
theorem C17_tree_partial {call k : Call} {rend : Option Nat} {t m : Node} (h : Made cs s) (hsafe : WsSafe cs)
    (hp : s.Parse fuel input rend = .ok (s', .node t)) (hm : Sub m t)
    (hc : call ∈ cs) (hnk : call.commit.noKeyword = true) (hch : call.isChoice = false)
    (hroot : rootOf cs ≠ some call.name ∨ ∀ c ∈ cs, c.commit.whitespace = false) (hn : m.name = call.name)
    (hk : k ∈ cs) (hkk : k.commit.keyword = true) (hkt : k.isText = true) :
    ¬ WDerives (wgrammarOf cs) input k.name m.from_ m.to := by
  obtain ⟨root0, U0, T0⟩ := Parse_node h hsafe hp
  obtain ⟨hi, root, y, hr, hy, hxy⟩ := Parse_init hp (by simp)
  obtain ⟨root', U, K⟩ := keyword_parsers h hsafe hi
  have := U.rootEq
  rw [hr] at this; obtain rfl := Option.some.inj this
  have T := parseInput_spec U.linked.closed (U.linked.allowed T0.valid)
    (let ⟨d, h1, _, h3⟩ := U.linked.rootDef; ⟨d, h1, fun _ => h3⟩) hy
  cases y with
  | error e => simp at hxy
  | ok t' =>
    simp only [Syntax.ParseResult.node.injEq] at hxy
    subst hxy
    obtain ⟨p, d, hR, hd, -, -, hnd, -, -, -, hD⟩ := T.nodes m hm
    obtain ⟨h1, is, rs, ac, h2⟩ := K.rejects hc hnk hch hroot hR hd (by rw [← hnd, hn])
    obtain ⟨q, e, k1, k2, k3, k4⟩ := K.keyword hk hkk hkt
    rw [← k3, ← U.derives q e input m.from_ m.to (.keyword k1) k2 ⟨k, hk, k3.symm⟩]
    exact hD.2 d is rs ac hd h2 h1 q k1 k4

/-- C18: a keyword check does not change what any definition matches at any position, after any attempts, before or after the
check.  (Partial: in syntaxes without whitespace, and with no other left recursion than that of
left recursive options, where the keywords are texts and choices do not have
the NoKeyword flag; otherwise see `C18_counterexample`.) -/
theorem C18_check_partial {q : Ptr} {e : PDef} {c₁ c₂ c₃ : Ctx} {i' j n n' : Nat} {b : Bool} (h : Made cs s)
    (hi : s.Init = .ok (s', none)) (hs : Regular cs) (hval : replacementChar ∉ input) (hr : s'.root = some root)
    (ha : DirectAttempts s'.env root input c) (hq : Reach s'.env root q) (he : s'.env.defs[q]? = some e)
    (hne : e.commit.noKeyword = true) (hij : i' ≤ j) (hi' : i' ≤ c.tokens.length)
    (hck : isKeyword (parse s'.env n') s'.env.keywords c i' j = .ok (b, c₁)) (hp : Reach s'.env root p)
    (ht : ¬ IsTail s'.env p) (hi₁ : i ≤ c.tokens.length) (hi₂ : i ≤ c₁.tokens.length)
    (h₁ : parse s'.env fuel p { c with offset := i } = .ok c₂) (h₂ : parse s'.env n p { c₁ with offset := i } = .ok c₃) :
    c₂.matchLast = c₃.matchLast ∧ (c₂.matchLast = true → c₂.offset = c₃.offset) :=
  C08_independent h hi hs hval hr ha (ha.check hq he hne hij hi' hck) hp ht hi₁ hi₂ h₁ h₂

/-- C18: after any attempts and checks, a check tells exactly whether the definition must not match the text, because it is a
keyword. -/
theorem C18_exact_partial {q : Ptr} {e : PDef} {j : Nat} {b : Bool} (h : Made cs s)
    (hi : s.Init = .ok (s', none)) (hs : Regular cs) (hval : replacementChar ∉ input) (hr : s'.root = some root)
    (ha : DirectAttempts s'.env root input c) (hq : Reach s'.env root q) (he : s'.env.defs[q]? = some e)
    (hne : e.commit.noKeyword = true) (hij : i ≤ j) (hi' : i ≤ c.tokens.length)
    (hck : isKeyword (parse s'.env fuel) s'.env.keywords c i j = .ok (b, c')) :
    b = true ↔ blockedOf cs input e.name i j := by
  obtain ⟨root', hr', T, -, -, m, -, hb⟩ := calls_regular h hi hs
  rw [hr] at hr'; cases hr'
  obtain ⟨f, hf⟩ := T.linked.refs T.free T.grows input
  have K := T.ctxt hval hf
  obtain ⟨h1, h2, -, -⟩ := attempt_exact K ha
  have hE := keyword_exact K hq he (parse_keyword K fuel) h1 h2 hij hi'
  rw [if_pos hne] at hE
  have hE := (hE.of_eq hck).2.2.2
  simp only at hE
  rw [hE, hb input hq, nameAt_env he]

/-! ### Counterexamples -/

/-- `kw:kw = "foo"; sym:root:nokw = "foo" | "bar"` -/
def choiceKwCalls : List Call := [
  .charSequence (runes "kw") { keyword := true } (runes "foo"),
  .charSequence (runes "foo") {} (runes "foo"),
  .charSequence (runes "bar") {} (runes "bar"),
  .choice (runes "sym") { root := true, noKeyword := true } [runes "foo", runes "bar"]]

/-- C17 is not true for choices: the check rejects the match of the option, but the result of the choice was already
recorded. -/
theorem C17_choice_counterexample :
    Made choiceKwCalls (after choiceKwCalls) ∧
    nodes (run choiceKwCalls 60 (runes "foo")) = some [(0, runes "sym", 0, 3), (1, runes "foo", 0, 3)] ∧
    RejectsKeywords choiceKwCalls (runes "sym") ∧ WDerives (wgrammarOf choiceKwCalls) (runes "foo") (runes "kw") 0 3 := by
  have hm : Made choiceKwCalls (after choiceKwCalls) := calls_made (calls_ok (by decide +kernel))
  refine ⟨hm, by decide +kernel, ⟨_, List.mem_of_getElem? (i := 3) rfl, rfl, rfl⟩, ?_⟩
  exact (C20_charSequence hm (ct := { keyword := true }) (chars := runes "foo") (by decide +kernel) (by decide +kernel) 0 3).2
    (by decide +kernel)

/-- `a = "a"; ab = "ab"; kw:kw = a | ab; x:nokw = "a"; b = "b"; c = "c"; kc = kw c; xb = x b; r:root = kc | xb` -/
def memoKwCalls : List Call := [
  .charSequence (runes "a") {} (runes "a"),
  .charSequence (runes "ab") {} (runes "ab"),
  .choice (runes "kw") { keyword := true } [runes "a", runes "ab"],
  .charSequence (runes "x") { noKeyword := true } (runes "a"),
  .charSequence (runes "b") {} (runes "b"),
  .charSequence (runes "c") {} (runes "c"),
  .sequence (runes "kc") {} [item "kw", item "c"],
  .sequence (runes "xb") {} [item "x", item "b"],
  .choice (runes "r") { root := true } [runes "kc", runes "xb"]]

/-- C17 is not true when the keyword is a choice: `kw` was parsed before, with a longer match, and the check finds only that
result. -/
theorem C17_memo_counterexample :
    Made memoKwCalls (after memoKwCalls) ∧
    nodes (run memoKwCalls 100 (runes "ab")) =
      some [(0, runes "r", 0, 2), (1, runes "xb", 0, 2), (2, runes "x", 0, 1), (2, runes "b", 1, 2)] ∧
    RejectsKeywords memoKwCalls (runes "x") ∧ WDerives (wgrammarOf memoKwCalls) (runes "ab") (runes "kw") 0 1 := by
  have hm : Made memoKwCalls (after memoKwCalls) := calls_made (calls_ok (by decide +kernel))
  refine ⟨hm, by decide +kernel, ⟨_, List.mem_of_getElem? (i := 3) rfl, rfl, rfl⟩, ?_⟩
  have ha := (C20_charSequence (input := runes "ab") hm (n := runes "a") (ct := {}) (chars := runes "a") (by decide +kernel)
    (by decide +kernel) 0 1).2 (by decide +kernel)
  have hk := call_grammar hm (c := .choice (runes "kw") { keyword := true } [runes "a", runes "ab"]) (by decide +kernel)
    (x := (runes "kw", { name := runes "kw", alias := false, expr := .choice [runes "a", runes "ab"] })) (by simp [Call.defs])
  rw [wderives_nonroot (by decide +kernel)]
  exact .choice hk rfl (by simp) ha

/-- `a = "a"; ab = "ab"; kw:kw = a | ab; x:nokw = "a"; b = "b"; xb = x b; r:root = ` and the options -/
def limitKwCalls (options : List Name) : List Call := [
  .charSequence (runes "a") {} (runes "a"),
  .charSequence (runes "ab") {} (runes "ab"),
  .choice (runes "kw") { keyword := true } [runes "a", runes "ab"],
  .charSequence (runes "x") { noKeyword := true } (runes "a"),
  .charSequence (runes "b") {} (runes "b"),
  .sequence (runes "xb") {} [item "x", item "b"],
  .choice (runes "r") { root := true } options]

/-- C18 is not true when the keyword is a choice: the check for `x` parses `kw` with the limit at 1, and leaves a match of
`kw` at 1 behind.  The text that is a `kw` is then not accepted, although it is when `kw` is tried first. -/
theorem C18_counterexample :
    (Syntax.calls {} (limitKwCalls [runes "xb", runes "kw"])).isSome = true ∧
    (Syntax.calls {} (limitKwCalls [runes "kw", runes "xb"])).isSome = true ∧
    error (run (limitKwCalls [runes "xb", runes "kw"]) 100 (runes "ab")) = some (.parseError 1 0 1 (runes "r")) ∧
    nodes (run (limitKwCalls [runes "kw", runes "xb"]) 100 (runes "ab")) =
      some [(0, runes "r", 0, 2), (1, runes "kw", 0, 2), (2, runes "ab", 0, 2)] := by
  refine ⟨by decide +kernel, by decide +kernel, by decide +kernel, by decide +kernel⟩

/-! ### Examples -/

/-- Variables and keywords, with left recursion and whitespace:
`letter:alias = [a-z]; if:kw = "if"; var:nokw:nows = letter+; space:ws = " "; call = expr var; expr:alias = call | var | if;
r:root = expr` -/
def varCalls : List Call := [
  .class_ (runes "letter") { alias := true } false [] [(97, 122)],
  .charSequence (runes "if") { keyword := true } (runes "if"),
  .sequence (runes "var") { noKeyword := true, noWhitespace := true } [{ name := runes "letter", min := 1, max := -1 }],
  .charSequence (runes "space") { whitespace := true } (runes " "),
  .sequence (runes "call") {} [item "expr", item "var"],
  .choice (runes "expr") { alias := true } [runes "call", runes "var", runes "if"],
  .sequence (runes "r") { root := true } [item "expr"]]

/-- The assumptions are met, `if` is a keyword, and `iff` is a variable. -/
example : Made varCalls (after varCalls) ∧ WsSafe varCalls ∧ (∃ s', (after varCalls).Init = .ok (s', none)) ∧
    nodes (run varCalls 60 (runes "iff if")) = none ∧
    nodes (run varCalls 60 (runes "if iff")) = some [(0, runes "r", 0, 6), (1, runes "call", 0, 6), (2, runes "if", 0, 2),
      (2, runes "var", 3, 6)] ∧
    nodes (run varCalls 60 (runes "a iff c")) = some [(0, runes "r", 0, 7), (1, runes "call", 0, 7), (2, runes "call", 0, 5),
      (3, runes "var", 0, 1), (3, runes "var", 2, 5), (2, runes "var", 6, 7)] := by
  refine ⟨calls_made (calls_ok (by decide +kernel)), fun _ => ⟨Or.inl ?_, ?_⟩, init_ok (s := after varCalls) (by decide +kernel),
    by decide +kernel, by decide +kernel, by decide +kernel⟩
  · have : varCalls.all (fun c => !c.name.contains colon && c.refs.all fun n => !n.contains colon) = true := by decide +kernel
    intro c hc
    have := List.all_eq_true.1 this c hc
    simp only [Bool.and_eq_true, Bool.not_eq_true', List.all_eq_true] at this
    exact ⟨by simpa [NoColon] using this.1, fun n hn => by simpa [NoColon] using this.2 n hn⟩
  · intro c hc hk
    have : varCalls.all (fun c => !c.commit.keyword || c.isTight) = true := by decide +kernel
    have := List.all_eq_true.1 this c hc
    rw [hk] at this
    exact Or.inl (by simpa using this)

/-- `letter:alias = [a-z]; if:kw = "if"; var:nokw = letter+; expr:alias = if | var; r:root = expr` -/
def plainVarCalls : List Call := [
  .class_ (runes "letter") { alias := true } false [] [(97, 122)],
  .charSequence (runes "if") { keyword := true } (runes "if"),
  .sequence (runes "var") { noKeyword := true } [{ name := runes "letter", min := 1, max := -1 }],
  .choice (runes "expr") { alias := true } [runes "if", runes "var"],
  .sequence (runes "r") { root := true } [item "expr"]]

/-- The assumptions of C18 are met by a syntax with keywords. -/
example : Straightforward plainVarCalls ∧ Made plainVarCalls (after plainVarCalls) ∧
    (∃ s', (after plainVarCalls).Init = .ok (s', none)) ∧
    nodes (run plainVarCalls 60 (runes "if")) = some [(0, runes "r", 0, 2), (1, runes "if", 0, 2)] ∧
    nodes (run plainVarCalls 60 (runes "iff")) = some [(0, runes "r", 0, 3), (1, runes "var", 0, 3)] := by
  refine ⟨straightforward_of (fun _ => false)
      (fun n => if n = runes "r" then 4 else if n = runes "expr" then 3 else if n = runes "if" ∨ n = runes "var" then 2
        else if n = runes "letter" then 1 else 0)
      (by decide +kernel) (by decide +kernel) (by decide +kernel) (by decide +kernel) (by decide +kernel), calls_made (calls_ok (by decide +kernel)), init_ok (s := after plainVarCalls) (by decide +kernel),
    by decide +kernel, by decide +kernel⟩

end Treerack
