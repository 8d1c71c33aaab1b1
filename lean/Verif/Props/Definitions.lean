import Verif.Proofs.WsInit
import Verif.Props.Outcome

/-
C21-C27: definitions and initialization.

`Syntax.calls {} cs = some s`: the definition calls `cs` were made on an empty syntax, all of them were accepted.
`Attempted cs s`: any definition calls were made, `cs` are the accepted ones.  `History s`: any definition calls,
Init calls and Parse calls were made.
-/

namespace Treerack
open Spec Samples

variable {cs : List Call} {s s' : Syntax}

/-! ### C21 -/

/-- C21: a definition with an invalid name, with incompatible flags, with the name of an accepted definition
or a second explicit root is rejected, after any definition calls. -/
theorem C21_rejected (h : Attempted cs s) (c : Call) (hn : ¬ Acceptable cs c) : ∃ s' e, s.call c = (s', some e) := by
  generalize hx : s.call c = x
  obtain ⟨s', e⟩ := x
  cases e with
  | some e => exact ⟨s', e, rfl⟩
  | none =>
    obtain ⟨hv, hc⟩ := call_needs hx
    refine absurd ⟨(valid_iff _).1 hv, (compatible_iff _).1 hc.flags, ?_, ?_⟩ hn
    · intro c' hc' he
      exact h.names.1 c' hc' (by rw [he]; exact hc.fresh)
    · intro hr c' hc'
      cases hr' : c'.commit.root with
      | false => rfl
      | true =>
        have := h.names.2 c' hc' hr'
        rw [hc.root hr] at this; cases this

/-- C21: an initialized syntax accepts no definition, and it does not change. -/
theorem C21_initialized (h : s.initialized = true) (c : Call) : ∃ e, s.call c = (s, some e) := by
  obtain ⟨-, -, -, hk⟩ := call_keeps s c
  generalize hx : s.call c = x at hk
  obtain ⟨s', e⟩ := x
  have : s' = s := hk h
  subst this
  cases e with
  | some e => exact ⟨e, rfl⟩
  | none =>
    obtain ⟨-, hc⟩ := call_needs hx
    rw [hc.notInit] at h; cases h

/-- C21: otherwise, a definition is accepted.  (Partial: not after calls that were rejected, see the
counterexample.) -/
theorem C21_accepted_partial (h : Syntax.calls {} cs = some s) (c : Call) :
    (∃ s', s.call c = (s', none)) ↔ Acceptable cs c := call_iff h c

/-- C21: all the calls are accepted exactly when each one is fine after the ones before. -/
theorem C21_calls (cs : List Call) : (∃ s, Syntax.calls {} cs = some s) ↔
    ∀ pre c post, cs = pre ++ c :: post → Acceptable pre c := calls_iff cs

/-- Non-trivial syntaxes are accepted. -/
example : (∃ s, Syntax.calls {} sumWsCalls = some s) ∧ (∃ s, Syntax.calls {} staleCalls = some s) :=
  ⟨⟨_, calls_ok (by decide +kernel)⟩, ⟨_, calls_ok (by decide +kernel)⟩⟩

/-- The reasons to reject a definition, after the calls of the sample. -/
example : ¬ Acceptable sumCalls (.choice (runes "a b") {} []) ∧
    ¬ Acceptable sumCalls (.choice (runes "x") { alias := true, root := true } []) ∧
    ¬ Acceptable sumCalls (.choice (runes "num") {} []) ∧
    ¬ Acceptable sumCalls (.choice (runes "x") { root := true } []) := by
  refine ⟨fun h => ?_, fun h => ?_, fun h => ?_, fun h => ?_⟩
  · exact absurd ((valid_iff _).2 h.name) (by decide +kernel)
  · exact absurd ((compatible_iff _).2 h.flags) (by decide +kernel)
  · exact h.fresh (.sequence (runes "num") { noWhitespace := true } [{ name := runes "digit", min := 1, max := -1 }])
      (by decide +kernel) rfl
  · have := h.root rfl (.sequence (runes "sum") { root := true }
      [{ name := runes "num" }, { name := runes "tail", min := 0, max := -1 }]) (by decide +kernel)
    cases this

/-- An empty syntax after a rejected `a:alias:root = [x]`. -/
def afterRejected : Syntax := (Syntax.call {} (.class_ (runes "a") { alias := true, root := true } false (runes "x") [])).1

/-- C21, counterexample: the character parser of a rejected class stays registered, therefore the corrected
definition is rejected, too. -/
theorem C21_counterexample : ∃ s c, Attempted [] s ∧ Acceptable [] c ∧ ∃ s' e, s.call c = (s', some e) := by
  refine ⟨afterRejected, .class_ (runes "a") {} false (runes "x") [],
    .rejected (c := .class_ (runes "a") { alias := true, root := true } false (runes "x") [])
      (e := .incompatibleCommit (runes "a")) .empty (Prod.ext rfl (by decide +kernel)), ?_, _,
    .duplicateDefinition (runes "a:0"), Prod.ext rfl (by decide +kernel)⟩
  exact ⟨(valid_iff _).1 (by decide +kernel), (compatible_iff _).1 (by decide +kernel), by simp, by simp⟩

/-! ### C22 -/

/-- `r = [x]` -/
def oneClass : List Call := [.class_ (runes "r") {} false (runes "x") []]

/-- A rejected second definition of `r`. -/
def oneClassAgain : Syntax := ((after oneClass).call (.class_ (runes "r") {} false (runes "x") [])).1

/-- C22, counterexample: the text "x" is accepted before a rejected definition, and not accepted
after it: the rejected character parser became the root. -/
theorem C22_root_counterexample :
    Syntax.calls {} oneClass = some (after oneClass) ∧
    (after oneClass).call (.class_ (runes "r") {} false (runes "x") []) =
      (oneClassAgain, some (.duplicateDefinition (runes "r:0"))) ∧
    nodes ((after oneClass).Parse 20 (runes "x") none) = some [(0, runes "r", 0, 1)] ∧
    nodes (oneClassAgain.Parse 20 (runes "x") none) = none :=
  ⟨calls_ok (by decide +kernel), Prod.ext rfl (by decide +kernel), by decide +kernel, by decide +kernel⟩

/-- `letter:alias = [a-z]; name:nokw = letter+; root:root = name` -/
def nameCalls : List Call := [
  .class_ (runes "letter") { alias := true } false [] [(97, 122)],
  .sequence (runes "name") { noKeyword := true } [{ name := runes "letter", min := 1, max := -1 }],
  .sequence (runes "root") { root := true } [item "name"]]

/-- The rejected definition `letter:kw = letter`. -/
def nameAgain : Syntax := ((after nameCalls).call (.sequence (runes "letter") { keyword := true } [item "letter"])).1

/-- C22, counterexample: a rejected definition becomes a keyword. -/
theorem C22_keyword_counterexample :
    Syntax.calls {} nameCalls = some (after nameCalls) ∧
    (after nameCalls).call (.sequence (runes "letter") { keyword := true } [item "letter"]) =
      (nameAgain, some (.duplicateDefinition (runes "letter"))) ∧
    nodes ((after nameCalls).Parse 30 (runes "x") none) = some [(0, runes "root", 0, 1), (1, runes "name", 0, 1)] ∧
    nodes (nameAgain.Parse 30 (runes "x") none) = none :=
  ⟨calls_ok (by decide +kernel), Prod.ext rfl (by decide +kernel), by decide +kernel, by decide +kernel⟩

/-- C22: a definition with an invalid name has no effect. -/
theorem C22_name_partial (c : Call) (hn : ¬ ValidName c.name) : s.call c = (s, some .invalidSymbolName) := by
  have hv : isValidSymbol c.name = false := by
    cases hv : isValidSymbol c.name with
    | false => rfl
    | true => exact absurd ((valid_iff _).1 hv) hn
  cases c <;> simp only [Call.name] at hv <;>
    simp [Syntax.call, Syntax.AnyChar, Syntax.Class, Syntax.CharSequence, Syntax.Sequence, Syntax.Choice, hv]

example : ¬ ValidName (runes "a b") := fun h => absurd ((valid_iff _).2 h) (by decide +kernel)

/-! ### C23 -/

/-- C23: after a successful Init, the syntax is initialized: a further Init succeeds and has no effect. -/
theorem C23_again (hi : s.Init = .ok (s', none)) : s'.initialized = true ∧ s'.Init = .ok (s', none) := by
  have h2 : s'.Init = .ok (s', none) := (Init_again hi).1 rfl
  refine ⟨?_, h2⟩
  cases hb : s'.initialized with
  | true => rfl
  | false =>
    exfalso
    rw [Syntax.Init_eq] at hi
    split at hi
    · cases hi
    · split at hi
      · cases hi; simp_all
      · split at hi
        · cases hi
        · split at hi
          · cases hi
          · split at hi
            · cases hi
            · obtain ⟨⟨s1, r1⟩, -, hi⟩ := Res.bind_eq_ok hi
              unfold Syntax.finishInit at hi
              obtain ⟨⟨h1, e1⟩, -, hi⟩ := Res.bind_eq_ok hi
              cases e1 with
              | some e1 => cases hi
              | none =>
                obtain ⟨h2, -, hi⟩ := Res.bind_eq_ok hi
                cases hi
                cases hb

/-- C23: after a successful Init, whatever is called next: the syntax stays the same, every definition is rejected,
every Init succeeds. -/
theorem C23_initialized {t : Syntax} (hi : s.Init = .ok (s', none)) (hl : Later s' t) :
    t = s' ∧ t.Init = .ok (t, none) ∧ (∀ c, ∃ e, t.call c = (t, some e)) ∧
      ∀ document, ∃ e, t.ReadSyntax document = .ok (t, some e) := by
  obtain ⟨h1, h2⟩ := C23_again hi
  have ht : t = s' := by
    induction hl with
    | refl => rfl
    | call c _ ih =>
      subst ih
      obtain ⟨e, he⟩ := C21_initialized h1 c
      rw [he]
    | init _ hi2 ih => subst ih; rw [h2] at hi2; cases hi2; rfl
    | parse _ hp ih =>
      subst ih
      obtain ⟨e, hi2⟩ := Parse_state hp
      rw [h2] at hi2; cases hi2; rfl
    | read _ hr ih => subst ih; exact (keeps_registers.readSyntax hr).2.2.2 h1
  subst ht
  exact ⟨rfl, h2, C21_initialized h1, fun d => ⟨_, by unfold Syntax.ReadSyntax; rw [if_pos h1]⟩⟩

/-- C23: the same after a Parse call that did not report a syntax error. -/
theorem C23_parsed {t : Syntax} {fuel : Nat} {input : List Rune} {rend : Option Nat} {x : Syntax.ParseResult}
    (hp : s.Parse fuel input rend = .ok (s', x)) (hx : ∀ e, x ≠ .syntaxError e) (hl : Later s' t) :
    t = s' ∧ t.Init = .ok (t, none) ∧ (∀ c, ∃ e, t.call c = (t, some e)) ∧
      ∀ document, ∃ e, t.ReadSyntax document = .ok (t, some e) := by
  rcases Parse_cases hp with ⟨e, -, rfl⟩ | ⟨root, y, hi, -⟩
  · exact absurd rfl (hx e)
  · exact C23_initialized hi hl

/-- C23: when the validation failed (an undefined reference), every later Init and Parse fails. -/
theorem C23_failed {t : Syntax} {n : Name} (hi : s.Init = .ok (s', some (.parserNotFound n))) (hl : Later s' t) :
    t.Init = .ok (t, some .initFailed) ∧
    ∀ fuel input rend, t.Parse fuel input rend = .ok (t, .syntaxError .initFailed) := by
  have h1 : s'.initFailed = true := by
    rw [Syntax.Init_eq] at hi
    split at hi
    · cases hi
    · split at hi
      · cases hi
      · split at hi
        · cases hi
        · split at hi
          · cases hi
          · split at hi
            · cases hi
            · obtain ⟨⟨s1, r1⟩, -, hi⟩ := Res.bind_eq_ok hi
              exact (finishInit_error hi).1
  have hinit : ∀ {u : Syntax}, u.initFailed = true → u.Init = .ok (u, some .initFailed) := by
    intro u hu
    rw [Syntax.Init_eq, if_pos hu]
  have ht : t.initFailed = true := by
    induction hl with
    | refl => exact h1
    | call c _ ih => rw [(call_keeps _ c).2.1]; exact ih
    | init _ hi2 ih => rw [hinit ih] at hi2; cases hi2; exact ih
    | parse _ hp ih =>
      obtain ⟨e, hi2⟩ := Parse_state hp
      rw [hinit ih] at hi2; cases hi2; exact ih
    | read _ hr ih => rw [(keeps_registers.readSyntax hr).2.1]; exact ih
  refine ⟨hinit ht, fun fuel input rend => ?_⟩
  unfold Syntax.Parse
  rw [hinit ht]
  rfl

/-- C23: without definitions, Init fails. -/
theorem C23_empty (h : History s) (hr : s.root = none) : ∃ e, s.Init = .ok (s, some e) := by
  rw [Syntax.Init_eq]
  by_cases hf : s.initFailed = true
  · exact ⟨_, by rw [if_pos hf]⟩
  · rw [if_neg hf]
    by_cases hi : s.initialized = true
    · obtain ⟨r, d, h1, -⟩ := h.root.init hi
      rw [hr] at h1; cases h1
    · exact ⟨_, by rw [if_neg hi, hr]⟩

example : Syntax.Init {} = .ok ({}, some .noParsersDefined) := rfl

/-- `r = x`, the definition of `x` is missing. -/
def missingCalls : List Call := [.sequence (runes "r") {} [item "x"]]

/-- The result of `Init`, without the syntax. -/
def initError (s : Syntax) : Option (Option SynErr) :=
  match s.Init with
  | .ok (_, e) => some e
  | _ => none

/-- Does `Init` panic? -/
def initPanics (s : Syntax) : Bool :=
  match s.Init with
  | .panic => true
  | _ => false

theorem init_error {s : Syntax} {e : Option SynErr} (h : initError s = some e) : ∃ s', s.Init = .ok (s', e) := by
  unfold initError at h
  split at h
  · cases h; exact ⟨_, by assumption⟩
  · cases h

/-- Both cases happen. -/
example : (∃ s', (after sumWsCalls).Init = .ok (s', none)) ∧
    ∃ s', (after missingCalls).Init = .ok (s', some (.parserNotFound (runes "x"))) :=
  ⟨init_ok (s := after sumWsCalls) (by decide +kernel), init_error (s := after missingCalls) (by decide +kernel)⟩

/-! ### C24 -/

/-- C24: Init succeeds exactly when every needed name is defined, otherwise it names a needed name that is not
defined.  It returns in both cases.  Needed are the root, the keywords and the whitespace definitions, and the names referenced
by needed definitions.  With whitespace definitions, the references must be symbols (they must not refer
to the definitions that Init generates). -/
theorem C24_references (h : Made cs s) (hne : cs ≠ [])
    (hpl : (∃ c ∈ cs, c.commit.whitespace = true) → PlainNames cs) (hR : RootCompatible cs) :
    ∃ s' e, s.Init = .ok (s', e) ∧ (e = none ↔ ∀ n, Needed cs n → grammarOf cs n ≠ none) ∧
      ∀ x, e = some x → ∃ n, Needed cs n ∧ grammarOf cs n = none ∧ x = .parserNotFound n :=
  Init_needed h hne hpl hR

/-- C24: when the flags of the root are not compatible, Init fails. -/
theorem C24_incompatible (h : Made cs s) (hne : cs ≠ []) (hR : ¬ RootCompatible cs) :
    ∃ n, rootOf cs = some n ∧ s.Init = .ok (s, some (.incompatibleCommit n)) := Init_incompatible h hne hR

/-- C24: Init returns after any calls, when it does not panic. -/
theorem C24_terminates (h : History s) : s.Init ≠ .oof := init_terminates h

/-- `space:ws = " "; r = [x]` -/
def spaceCalls : List Call := [.charSequence (runes "space") { whitespace := true } (runes " "),
  .class_ (runes "r") {} false (runes "x") []]

/-- The same with a rejected second definition of `r`. -/
def spaceAgain : Syntax := ((after spaceCalls).call (.class_ (runes "r") {} false (runes "x") [])).1

/-- After a rejected definition, Init can panic: there is no registered root definition. -/
theorem C24_rejected_counterexample :
    Syntax.calls {} spaceCalls = some (after spaceCalls) ∧
    (after spaceCalls).call (.class_ (runes "r") {} false (runes "x") []) =
      (spaceAgain, some (.duplicateDefinition (runes "r:0"))) ∧
    (∃ s', (after spaceCalls).Init = .ok (s', none)) ∧ initPanics spaceAgain = true :=
  ⟨calls_ok (by decide +kernel), Prod.ext rfl (by decide +kernel), init_ok (s := after spaceCalls) (by decide +kernel),
    by decide +kernel⟩

/-- A cyclic syntax, and one with a missing reference. -/
example : Syntax.calls {} cyclicCalls = some (after cyclicCalls) ∧ cyclicCalls ≠ [] ∧
    RootCompatible cyclicCalls ∧ PlainNames sumWsCalls ∧
    (∃ s', (after cyclicCalls).Init = .ok (s', none)) ∧
    Syntax.calls {} missingCalls = some (after missingCalls) ∧ RootCompatible missingCalls ∧
    Needed missingCalls (runes "x") ∧ grammarOf missingCalls (runes "x") = none := by
  refine ⟨calls_ok (by decide +kernel), by decide +kernel, ?_, by refine Or.inl ?_; unfold NoColon; decide +kernel,
    init_ok (s := after cyclicCalls) (by decide +kernel), calls_ok (by decide +kernel), ?_, ?_, by decide +kernel⟩
  · intro c hc _
    have : ∀ c ∈ cyclicCalls, rootOf cyclicCalls = some c.name → Commit.incompatible { c.commit with root := true } = false := by
      decide +kernel
    exact (compatible_iff _).1 (this c hc (by assumption))
  · intro c hc _
    have : ∀ c ∈ missingCalls, Commit.incompatible { c.commit with root := true } = false := by decide +kernel
    exact (compatible_iff _).1 (this c hc)
  · refine ⟨runes "r", Or.inl (by decide +kernel), .step .refl (d := ⟨runes "r", false, .seq [(runes "x", 1, 1)]⟩) rfl ?_⟩
    simp [GDef.refs]

/-! ### C25 -/

/-- C25: the root after accepted definitions: the one marked as root, or the last one. -/
theorem C25_root_partial (h : Made cs s) (hne : cs ≠ []) :
    ∃ root n, s.root = some root ∧ rootOf cs = some n ∧ s.nameAt root = n := by
  have C := made_called h
  obtain ⟨root, hr⟩ := Option.ne_none_iff_exists'.1 (C.rootSome hne)
  obtain ⟨n, hn⟩ := rootOf_some hne
  refine ⟨root, n, hr, hn, ?_⟩
  have := C.root n hn
  simpa [Syntax.rootName, hr] using this

/-- What `rootOf` means: the name of the only definition that is marked, or that of the last one. -/
theorem rootOf_marked (h : Made cs s) {c : Call} (hc : c ∈ cs) (hr : c.commit.root = true) :
    rootOf cs = some c.name ∧ ∀ c' ∈ cs, c'.commit.root = true → c' = c := by
  have hu : ∀ c' ∈ cs, c'.commit.root = true → c' = c := by
    intro c' hc' hr'
    exact made_root_unique h hc' hr' hc hr
  refine ⟨?_, hu⟩
  unfold rootOf
  cases hx : (cs.filter fun c => c.commit.root).head? with
  | none =>
    rw [List.head?_eq_none_iff, List.filter_eq_nil_iff] at hx
    exact absurd hr (hx c hc)
  | some x =>
    have hm := List.mem_filter.1 (List.mem_of_mem_head? hx)
    obtain rfl := hu x hm.1 hm.2
    rfl

theorem rootOf_last (hn : ∀ c ∈ cs, c.commit.root = false) : rootOf cs = cs.getLast?.map Call.name := by
  unfold rootOf
  have : cs.filter (fun c => c.commit.root) = [] := by
    rw [List.filter_eq_nil_iff]
    intro c hc
    simp [hn c hc]
  rw [this]
  rfl

/-- C25: the root of the initialized parsers has that name, and it is not an alias. -/
theorem C25_parser (h : Made cs s) (hsafe : WsSafe cs) (hi : s.Init = .ok (s', none)) :
    ∃ root d n, s'.root = some root ∧ s'.env.defs[root]? = some d ∧ rootOf cs = some n ∧ d.name = n ∧
      d.commit.alias = false := by
  obtain ⟨root, U⟩ := understood h hsafe hi
  obtain ⟨d, h1, h2⟩ := U.rootDef
  obtain ⟨d', k1, -, k3⟩ := U.linked.rootDef
  obtain rfl := Option.some.inj (h1.symm.trans k1)
  exact ⟨root, d, d.name, U.rootEq, h1, h2, rfl, k3⟩

/-- C25: after any calls, also rejected ones, the root of an initialized syntax is not an alias, unless it
is a character parser (which a rejected definition can leave behind). -/
theorem C25_alias (h : History s) (hi : s.Init = .ok (s', none)) :
    ∃ root d, s'.root = some root ∧ s'.heap[root]? = some d ∧ (d.kind.isChar = true ∨ d.commitType.alias = false) := by
  obtain ⟨-, -, -, hr⟩ := h.initialized hi
  exact hr

/-- Both kinds of roots. -/
example : rootOf sumWsCalls = some (runes "sum") ∧ rootOf oneClass = some (runes "r") := by decide +kernel

/-! ### C26 -/

/-- The definition objects that are used after Init, with their references. -/
def Def.LinkedIn (d : Def) (s : Syntax) : Prop :=
  match d.kind with
  | .char _ _ _ => True
  | .choice os ds => os.map s.registry.lookup = ds.map some
  | .seq _ items ds ranges ac =>
      items.map (fun i => s.registry.lookup i.name) = ds.map some ∧
      ranges.take items.length = items.map (fun i => (i.min, i.max)) ∧
      (ac = true ↔ ∀ q ∈ ds, ∃ e, s.heap[q]? = some e ∧ e.kind.isChar = true)

/-- C26: after Init, the options and the items refer to the definitions that are registered with the referenced
names, the ranges are those of the items, and the sequences of characters are recognized.  After any calls. -/
theorem C26_linked {root p : Ptr} {d : Def} (h : History s) (hi : s.Init = .ok (s', none)) (hr : s'.root = some root)
    (hp : Reach s'.env root p) (hd : s'.heap[p]? = some d) : d.LinkedIn s' := by
  obtain ⟨-, -, hl, -⟩ := h.initialized hi
  obtain ⟨s0, root', hb, hok, hr', -⟩ := hl.prep
  rw [hr] at hr'
  obtain rfl := Option.some.inj hr'
  obtain ⟨d', k1, -, k2, -⟩ := hok.done _ (hok.reach hp)
  obtain rfl := Option.some.inj (hd.symm.trans k1)
  have hreg : s'.registry = s0.registry := by rw [hok.same]
  unfold Def.LinkedIn
  unfold DKind.Resolved at k2
  cases hk : d.kind with
  | char => trivial
  | choice os ds => rw [hk] at k2; rw [hreg]; exact k2
  | seq orig items ds ranges ac =>
    rw [hk] at k2
    obtain ⟨g1, -, ⟨t, g3⟩, g4⟩ := k2
    refine ⟨by rw [hreg]; exact g1, ?_, ?_⟩
    · rw [g3, List.take_left' (by simp)]
      rfl
    · rw [g4, List.all_eq_true]
      have : ∀ q, isCharDef s0.heap q = true ↔ ∃ e, s'.heap[q]? = some e ∧ e.kind.isChar = true := by
        intro q
        rw [← isCharDef_sk hok.sk]
        unfold isCharDef
        cases s'.heap[q]? with
        | none => simp
        | some e =>
          obtain ⟨_, _, _, _, _, _, kind⟩ := e
          cases kind <;> simp [DKind.isChar]
      exact ⟨fun h q hq => (this q).1 (h q hq), fun h q hq => (this q).2 (h q hq)⟩

/-- Every item of an initialized sequence has a range. -/
theorem init_ranges {root p : Ptr} {d : PDef} {is : List Ptr} {rs : List (Int × Int)} {ac : Bool} (h : History s)
    (hi : s.Init = .ok (s', none)) (hr : s'.root = some root) (hp : Reach s'.env root p)
    (hd : s'.env.defs[p]? = some d) (hk : d.kind = .seq is rs ac) : is.length ≤ rs.length := by
  obtain ⟨-, -, hl, -⟩ := h.initialized hi
  obtain ⟨s0, root', hb, hok, hr', -⟩ := hl.prep
  rw [hr] at hr'
  obtain rfl := Option.some.inj hr'
  exact hok.ranges hp hd hk

/-- C26: the linked parsers, with the references replaced by the names of the parsers they point to, are the definitions
of the calls (without whitespace definitions). -/
theorem C26_grammar_partial (h : Made cs s) (hw : ∀ c ∈ cs, c.commit.whitespace = false)
    (hi : s.Init = .ok (s', none)) {root p : Ptr} (hr : s'.root = some root) (hp : Reach s'.env root p) :
    ∃ d, s'.env.grammar p = some d ∧ grammarOf cs (s'.nameAt p) = some (d.map s'.nameAt) := by
  have C := made_called h
  have hnw : ¬ s.HasWhitespace := by
    rw [C.whitespace]
    rintro ⟨c, hc, hcw⟩
    rw [hw c hc] at hcw; cases hcw
  obtain ⟨root', -, R⟩ := Init_noWs C.built.inv hnw C.rootNotChar hi
  rw [R.rootEq] at hr
  obtain rfl := Option.some.inj hr
  rw [← C.grammar]
  exact R.morphism.def_ p hp

/-- C26: distinct parsers have distinct ids in the result store.  (Partial: when keywords are not rewritten by the
whitespace, see the counterexample.) -/
theorem C26_ids_partial (h : Made cs s) (hsafe : WsSafe cs) (hi : s.Init = .ok (s', none))
    {root p q : Ptr} {d e : PDef} (hr : s'.root = some root) (hp : Reach s'.env root p) (hq : Reach s'.env root q)
    (hd : s'.env.defs[p]? = some d) (he : s'.env.defs[q]? = some e) (hdc : d.kind.isChar = false)
    (hec : e.kind.isChar = false) (hid : d.id = e.id) : p = q := by
  obtain ⟨root', U⟩ := understood h hsafe hi
  rw [U.rootEq] at hr
  obtain rfl := Option.some.inj hr
  exact U.linked.ids hp hq hd he hdc hec hid

/-- C26, counterexample: in `staleCalls`, the keyword `kw` and the definition `x` have the same id. -/
theorem C26_ids_counterexample :
    Syntax.calls {} staleCalls = some (after staleCalls) ∧ (after staleCalls).Init = .ok (initOf staleCalls, none) ∧
    ∃ root p q d e, (initOf staleCalls).root = some root ∧ Reach (initOf staleCalls).env root p ∧
      Reach (initOf staleCalls).env root q ∧ (initOf staleCalls).env.defs[p]? = some d ∧
      (initOf staleCalls).env.defs[q]? = some e ∧ d.kind.isChar = false ∧ e.kind.isChar = false ∧ d.id = e.id ∧ p ≠ q := by
  refine ⟨calls_ok (by decide +kernel), init_of (by decide +kernel), ?_⟩
  have key : ∃ root k is x, (initOf staleCalls).root = some root ∧ (initOf staleCalls).env.keywords.head? = some k ∧
      follow (initOf staleCalls).env is root = some x ∧ x ≠ k ∧
      (((initOf staleCalls).env.defs[k]?).map fun d => (d.kind.isChar, d.id)) =
        (((initOf staleCalls).env.defs[x]?).map fun d => (d.kind.isChar, d.id)) ∧
      (((initOf staleCalls).env.defs[k]?).map fun d => d.kind.isChar) = some false := by
    exact ⟨((initOf staleCalls).root).getD 0, ((initOf staleCalls).env.keywords.head?).getD 0, [1, 1],
      (follow (initOf staleCalls).env [1, 1] (((initOf staleCalls).root).getD 0)).getD 0, by decide +kernel⟩
  obtain ⟨root, k, is, x, h1, h2, h3, h4, h5, h6⟩ := key
  have hk : k ∈ (initOf staleCalls).env.keywords := List.mem_of_mem_head? (by rw [h2]; rfl)
  obtain ⟨d, hd, hd2⟩ := Option.map_eq_some_iff.1 h6
  rw [hd] at h5
  obtain ⟨e, he, he2⟩ := Option.map_eq_some_iff.1 h5.symm
  simp only [Prod.mk.injEq] at he2
  exact ⟨root, k, x, d, e, h1, .keyword hk, follow_reach .root h3, hd, he, hd2, by rw [he2.1]; exact hd2,
    he2.2.symm, fun h => h4 h.symm⟩

/-! ### C27 -/

/-- C27: a generalization of a parser is the id of a choice that has the parser as an option, directly or through
nested choices; the choice derives the texts that the parser derives.  After any calls. -/
theorem C27_generalizations {root p : Ptr} {d : PDef} {g : Nat} (h : History s) (hi : s.Init = .ok (s', none))
    (hr : s'.root = some root) (hd : s'.env.defs[p]? = some d) (hg : g ∈ d.gens) :
    ∃ q e, Reach s'.env root q ∧ s'.env.defs[q]? = some e ∧ e.id = g ∧ Generalizes s'.env q p ∧
      ∀ input i j, Derives s'.env.grammar input p i j → Derives s'.env.grammar input q i j := by
  obtain ⟨-, -, hl, -⟩ := h.initialized hi
  obtain ⟨s0, root', hb, hok, hr', -⟩ := hl.prep
  rw [hr] at hr'
  obtain rfl := Option.some.inj hr'
  obtain ⟨d1, e1, rfl⟩ := Syntax.env_get hd
  obtain ⟨q, e, k1, k2, k3, k4⟩ := hok.gens p d1 e1 g hg
  obtain ⟨e', g1, g2⟩ := hok.sk.to k2
  have hG := k4.generalizes hok k1
  exact ⟨q, e'.toPDef, Reach.of_refs hok k1, by simp [Syntax.env, g1], by show e'.id = g; rw [Def.sk_id g2, k3],
    hG, fun _ _ _ h => hG.derives h⟩

/-- C27: the id belongs only to choices of that kind. -/
theorem C27_unique_partial {root p q : Ptr} {d e : PDef} (h : Made cs s) (hsafe : WsSafe cs)
    (hi : s.Init = .ok (s', none)) (hr : s'.root = some root) (hp : Reach s'.env root p) (hq : Reach s'.env root q)
    (hd : s'.env.defs[p]? = some d) (he : s'.env.defs[q]? = some e) (hdc : d.kind.isChar = false)
    (hec : e.kind.isChar = false) (hg : e.id ∈ d.gens) : Generalizes s'.env q p := by
  obtain ⟨root', U⟩ := understood h hsafe hi
  rw [U.rootEq] at hr
  obtain rfl := Option.some.inj hr
  obtain ⟨q', e', k1, k2, k3, k4⟩ := U.linked.gens hp hd hdc hg
  obtain rfl := U.linked.ids k1 hq k2 he (k4.nonchar k2) hec k3
  exact k4

/-- There are generalizations in the sample: the option `s` of the choice `c`. -/
example : ∃ root p d g, (initOf optCalls).root = some root ∧ Reach (initOf optCalls).env root p ∧
    (initOf optCalls).env.defs[p]? = some d ∧ d.name = runes "s" ∧ g ∈ d.gens := by
  have key : ∃ root p, (initOf optCalls).root = some root ∧ follow (initOf optCalls).env [0, 0] root = some p ∧
      (((initOf optCalls).env.defs[p]?).map fun d => (decide (d.name = runes "s"), d.gens.isEmpty)) = some (true, false) :=
    ⟨((initOf optCalls).root).getD 0, (follow (initOf optCalls).env [0, 0] (((initOf optCalls).root).getD 0)).getD 0,
      by decide +kernel⟩
  obtain ⟨root, p, h1, h2, h3⟩ := key
  obtain ⟨d, hd, hd2⟩ := Option.map_eq_some_iff.1 h3
  simp only [Prod.mk.injEq, decide_eq_true_eq, List.isEmpty_eq_false_iff_exists_mem] at hd2
  obtain ⟨g, hg⟩ := hd2.2
  exact ⟨root, p, d, g, h1, follow_reach .root h2, hd, hd2.1, hg⟩

end Treerack
