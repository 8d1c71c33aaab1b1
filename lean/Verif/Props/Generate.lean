import Verif.Proofs.GenNames
import Verif.Props.Definitions
import Verif.Props.Language
import Verif.Props.Reference
import Verif.Props.Unreachable

/-
C36, C37: the generated code.

`s.Generate = .ok (s', .ok prog)`: the call of `Generate` wrote the program `prog`.  `prog.run` runs it: the statements
build the parsers and the builders, and the same runtime code is called with them.
-/

namespace Treerack
open Spec Samples

section

variable {cs : List Call} {s s' : Syntax} {prog : Program}

theorem Generate_cases (h : s.Generate = .ok (s', .ok prog)) :
    ∃ root, s.Init = .ok (s', none) ∧ s'.root = some root ∧ generateProgram s'.env root = .ok prog := by
  unfold Syntax.Generate at h
  obtain ⟨⟨s1, e⟩, h1, h⟩ := Res.bind_eq_ok h
  cases e with
  | some e => cases h
  | none =>
    simp only at h
    cases hr : s1.root with
    | none => rw [hr] at h; cases h
    | some root =>
      rw [hr] at h
      simp only at h
      obtain ⟨p, h2, h⟩ := Res.bind_eq_ok h
      cases h
      exact ⟨root, h1, hr, h2⟩

theorem result_of_init {root : Ptr} (hi : s.Init = .ok (s', none)) (hr : s'.root = some root) (fuel : Nat)
    (input : List Rune) (rend : Option Nat) : s.result fuel input rend =
      (parseInput s'.env fuel root input rend).bind fun r => .ok (asResult r) := by
  unfold Syntax.result Syntax.Parse
  rw [hi]
  simp only [Res.bind_ok, hr]
  cases parseInput s'.env fuel root input rend with
  | ok r => cases r <;> rfl
  | panic => rfl
  | oof => rfl

/-- C23: a call of `Generate` that succeeds leaves an initialized syntax behind, which nothing changes later. -/
theorem C23_generated {t : Syntax} (h : s.Generate = .ok (s', .ok prog)) (hl : Later s' t) :
    t = s' ∧ t.Init = .ok (t, none) ∧ (∀ c, ∃ e, t.call c = (t, some e)) ∧
      ∀ document, ∃ e, t.ReadSyntax document = .ok (t, some e) := by
  obtain ⟨_, hi, -⟩ := Generate_cases h
  exact C23_initialized hi hl

/-- C36: code is generated exactly when the initialization succeeds.  (Partial: the references do not
point into character classes and sequences, and `WsSafe`.) -/
theorem C36_generated_partial (h : Made cs s) (hpl : PlainRefs cs) (hsafe : WsSafe cs) :
    (s.Init = .ok (s', none) ↔ ∃ prog, s.Generate = .ok (s', .ok prog)) ∧
    ∀ e, s.Init = .ok (s', some e) ↔ s.Generate = .ok (s', .error e) := by
  refine ⟨⟨fun hi => ?_, fun ⟨prog, hg⟩ => ?_⟩, fun e => ⟨fun hi => ?_, fun hg => ?_⟩⟩
  · obtain ⟨root, hr, hG⟩ := generatable h hi hpl hsafe
    obtain ⟨d, hd⟩ := hG.distinct.def_ .root
    obtain ⟨prog, hp, -⟩ := generateProgram_spec hG hd
    exact ⟨prog, by unfold Syntax.Generate; rw [hi]; simp only [Res.bind_ok, hr, hp]⟩
  · obtain ⟨root, hi, -⟩ := Generate_cases hg
    exact hi
  · unfold Syntax.Generate; rw [hi]; rfl
  · unfold Syntax.Generate at hg
    obtain ⟨⟨s1, e'⟩, h1, hg⟩ := Res.bind_eq_ok hg
    cases e' with
    | some e' => cases hg; exact h1
    | none =>
      simp only at hg
      cases hr : s1.root with
      | none => rw [hr] at hg; cases hg
      | some root =>
        rw [hr] at hg
        simp only at hg
        obtain ⟨p, h2, hg⟩ := Res.bind_eq_ok hg
        cases hg

/-- C36: every variable of a parser or of a builder is declared once and in front of its use, including the uses in the
list of the keywords and in the call of the runtime.  (Partial: the references do not point into character classes and
sequences, and `WsSafe`, see the counterexamples.) -/
theorem C36_declared_partial (h : Made cs s) (hpl : PlainRefs cs) (hsafe : WsSafe cs)
    (hg : s.Generate = .ok (s', .ok prog)) :
    WellDeclared prog.parsers (prog.keywords ++ [prog.rootParser]) ∧
    WellDeclared prog.builders [prog.rootBuilder] := by
  obtain ⟨root, hi, hr, hp⟩ := Generate_cases hg
  obtain ⟨root', hr', hG⟩ := generatable h hi hpl hsafe
  obtain rfl := Option.some.inj (hr'.symm.trans hr)
  obtain ⟨d, hd⟩ := hG.distinct.def_ .root
  obtain ⟨prog', hp', h1, h2, -⟩ := generateProgram_spec hG hd
  rw [hp'] at hp
  cases hp
  exact ⟨h1, h2⟩

/-- C37: the generated parser returns the same tree or the same error as `Parse`, for every input, except that it
may leave the name of the root out of an error.  It also panics on the same inputs.  (Partial: the references
do not point into character classes and sequences, and `WsSafe`.) -/
theorem C37_outcome_partial (h : Made cs s) (hpl : PlainRefs cs) (hsafe : WsSafe cs)
    (hg : s.Generate = .ok (s', .ok prog)) {n : Name} (hn : rootOf cs = some n)
    (fuel : Nat) (input : List Rune) (rend : Option Nat) :
    SameOutcome (definitionPart n) (s.result fuel input rend) (prog.run fuel input rend) := by
  obtain ⟨root, hi, hr, hp⟩ := Generate_cases hg
  obtain ⟨root', hr', hG⟩ := generatable h hi hpl hsafe
  obtain rfl := Option.some.inj (hr'.symm.trans hr)
  obtain ⟨root, U⟩ := understood h hsafe hi
  obtain rfl := Option.some.inj (hr'.symm.trans U.rootEq)
  obtain ⟨d, hd, hdn⟩ := U.rootDef
  obtain rfl : d.name = n := Option.some.inj (hdn.symm.trans hn)
  have hpn : d.pname = d.name := by
    simp only [Syntax.env, List.getElem?_map, Option.map_eq_some_iff] at hd
    obtain ⟨e, -, rfl⟩ := hd
    rfl
  obtain ⟨prog', hp', -, -, h3⟩ := generateProgram_spec hG hd
  rw [hp'] at hp
  cases hp
  rw [result_of_init hi hr']
  have h4 := h3 fuel input rend
  generalize parseInput s'.env fuel root' input rend = x at h4
  generalize prog.run fuel input rend = y at h4
  rw [hpn] at h4
  cases h4 with
  | panic => exact .panic
  | oof => exact .oof
  | ok h4 =>
    cases h4 with
    | node t => exact .same (.ok t)
    | error h4 =>
      cases h4 with
      | same => exact .same (.error _)
      | root o l c =>
        unfold generatedName
        cases d.commit.userDefined with
        | true => rw [if_pos rfl, hpn]; exact .same (.error _)
        | false => exact .root o l c

/-- C37: without whitespace definitions, and when the root belongs to a symbol, the generated parser returns exactly
what `Parse` returns.  (Partial: the references do not point into character classes and sequences, and no
whitespace; see the counterexample.) -/
theorem C37_equal_partial {as : List Act} (h : Syntax.acts {} as = some s) (hpl : PlainRefs (as.map Act.call))
    (hws : ∀ a ∈ as, a.call.commit.whitespace = false)
    (hroot : ∀ a ∈ as, some a.call.name = rootOf (as.map Act.call) → a.named = true)
    (hg : s.Generate = .ok (s', .ok prog)) (fuel : Nat) (input : List Rune) (rend : Option Nat) :
    s.result fuel input rend = (prog.run fuel input rend).bind fun r => .ok (asResult r) := by
  have hm := acts_made h
  have hw : ¬ s.HasWhitespace := by
    rw [(made_called hm).whitespace]
    rintro ⟨c, hc, hcw⟩
    obtain ⟨a, ha, rfl⟩ := List.mem_map.1 hc
    rw [hws a ha] at hcw; cases hcw
  obtain ⟨root, hi, hr, hp⟩ := Generate_cases hg
  obtain ⟨root', hr', hG⟩ := generatable hm hi hpl (fun ⟨c, hc, hcw⟩ => by
    obtain ⟨a, ha, rfl⟩ := List.mem_map.1 hc
    have := hws a ha
    unfold Call.isWs at hcw
    rw [this] at hcw; cases hcw)
  obtain rfl := Option.some.inj (hr'.symm.trans hr)
  obtain ⟨d, hd⟩ := hG.distinct.def_ .root
  obtain ⟨prog', hp', -, -, h3⟩ := generateProgram_spec hG hd
  rw [hp'] at hp
  cases hp
  obtain ⟨a, ha, h1, h2, -⟩ := root_marked h hw hi hr' hd
  have hgn : generatedName d = d.pname := by
    unfold generatedName
    rw [h2, hroot a ha h1, if_pos rfl]
  rw [result_of_init hi hr']
  have h4 := h3 fuel input rend
  rw [hgn] at h4
  generalize parseInput s'.env fuel root' input rend = x at h4
  generalize prog.run fuel input rend = y at h4
  cases h4 with
  | panic => rfl
  | oof => rfl
  | ok h4 =>
    cases h4 with
    | node t => rfl
    | error h4 => rw [h4.eq]

end

/-! ### Examples -/

/-- The program that is generated after the calls. -/
def generated (cs : List Call) : Option Program :=
  match (after cs).Generate with
  | .ok (_, .ok p) => some p
  | _ => none

theorem generated_ok {cs : List Call} {p : Program} (h : generated cs = some p) : ∃ s', (after cs).Generate = .ok (s', .ok p) := by
  unfold generated at h
  split at h
  · cases h; exact ⟨_, by assumption⟩
  · cases h

theorem generated_some {cs : List Call} (h : (generated cs).isSome = true) :
    ∃ s' p, (after cs).Generate = .ok (s', .ok p) ∧ generated cs = some p := by
  obtain ⟨p, hp⟩ := Option.isSome_iff_exists.1 h
  obtain ⟨s', hs⟩ := generated_ok hp
  exact ⟨s', p, hs, hp⟩

/-- What the generated program returns. -/
def genRun (cs : List Call) (fuel : Nat) (text : List Rune) : Option (Res (Except Err Node)) :=
  (generated cs).map fun p => p.run fuel text none

/-- What the generated program returns: the nodes of the tree. -/
def genNodes (cs : List Call) (fuel : Nat) (text : List Rune) : Option (List (Nat × Name × Nat × Nat)) :=
  match genRun cs fuel text with
  | some (.ok (.ok t)) => some (flat 0 t)
  | _ => none

/-- What the generated program returns: the error. -/
def genError (cs : List Call) (fuel : Nat) (text : List Rune) : Option Err :=
  match genRun cs fuel text with
  | some (.ok (.error e)) => some e
  | _ => none

theorem plainRefs_of {cs : List Call} (h : (cs.all fun c => c.refs.all fun n => !n.contains colon) = true) : PlainRefs cs := by
  refine PlainRefs.of_noColon fun c hc n hn hcol => ?_
  have := List.all_eq_true.1 (List.all_eq_true.1 h c hc) n hn
  rw [List.contains_iff_mem.2 hcol] at this; cases this

/-- The conditions hold for the sample with whitespace, and a program is generated for it. -/
example : Made sumWsCalls (after sumWsCalls) ∧ PlainRefs sumWsCalls ∧ WsSafe sumWsCalls ∧
    rootOf sumWsCalls = some (runes "sum") ∧ ∃ s' p, (after sumWsCalls).Generate = .ok (s', .ok p) := by
  refine ⟨calls_made (calls_ok (by decide +kernel)), plainRefs_of (by decide +kernel), fun _ => ⟨?_, ?_⟩,
    by decide +kernel, ?_⟩
  · refine Or.inl ?_; unfold NoColon; decide +kernel
  · intro c hc hk
    have : ∀ c ∈ sumWsCalls, c.commit.keyword = false := by decide +kernel
    rw [this c hc] at hk; cases hk
  · obtain ⟨s', p, h, -⟩ := generated_some (cs := sumWsCalls) (by decide +kernel)
    exact ⟨s', p, h⟩

/-- The declared variables of the sample. -/
example : (generated sumCalls).map (fun p => p.parsers.flatMap declared) = some [7, 3, 2, 1, 6, 5, 4] ∧
    (generated sumCalls).map (fun p => p.rootParser) = some 7 := by decide +kernel

/-- The generated programs at work. -/
example : genNodes sumCalls 30 (runes "1+23") =
    some [(0, runes "sum", 0, 4), (1, runes "num", 0, 1), (1, runes "num", 2, 4)] := by decide +kernel

example : genError sumCalls 30 (runes "1+") = some (.parseError 2 0 2 (runes "digit")) := by decide +kernel

example : genNodes sumWsCalls 30 (runes " 1 + 23 ") =
    some [(0, runes "sum", 0, 8), (1, runes "num", 1, 2), (1, runes "num", 5, 7)] := by decide +kernel

/-- The conditions of the equality hold for the sample without whitespace. -/
example : (∃ s, Syntax.acts {} (sumCalls.map .api) = some s) ∧ PlainRefs ((sumCalls.map Act.api).map Act.call) ∧
    (∀ a ∈ sumCalls.map Act.api, a.call.commit.whitespace = false) ∧ ∀ a ∈ sumCalls.map Act.api, a.named = true :=
  ⟨⟨_, acts_some (by decide +kernel)⟩, plainRefs_of (by decide +kernel), by decide +kernel, by decide +kernel⟩

/-! ### Counterexamples -/

/-- `a = [x]; b = a:0 a`: a reference to the character of a class, which the API accepts. -/
def charRefCalls : List Call := [
  .class_ (runes "a") {} false (runes "x") [],
  .sequence (runes "b") {} [item "a:0", item "a"]]

/-- C36 does not hold in general: `chardefine.go:75` declares a character every time it is reached, so the
generated code of `charRefCalls` declares the variable `p1` twice, and does not compile. -/
theorem C36_character_counterexample : ∃ cs s s' prog, Syntax.calls {} cs = some s ∧
    (∀ c ∈ cs, c.commit.whitespace = false) ∧ s.Generate = .ok (s', .ok prog) ∧
    ¬ (prog.parsers.flatMap declared).Nodup := by
  obtain ⟨s', p, h, hp⟩ := generated_some (cs := charRefCalls) (by decide +kernel)
  refine ⟨charRefCalls, _, s', p, calls_ok (by decide +kernel), by decide +kernel, h, ?_⟩
  have : (generated charRefCalls).map (fun p => p.parsers.flatMap declared) = some [3, 1, 2, 1] := by decide +kernel
  rw [hp] at this
  have h2 : p.parsers.flatMap declared = [3, 1, 2, 1] := Option.some.inj this
  rw [h2]
  decide

/-- C36 does not hold in general: with whitespace, a keyword that is a sequence keeps an id that belongs to
another definition, too. -/
theorem C36_keyword_counterexample : ∃ cs s s' prog, Syntax.calls {} cs = some s ∧ PlainRefs cs ∧
    s.Generate = .ok (s', .ok prog) ∧ ¬ (prog.parsers.flatMap declared).Nodup := by
  obtain ⟨s', p, h, hp⟩ := generated_some (cs := staleCalls) (by decide +kernel)
  refine ⟨staleCalls, _, s', p, calls_ok (by decide +kernel), plainRefs_of (by decide +kernel), h, ?_⟩
  have : (generated staleCalls).map (fun p => decide (p.parsers.flatMap declared).Nodup) = some false := by decide +kernel
  rw [hp] at this
  simpa using Option.some.inj this

/-- `space:ws = " "; a:failpass = "a"; r = a` -/
def namelessCalls : List Call := [
  .charSequence (runes "space") { whitespace := true } (runes " "),
  .charSequence (runes "a") { failPass := true } (runes "a"),
  .choice (runes "r") {} [runes "a"]]

/-- C37 does not hold in general: with whitespace the root is a definition that `whitespace.go:149` makes without the
mark of the user's definitions, and `sequencedefine.go:326` does not write its name, so the error is without it. -/
theorem C37_name_counterexample : ∃ cs s s' prog fuel input, Syntax.calls {} cs = some s ∧ PlainRefs cs ∧ WsSafe cs ∧
    s.Generate = .ok (s', .ok prog) ∧
    (∃ s'', s.Parse fuel input none = .ok (s'', .error (.parseError 0 0 0 (runes "r")))) ∧
    prog.run fuel input none = .ok (.error (.parseError 0 0 0 [])) := by
  obtain ⟨s', p, h, hp⟩ := generated_some (cs := namelessCalls) (by decide +kernel)
  refine ⟨namelessCalls, _, s', p, 100, runes "x", calls_ok (by decide +kernel), plainRefs_of (by decide +kernel),
    fun _ => ⟨?_, ?_⟩, h, error_ok (x := run namelessCalls 100 (runes "x")) (by decide +kernel), ?_⟩
  · refine Or.inl ?_; unfold NoColon; decide +kernel
  · intro c hc hk
    have : ∀ c ∈ namelessCalls, c.commit.keyword = false := by decide +kernel
    rw [this c hc] at hk; cases hk
  · have : genError namelessCalls 100 (runes "x") = some (.parseError 0 0 0 []) := by decide +kernel
    unfold genError genRun at this
    rw [hp] at this
    simp only [Option.map_some] at this
    split at this
    · rename_i e he
      cases this
      exact Option.some.inj he
    · cases this

end Treerack
