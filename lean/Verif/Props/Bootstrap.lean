import Verif.Proofs.Bootstrap
import Verif.Proofs.DocGen

/-
C55: the syntax of the documents describes its own parser.
-/

namespace Treerack

open Spec

theorem boot_parsed {n N : Nat} {s : Syntax} {tree : Node} (h : bootSyntax n = .ok (s, none))
    (hN : ∀ n, N ≤ n → selfParse n syntaxText none = .ok (.ok tree)) : selfParse n syntaxText none = .ok (.ok tree) := by
  cases hp : selfParse n syntaxText none with
  | panic => unfold bootSyntax at h; rw [hp] at h; simp [Syntax.ReadSyntax] at h
  | oof => unfold bootSyntax at h; rw [hp] at h; simp [Syntax.ReadSyntax] at h
  | ok x =>
    have h1 := parseInput_le selfEnv (Nat.le_max_left n N) selfRoot syntaxText none
    have h2 := hN _ (Nat.le_max_right n N)
    unfold selfParse at h2 hp
    rw [hp, h2] at h1
    rcases h1 with h1 | h1
    · cases h1
    · exact h1

/-- The syntax that is read from the file. -/
theorem boot_calls {n : Nat} {s : Syntax} (h : bootSyntax n = .ok (s, none)) :
    Made syntaxCalls s ∧ Syntax.internalCalls {} syntaxCalls = (s, none) := by
  obtain ⟨doc, hw, hf, hc⟩ := syntax_written
  obtain ⟨N, tree, hd, hN⟩ := C30_text hw syntax_valid
  have ht := boot_parsed h hN
  unfold bootSyntax at h
  rw [ht] at h
  have hm := C30_made hd h
  rw [C30_calls hd hf] at h
  rw [hc] at hm h
  refine ⟨hm, ?_⟩
  simpa using h

/-- C55: syntax.treerack is accepted as a document. -/
theorem C55_boot : ∃ N s, ∀ n, N ≤ n → bootSyntax n = .ok (s, none) := by
  obtain ⟨doc, hw, hf, hc⟩ := syntax_written
  obtain ⟨N, tree, hd, hN⟩ := C30_text hw syntax_valid
  obtain ⟨s, s', prog, h1, h2, h3⟩ := syntax_generated
  refine ⟨N, s, fun n hn => ?_⟩
  unfold bootSyntax
  rw [hN n hn, C30_calls hd hf, hc, h1]
  rfl

/-- C55: the program that is generated from syntax.treerack does the same as self.go: it returns the same tree or the same error
for every input and every reader. -/
theorem C55_generate {n : Nat} {s : Syntax} (h : bootSyntax n = .ok (s, none)) : ∃ s' prog, s.Generate = .ok (s', .ok prog) ∧
    ∀ fuel input rend, prog.run fuel input rend = selfParse fuel input rend := by
  obtain ⟨s1, s', prog, h1, h2, h3⟩ := syntax_generated
  obtain ⟨-, h⟩ := boot_calls h
  rw [h1] at h
  cases h
  exact ⟨s', prog, h2, programOk_run h3⟩

/-- C55: the syntax that is read from syntax.treerack parses like self.go. -/
theorem C55_parse {n : Nat} {s : Syntax} (h : bootSyntax n = .ok (s, none)) (fuel : Nat) (input : List Rune) (rend : Option Nat) :
    SameOutcome (runes "syntax") (s.result fuel input rend) (selfParse fuel input rend) := by
  obtain ⟨s', prog, hg, hr⟩ := C55_generate h
  have := C37_outcome_partial (boot_calls h).1 syntax_plainRefs syntax_wsSafe hg syntax_root fuel input rend
  rw [hr] at this
  exact this

/-- C55: the syntax that is read from syntax.treerack returns the same trees as self.go. -/
theorem C55_tree {n : Nat} {s : Syntax} (h : bootSyntax n = .ok (s, none)) (fuel : Nat) (input : List Rune) (rend : Option Nat)
    (tree : Node) : (∃ s', s.Parse fuel input rend = .ok (s', .node tree)) ↔ selfParse fuel input rend = .ok (.ok tree) := by
  rw [← SameOutcome.tree (C55_parse h fuel input rend) tree]
  unfold Syntax.result
  cases hp : s.Parse fuel input rend with
  | ok x => obtain ⟨s', r⟩ := x; simp [Res.bind]
  | panic => simp [Res.bind]
  | oof => simp [Res.bind]

/-- C55: the texts accepted by the syntax that is read from syntax.treerack are the documents. -/
theorem C55_documents {n : Nat} {s : Syntax} (h : bootSyntax n = .ok (s, none)) {text : List Rune} {rend : Option Nat} :
    (∃ fuel s' tree, s.Parse fuel text rend = .ok (s', .node tree)) ↔
      rend = none ∧ replacementChar ∉ text ∧ ∃ doc, WrittenDocument doc text := by
  rw [← C30_accepts]
  constructor
  · rintro ⟨fuel, s', tree, hp⟩
    exact ⟨fuel, tree, (C55_tree h fuel text rend tree).1 ⟨s', hp⟩⟩
  · rintro ⟨fuel, tree, hp⟩
    obtain ⟨s', hp⟩ := (C55_tree h fuel text rend tree).2 hp
    exact ⟨fuel, s', tree, hp⟩

/-- C55: a document read with the parser of the syntax that is read from syntax.treerack, instead of self.go, gives the same
syntax, for every document and every syntax that reads it. -/
theorem C55_read {n : Nat} {s s' : Syntax} (h : bootSyntax n = .ok (s, none)) {fuel : Nat} {text : List Rune} {rend : Option Nat}
    {tree : Node} (hp : s.Parse fuel text rend = .ok (s', .node tree)) (s0 : Syntax) :
    s0.ReadSyntax (.ok (.ok tree)) = s0.ReadSyntax (selfParse fuel text rend) := by
  rw [(C55_tree h fuel text rend tree).1 ⟨s', hp⟩]

/-- The hypothesis holds for a syntax, and this syntax reads its own document: the result is the same syntax again. -/
example : ∃ N s, (∀ n, N ≤ n → bootSyntax n = .ok (s, none)) ∧ ∀ n, N ≤ n → ∃ s' tree,
    s.Parse n syntaxText none = .ok (s', .node tree) ∧ ({} : Syntax).ReadSyntax (.ok (.ok tree)) = .ok (s, none) := by
  obtain ⟨N, s, hb⟩ := C55_boot
  refine ⟨N, s, hb, fun n hn => ?_⟩
  obtain ⟨N', tree, hd, hN'⟩ := C30_text syntax_written.choose_spec.1 syntax_valid
  have hs := hb n hn
  have ht := boot_parsed hs hN'
  obtain ⟨s', hp⟩ := (C55_tree hs n syntaxText none tree).2 ht
  refine ⟨s', tree, hp, ?_⟩
  rw [C55_read hs hp, ← hs]
  rfl

end Treerack
