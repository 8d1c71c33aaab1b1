import Verif.Proofs.GoFile
import Verif.Props.Generate

/-
C44, C45: the text of the generated code, and the errors of the writer.

`s.GenerateTo k opts w = .ok (s', o, e)`: the call of `Generate` with the options `opts` and the writer `w` returned the
error `e`, and wrote `o.text` with `o.writes` writes; `w i` tells whether the write number `i` fails.  `readFunction` is
how the compiler of Go reads the text of a function.
-/

namespace Treerack
open Spec Samples

section

variable {cs : List Call} {s s' : Syntax} {prog : Program} {k : GenConstants} {opts : GeneratorOptions} {w : Writer} {o : Out}

/-- The package name in the generated file. -/
def GeneratorOptions.package (opts : GeneratorOptions) : Name := if opts.packageName = [] then runes "main" else opts.packageName

/-- C44: `Generate` writes the file head and a function, and the text of the function means the program.  (Partial: the
names of the definitions can be written between quotes; see the counterexample.) -/
theorem C44_text_partial (h : Made cs s) (hn : ∀ c ∈ cs, Quotable c.name) (hw : ∀ i, w i = false) :
    s.Generate = .ok (s', .ok prog) ↔ ∃ o text, s.GenerateTo k opts w = .ok (s', o, none) ∧
      o.text = fileFront k.gendoc k.headCode opts.package ++ text ∧ readFunction text = some (opts.exported, prog) := by
  have key : ∀ {o : Out}, s.GenerateTo k opts w = .ok (s', o, none) → ∃ prog text, s.Generate = .ok (s', .ok prog) ∧
      o.text = fileFront k.gendoc k.headCode opts.package ++ text ∧ readFunction text = some (opts.exported, prog) := by
    intro o hg
    obtain ⟨root, hi, hr, hc⟩ := GenerateTo_none hg
    obtain ⟨c, hp, _, ht⟩ := (generateCode_wrote hc).2 rfl
    have hq := generate_printable h hn hi hp
    refine ⟨c.program, functionText opts.exported c.keywordStmts c.rootStmts c.builderStmts c.keywords c.root c.root,
      Generate_of hi hr hp, ?_, readFunction_functionText (fun st hst => hq.1 st (List.mem_append_left _ hst))
        (fun st hst => hq.1 st (List.mem_append_right _ hst)) hq.2⟩
    rw [ht fun i _ => hw i, flatten_headWrites]
    simp only [functionText, functionHead_line, stmtsText, GeneratorOptions.package, List.append_assoc]
  constructor
  · intro hg
    obtain ⟨o, e, hx⟩ := GenerateTo_ok (k := k) (opts := opts) (w := w) hg
    cases e with
    | true =>
      rcases GenerateTo_cases hx with ⟨e1, _, h2, _⟩ | ⟨root, b, h1, h2, h3, h4⟩
      · cases h2
      · cases b with
        | false => cases h4
        | true =>
          obtain ⟨i, _, hi⟩ := (generateCode_wrote h3).1 rfl
          rw [hw i] at hi
          cases hi
    | false =>
      obtain ⟨prog', text, h1, h2, h3⟩ := key hx
      rw [hg] at h1
      cases h1
      exact ⟨o, text, hx, h2, h3⟩
  · rintro ⟨o, text, hx, h2, h3⟩
    obtain ⟨prog', text', h1, h4, h5⟩ := key hx
    rw [h2] at h4
    have := List.append_cancel_left h4
    subst this
    rw [h3] at h5
    cases h5
    exact h1

/-- The same for the calls of the API: it is enough that the names do not contain U+0000 and U+FEFF. -/
theorem C44_api_partial (h : Syntax.calls {} cs = some s) (hn : ∀ c ∈ cs, ∀ x ∈ c.name, x ≠ 0 ∧ x ≠ 0xFEFF) (hw : ∀ i, w i = false) :
    s.Generate = .ok (s', .ok prog) ↔ ∃ o text, s.GenerateTo k opts w = .ok (s', o, none) ∧
      o.text = fileFront k.gendoc k.headCode opts.package ++ text ∧ readFunction text = some (opts.exported, prog) :=
  C44_text_partial (calls_made h) (fun c hc => validSymbol_quotable (calls_symbols h c hc) (hn c hc)) hw

/-- C44: the text of the function means a program that behaves like the syntax (see C37). -/
theorem C44_behaviour_partial (h : Made cs s) (hn : ∀ c ∈ cs, Quotable c.name) (hpl : PlainRefs cs) (hsafe : WsSafe cs)
    (hw : ∀ i, w i = false) (hi : s.Init = .ok (s', none)) {n : Name} (hr : rootOf cs = some n) :
    ∃ o text prog, s.GenerateTo k opts w = .ok (s', o, none) ∧
      o.text = fileFront k.gendoc k.headCode opts.package ++ text ∧ readFunction text = some (opts.exported, prog) ∧
      ∀ fuel input rend, SameOutcome (definitionPart n) (s.result fuel input rend) (prog.run fuel input rend) := by
  obtain ⟨prog, hg⟩ := (C36_generated_partial h hpl hsafe).1.1 hi
  obtain ⟨o, text, h1, h2, h3⟩ := (C44_text_partial (k := k) (opts := opts) h hn hw).1 hg
  exact ⟨o, text, prog, h1, h2, h3, C37_outcome_partial h hpl hsafe hg hr⟩

/-- C44: nothing is written when the initialization fails, and its error is returned. -/
theorem C44_error {e : SynErr} : s.Generate = .ok (s', .error e) ↔ ∃ o, s.GenerateTo k opts w = .ok (s', o, some (.syntax e)) ∧ o = {} := by
  rw [Generate_error]
  constructor
  · exact fun h => ⟨{}, GenerateTo_error h, rfl⟩
  · rintro ⟨o, h, _⟩
    rcases GenerateTo_cases h with ⟨e1, h1, h2, _⟩ | ⟨root, b, _, _, _, h4⟩
    · cases h2
      exact h1
    · cases b <;> cases h4

/-- C45: a reported error of the writer really happened. -/
theorem C45_real (h : s.GenerateTo k opts w = .ok (s', o, some .write)) : ∃ i, i < o.writes ∧ w i = true := by
  rcases GenerateTo_cases h with ⟨e1, _, h2, _⟩ | ⟨root, b, h1, h2, h3, h4⟩
  · cases h2
  · cases b with
    | false => cases h4
    | true => exact (generateCode_wrote h3).1 rfl

/-- C45: when no error is returned, then all the statements of the program were written; what can be missing is from the
part in front of them, the new line between them, and the part behind them.  (Partial: a failed write is not always
reported, see the counterexample.) -/
theorem C45_reported_partial (h : Made cs s) (hn : ∀ c ∈ cs, Quotable c.name) (hg : s.GenerateTo k opts w = .ok (s', o, none)) :
    ∃ prog t1 t2 front line back, s.Generate = .ok (s', .ok prog) ∧
      readFunction (functionLine opts.exported ++ t1 ++ runes "\n" ++ t2 ++ functionEnd prog.keywords prog.rootParser prog.rootBuilder) =
        some (opts.exported, prog) ∧
      o.text = front ++ t1 ++ line ++ t2 ++ back ∧
      front <+: fileFront k.gendoc k.headCode opts.package ++ functionLine opts.exported ∧ line <+: runes "\n" ∧
      back <+: functionEnd prog.keywords prog.rootParser prog.rootBuilder := by
  have hpre : ∀ (l : List (List Rune)) (n : Nat), (l.take n).flatten <+: l.flatten := fun l n =>
    ⟨(l.drop n).flatten, by rw [← List.flatten_append, List.take_append_drop]⟩
  obtain ⟨root, hi, hr, hc⟩ := GenerateTo_none hg
  obtain ⟨c, hp, ⟨n, m, j, ht⟩, _⟩ := (generateCode_wrote hc).2 rfl
  have hq := generate_printable h hn hi hp
  refine ⟨c.program, stmtsText false c.keywordStmts, stmtsText false c.rootStmts ++ stmtsText true c.builderStmts,
    ((headWrites k opts).take n).flatten, ([runes "\n"].take m).flatten, ((closingWrites c.keywords c.root c.root).take j).flatten,
    Generate_of hi hr hp, ?_, ?_, ?_, ?_, ?_⟩
  · rw [← flatten_closingWrites, ← functionHead_line]
    have := readFunction_functionText (exported := opts.exported) (keywords := c.keywords) (p := c.root) (b := c.root)
      (fun st hst => hq.1 st (List.mem_append_left _ hst)) (fun st hst => hq.1 st (List.mem_append_right _ hst)) hq.2
    simp only [functionText] at this
    simp only [stmtsText, List.append_assoc]
    exact this
  · rw [ht]
    simp only [List.append_assoc]
  · have := hpre (headWrites k opts) n
    rwa [flatten_headWrites] at this
  · simpa using hpre [runes "\n"] m
  · rw [← flatten_closingWrites]
    exact hpre _ j

end

/-! ### Examples -/

/-- The text written, and whether no error was returned. -/
def written (cs : List Call) (opts : GeneratorOptions) (w : Writer) : Option (Out × Bool) :=
  match (after cs).GenerateTo ⟨runes "// doc", runes "type Node struct{}"⟩ opts w with
  | .ok (_, o, none) => some (o, true)
  | .ok (_, o, some _) => some (o, false)
  | _ => none

theorem written_ok {cs : List Call} {opts : GeneratorOptions} {w : Writer} {o : Out} (h : written cs opts w = some (o, true)) :
    ∃ s', (after cs).GenerateTo ⟨runes "// doc", runes "type Node struct{}"⟩ opts w = .ok (s', o, none) := by
  unfold written at h
  split at h
  · cases h; exact ⟨_, by assumption⟩
  · cases h
  · cases h

/-- `a = "x"` -/
def xCalls : List Call := [.charSequence (runes "a") {} (runes "x")]

/-- The whole text for a small syntax. -/
example : (written xCalls { packageName := runes "parser", exported := true } fun _ => false).map (fun x => x.1.text) = some (runes
  ("// doc\n\npackage parser\n\ntype Node struct{}\n\nfunc Parse(r io.Reader) (*Node, error) {\n\n" ++
   "var p2 = sequenceParser{id: 2, commit: 392,name: \"a\",allChars: true,ranges: [][]int{{1, 1},{1, 1},},};" ++
   "var p1 = charParser{id: 1,chars: []rune{120,},};p2.items = []parser{&p1,};" ++
   "var b2 = sequenceBuilder{id: 2, commit: 392,name: \"a\",allChars: true,ranges: [][]int{{1, 1},{1, 1},},};" ++
   "var b1 = charBuilder{};b2.items = []builder{&b1,};\n\n" ++
   "var keywords = []parser{}\n\nreturn parseInput(r, &p2, &b2, keywords)\n}\n")) := by decide +kernel

/-- The conditions hold for the sample with whitespace, and its code is written. -/
example : Made sumWsCalls (after sumWsCalls) ∧ (∀ c ∈ sumWsCalls, Quotable c.name) ∧
    (written sumWsCalls {} fun _ => false).map (fun x => x.2) = some true := by
  refine ⟨calls_made (calls_ok (by decide +kernel)), ?_, by decide +kernel⟩
  unfold Quotable
  decide +kernel

/-- A failing write of a statement is reported. -/
example : (written xCalls {} fun i => i == 14).map (fun x => x.2) = some false := by decide +kernel

/-! ### Counterexamples -/

/-- `a<U+0000> = "x"` -/
def nulCalls : List Call := [.charSequence [97, 0] {} (runes "x")]

/-- C44 does not hold for all the names: U+0000 is accepted by `isValidSymbol` (syntax.go:96-106), and it is printed as it
is, but the compiler does not accept it. -/
theorem C44_name_counterexample : ∃ cs s s' k opts o text, Syntax.calls {} cs = some s ∧
    s.GenerateTo k opts (fun _ => false) = .ok (s', o, none) ∧
    o.text = fileFront k.gendoc k.headCode opts.package ++ text ∧ readFunction text = none := by
  have h : (written nulCalls {} fun _ => false).map (fun x => (x.2,
      x.1.text.take 42 == fileFront (runes "// doc") (runes "type Node struct{}") (runes "main"),
      (readFunction (x.1.text.drop 42)).isNone)) = some (true, true, true) := by decide +kernel
  obtain ⟨⟨o, b⟩, hx, hy⟩ := Option.map_eq_some_iff.1 h
  simp only [Prod.mk.injEq, beq_iff_eq] at hy
  obtain ⟨rfl, h1, h2⟩ := hy
  obtain ⟨s', hg⟩ := written_ok hx
  refine ⟨nulCalls, _, s', _, _, o, o.text.drop 42, calls_ok (by decide +kernel), hg, ?_, by simpa using h2⟩
  have : fileFront (runes "// doc") (runes "type Node struct{}") (GeneratorOptions.package {}) = o.text.take 42 := h1.symm
  simp only
  rw [this, List.take_append_drop]

/-- C45 does not hold in general: the errors of the writes of `Generate` itself are lost (syntax.go:357-440 returns nil at
the end), e.g. when the disk is full before the last lines of the code. -/
theorem C45_lost_counterexample : ∃ cs s s' k opts w o i, Syntax.calls {} cs = some s ∧ (∀ j, w j = decide (i ≤ j)) ∧ i < o.writes ∧
    s.GenerateTo k opts w = .ok (s', o, none) ∧
    ∃ text, o.text = fileFront k.gendoc k.headCode opts.package ++ text ∧ readFunction text = none := by
  have h : (written xCalls {} fun j => decide (50 ≤ j)).map (fun x => (x.2, decide (50 < x.1.writes),
      x.1.text.take 42 == fileFront (runes "// doc") (runes "type Node struct{}") (runes "main"),
      (readFunction (x.1.text.drop 42)).isNone)) = some (true, true, true, true) := by decide +kernel
  obtain ⟨⟨o, b⟩, hx, hy⟩ := Option.map_eq_some_iff.1 h
  simp only [Prod.mk.injEq, beq_iff_eq, decide_eq_true_eq] at hy
  obtain ⟨rfl, h0, h1, h2⟩ := hy
  obtain ⟨s', hg⟩ := written_ok hx
  refine ⟨xCalls, _, s', _, _, _, o, 50, calls_ok (by decide +kernel), fun _ => rfl, h0, hg, o.text.drop 42, ?_, by simpa using h2⟩
  have : fileFront (runes "// doc") (runes "type Node struct{}") (GeneratorOptions.package {}) = o.text.take 42 := h1.symm
  simp only
  rw [this, List.take_append_drop]

end Treerack
