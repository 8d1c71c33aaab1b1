import Verif.Props.DocGen
import Verif.Props.Main

/-
C56 for the command line: what is printed by `treerack generate`.
-/

namespace Treerack
open Spec

variable {x : Surroundings} {fuel : Nat} {args rest : List Name} {fs : List (Name × FlagValue)}

/-- C56: when `treerack generate` succeeds, then its source is the text of a document, and it has printed the given code and a
function.  The function is read as a program that accepts, for every source of an input, what the commands `check` and `show`
accept with the same document, with the same tree, and only texts that the root definition of the document stands for.
(Partial: `DocumentWsSafe`, the names without U+0000 and U+FEFF, and for the last part the quantifiers of C33.) -/
theorem C56_command_partial (hh : args.head? ≠ some (runes "-help")) (h : Flags (documented .generate) args fs rest)
    (hw : ∀ i, x.stdout i = false) {out : Out} (he : Command.generate.run x fuel args = .ok (0, out)) :
    ∃ text doc, (syntaxSource fs rest).open x.world = some (text, none) ∧ WrittenDocument doc text ∧
      (DocumentWsSafe doc → (∀ d ∈ doc, ∀ c ∈ d.name, c ≠ 0 ∧ c ≠ 0xFEFF) →
        ∃ function prog d, out.text = fileFront x.constants.gendoc x.constants.headCode
            (GeneratorOptions.package ⟨stringFlag fs "package-name", boolFlag fs "export"⟩) ++ function ∧
          readFunction function = some (boolFlag fs "export", prog) ∧ docRoot doc = some d ∧
          (∀ inp input t, Parses x fuel (syntaxSource fs rest) inp input t ↔
            ∃ e, inp.open ((syntaxSource fs rest).after x.world) = some (input, e) ∧ prog.run fuel input e = .ok (.ok t)) ∧
          ((∀ d ∈ doc, d.expr.Sound) → ∀ n input e t, prog.run n input e = .ok (.ok t) → DefWs doc input d 0 input.length)) := by
  obtain ⟨s, s', ⟨r, e, hs, hr⟩, hg⟩ := (C49_generate hh h out).1 he
  obtain ⟨tree, ht⟩ : ∃ tree, selfParse fuel r e = .ok (.ok tree) := by
    unfold Syntax.ReadSyntax at hr
    split at hr
    · cases hr
    · obtain ⟨z, hz, hr⟩ := Res.bind_eq_ok hr
      cases z with
      | error _ => cases hr
      | ok tree => exact ⟨tree, hz⟩
  obtain ⟨rfl, hv, doc, hd, -⟩ := C30_accepted ht
  refine ⟨r, doc, hs, hd, fun hws hn => ?_⟩
  obtain ⟨prog, hgen⟩ := (generateTo_iff hw).1 ⟨out, hg⟩
  obtain ⟨root, hi, -⟩ := Generate_cases hgen
  obtain ⟨o, function, h1, h2, h3⟩ :=
    (C44_text_partial (k := x.constants) (opts := ⟨stringFlag fs "package-name", boolFlag fs "export"⟩) (read_made hd hr)
      (document_quotable hd hn) hw).1 hgen
  rw [hg] at h1
  cases h1
  obtain ⟨prog', d, hg', hroot, -, -, ho⟩ := C56_program_partial hd hr hws hi
  rw [hgen] at hg'
  cases hg'
  refine ⟨function, prog, d, h2, h3, hroot, ?_, ?_⟩
  · intro inp input t
    have tree : ∀ e, (∃ s1, s.Parse fuel input e = .ok (s1, .node t)) ↔ prog.run fuel input e = .ok (.ok t) := by
      intro e
      rw [← SameOutcome.tree (ho fuel input e)]
      unfold Syntax.result
      constructor
      · rintro ⟨s1, hp⟩
        rw [hp]
        rfl
      · intro hp
        obtain ⟨⟨s1, y⟩, h1, h2⟩ := Res.bind_eq_ok hp
        cases h2
        exact ⟨s1, h1⟩
    constructor
    · rintro ⟨s1, e, s2, ⟨r1, e1, hs1, hr1⟩, hopen, hp⟩
      rw [hs] at hs1
      cases hs1
      rw [hr] at hr1
      cases hr1
      exact ⟨e, hopen, (tree e).1 ⟨s2, hp⟩⟩
    · rintro ⟨e, hopen, hp⟩
      obtain ⟨s2, hp⟩ := (tree e).2 hp
      exact ⟨s, e, s2, ⟨r, none, hs, hr⟩, hopen, hp⟩
  · intro hsound n input e t hp
    obtain ⟨d', hd', hm⟩ := C56_language_partial hd hr hws hsound hgen hp
    rw [hroot] at hd'
    cases hd'
    exact hm

/-- The command reads the document from the standard input, and its function accepts the text of the file. -/
example : Flags (documented .generate) [runes "-export"] [(runes "export", .bool true)] [] ∧
    (∀ i, (surroundings []).stdout i = false) ∧
    ∃ out prog t, Command.generate.run (surroundings []) 100000 [runes "-export"] = .ok (0, out) ∧
      readFunction (out.text.drop 42) = some (true, prog) ∧ prog.run 100 (runes "12") none = .ok (.ok t) := by
  refine ⟨.switch (d := [45]) (name := runes "export") (.inl rfl) rfl .nil, fun i => rfl, ?_⟩
  have key : (match Command.generate.run (surroundings []) 100000 [runes "-export"] with
      | .ok (0, out) =>
        (match readFunction (out.text.drop 42) with
        | some (true, prog) =>
          (match prog.run 100 (runes "12") none with
          | .ok (.ok _) => true
          | _ => false)
        | _ => false)
      | _ => false) = true := by decide +kernel
  split at key
  · rename_i out h1
    split at key
    · rename_i prog h2
      split at key
      · rename_i t h3
        exact ⟨out, prog, t, h1, h2, h3⟩
      · cases key
    · cases key
  · cases key

end Treerack
