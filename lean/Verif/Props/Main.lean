import Verif.Proofs.CommandLine
import Verif.Props.Json
import Verif.Props.Text

/-
C49: the command line.

`mainCmd x fuel args = .ok (code, out)`: the program, called with the arguments `args`, ended with the exit code `code`, and
wrote `out.text` to the standard output.
-/

namespace Treerack
open Spec Samples

section

variable {x : Surroundings} {fuel : Nat}

/-- The arguments can be read in one way at most. -/
theorem flags_unique {c : Command} {args : List Name} {fs fs' rest rest'} (h : Flags (documented c) args fs rest)
    (h' : Flags (documented c) args fs' rest') : fs = fs' ∧ rest = rest' := by
  have h1 := (flagParse_iff c _ _ _).2 h
  rw [(flagParse_iff c _ _ _).2 h'] at h1
  cases h1
  exact ⟨rfl, rfl⟩

theorem run_help {c : Command} {args : List Name} (h : args.head? = some (runes "-help")) :
    c.run x fuel args = .ok (0, (x.help (some c)).foldl (Out.print x.stdout) {}) := by
  rw [Command.run, if_pos h]

/-- C49: the command is refused when its arguments cannot be read. -/
theorem C49_refused {c : Command} {args : List Name} (hh : args.head? ≠ some (runes "-help"))
    (h : ¬ ∃ fs rest, Flags (documented c) args fs rest) : c.run x fuel args = .ok (-1, {}) := by
  cases hp : flagParse c.formal (args.length + 1) args with
  | some y => exact absurd ⟨y.1, y.2, (flagParse_iff c _ _ _).1 hp⟩ h
  | none => rw [Command.run, if_neg hh, hp]

variable {args rest : List Name} {fs : List (Name × FlagValue)}

theorem run_check (hh : args.head? ≠ some (runes "-help")) (h : Flags (documented .check) args fs rest) :
    Command.check.run x fuel args = (checkCmd x.world fuel (syntaxSource fs []) (inputSource fs rest)).bind fun code => .ok (code, {}) := by
  rw [Command.run, if_neg hh, (flagParse_iff _ _ _ _).2 h]
  simp only [settings_eq _ fs rfl (flags_typed h), syntaxSource, inputSource]

theorem run_show (hh : args.head? ≠ some (runes "-help")) (h : Flags (documented .show) args fs rest) :
    Command.show.run x fuel args = (showCmd x.world fuel (syntaxSource fs []) (inputSource fs rest)).bind fun y =>
      match y.2 with
      | none => .ok (y.1, {})
      | some n => .ok (y.1, Out.print x.stdout {} (showText (boolFlag fs "pretty") (stringFlag fs "indent") n ++ [10])) := by
  rw [Command.run, if_neg hh, (flagParse_iff _ _ _ _).2 h]
  simp only [settings_eq _ fs rfl (flags_typed h), syntaxSource, inputSource]
  congr 1

theorem run_checkSyntax (hh : args.head? ≠ some (runes "-help")) (h : Flags (documented .checkSyntax) args fs rest) :
    Command.checkSyntax.run x fuel args = (checkSyntaxCmd x.world fuel (syntaxSource fs rest)).bind fun code => .ok (code, {}) := by
  rw [Command.run, if_neg hh, (flagParse_iff _ _ _ _).2 h]
  simp only [settings_eq _ fs rfl (flags_typed h), syntaxSource]

theorem run_generate (hh : args.head? ≠ some (runes "-help")) (h : Flags (documented .generate) args fs rest) :
    Command.generate.run x fuel args = ((syntaxSource fs rest).openSyntax x.world fuel).bind fun s =>
      match s with
      | none => .ok (-1, {})
      | some s => (s.GenerateTo x.constants ⟨stringFlag fs "package-name", boolFlag fs "export"⟩ x.stdout).bind fun y =>
          .ok (if y.2.2.isSome then -1 else 0, y.2.1) := by
  rw [Command.run, if_neg hh, (flagParse_iff _ _ _ _).2 h]
  simp only [settings_eq _ fs rfl (flags_typed h), syntaxSource]
  congr 1

theorem openSyntax_iff {src : FileOptions} {s : Syntax} : src.openSyntax x.world fuel = .ok (some s) ↔ Reads x fuel src s := by
  constructor
  · intro h
    obtain ⟨r, e, h1, h2⟩ := openSyntax_some h
    exact ⟨r, e, h1, h2⟩
  · rintro ⟨r, e, h1, h2⟩
    simp [FileOptions.openSyntax, h1, h2]

theorem parseCmd_iff {syn inp : FileOptions} {t : Node} : parseCmd x.world fuel syn inp = .ok (some t) ↔
    ∃ input, Parses x fuel syn inp input t := by
  rw [C34_parse]
  constructor
  · rintro ⟨r, e, s, r', e', s', h1, h2, h3, h4⟩
    exact ⟨r', s, e', s', ⟨r, e, h1, h2⟩, h3, h4⟩
  · rintro ⟨r', s, e', s', ⟨r, e, h1, h2⟩, h3, h4⟩
    exact ⟨r, e, s, r', e', s', h1, h2, h3, h4⟩

/-- C49: the exit code of check is zero exactly when the input has a tree, and nothing is printed. -/
theorem C49_check (hh : args.head? ≠ some (runes "-help")) (h : Flags (documented .check) args fs rest) (out : Out) :
    Command.check.run x fuel args = .ok (0, out) ↔
      out = {} ∧ ∃ input t, Parses x fuel (syntaxSource fs []) (inputSource fs rest) input t := by
  rw [run_check hh h]
  constructor
  · intro he
    obtain ⟨code, h1, h2⟩ := Res.bind_eq_ok he
    cases h2
    obtain ⟨t, ht⟩ := C34_check.1 h1
    obtain ⟨input, hi⟩ := parseCmd_iff.1 ht
    exact ⟨rfl, input, t, hi⟩
  · rintro ⟨rfl, input, t, hp⟩
    rw [C34_check.2 ⟨t, parseCmd_iff.2 ⟨input, hp⟩⟩]
    rfl

/-- C49: the exit code of show is zero exactly when the input has a tree; then the tree is written to the standard output,
as JSON.  (Partial: a write that fails is not noticed, see the counterexample, and the indentation consists of spaces, see
C48.) -/
theorem C49_show_partial (hh : args.head? ≠ some (runes "-help")) (h : Flags (documented .show) args fs rest)
    (hi : ∀ c ∈ stringFlag fs "indent", Json.space c = true) (hw : ∀ i, x.stdout i = false) :
    (∃ out, Command.show.run x fuel args = .ok (0, out)) ↔
      ∃ input t, Parses x fuel (syntaxSource fs []) (inputSource fs rest) input t ∧
        ∃ o out, Printed input t o ∧ Command.show.run x fuel args = .ok (0, out) ∧ readJson out.text = some (jsonOf o) := by
  constructor
  · rintro ⟨out, he⟩
    have hr := he
    rw [run_show hh h] at he
    obtain ⟨⟨code, n⟩, h1, h2⟩ := Res.bind_eq_ok he
    unfold showCmd at h1
    obtain ⟨t, h3, h4⟩ := Res.bind_eq_ok h1
    cases t with
    | none => cases h4; cases h2
    | some t =>
      obtain ⟨input, hp⟩ := parseCmd_iff.1 h3
      obtain ⟨s, e, s', ⟨r, e', hs1, hs2⟩, h5, h6⟩ := hp
      obtain ⟨o, ho, hpr⟩ := C35_show (.read .empty hs2) h6
      simp only [ho, Res.bind_ok] at h4
      cases h4
      simp only at h2
      cases h2
      refine ⟨input, t, ⟨s, e, s', ⟨r, e', hs1, hs2⟩, h5, h6⟩, o, _, hpr, hr, ?_⟩
      have ht : (Out.print x.stdout {} (showText (boolFlag fs "pretty") (stringFlag fs "indent") o ++ [10])).text =
          showText (boolFlag fs "pretty") (stringFlag fs "indent") o ++ [10] := by
        simp [Out.print, Out.write, hw]
      rw [ht]
      exact (C48_json_partial hi o).2
  · rintro ⟨input, t, _, o, out, _, he, _⟩
    exact ⟨out, he⟩

/-- C49: when the input has a tree, show prints it. -/
theorem C49_shown_partial (hh : args.head? ≠ some (runes "-help")) (h : Flags (documented .show) args fs rest)
    (hi : ∀ c ∈ stringFlag fs "indent", Json.space c = true) (hw : ∀ i, x.stdout i = false) {input : List Rune} {t : Node}
    (hp : Parses x fuel (syntaxSource fs []) (inputSource fs rest) input t) :
    ∃ o out, Printed input t o ∧ Command.show.run x fuel args = .ok (0, out) ∧ readJson out.text = some (jsonOf o) := by
  have h0 := hp
  obtain ⟨s, e, s', ⟨r, e', hs1, hs2⟩, h5, h6⟩ := hp
  obtain ⟨o, ho, hpr⟩ := C35_show (.read .empty hs2) h6
  refine ⟨o, Out.print x.stdout {} (showText (boolFlag fs "pretty") (stringFlag fs "indent") o ++ [10]), hpr, ?_, ?_⟩
  · rw [run_show hh h]
    simp [showCmd, parseCmd_iff.2 ⟨input, h0⟩, ho]
  · have ht : (Out.print x.stdout {} (showText (boolFlag fs "pretty") (stringFlag fs "indent") o ++ [10])).text =
        showText (boolFlag fs "pretty") (stringFlag fs "indent") o ++ [10] := by
      simp [Out.print, Out.write, hw]
    rw [ht]
    exact (C48_json_partial hi o).2

/-- C49: the exit code of check-syntax is zero exactly when the syntax can be read and initialized, nothing is printed. -/
theorem C49_checkSyntax (hh : args.head? ≠ some (runes "-help")) (h : Flags (documented .checkSyntax) args fs rest) (out : Out) :
    Command.checkSyntax.run x fuel args = .ok (0, out) ↔
      out = {} ∧ ∃ s s', Reads x fuel (syntaxSource fs rest) s ∧ s.Init = .ok (s', none) := by
  rw [run_checkSyntax hh h]
  constructor
  · intro he
    obtain ⟨code, h1, h2⟩ := Res.bind_eq_ok he
    cases h2
    obtain ⟨r, e, s, s', h1, h2, h3⟩ := C34_checkSyntax.1 h1
    exact ⟨rfl, s, s', ⟨r, e, h1, h2⟩, h3⟩
  · rintro ⟨rfl, s, s', ⟨r, e, h1, h2⟩, h3⟩
    rw [C34_checkSyntax.2 ⟨r, e, s, s', h1, h2, h3⟩]
    rfl

/-- C49: the exit code of generate is zero exactly when `Generate` returns no error, and the standard output is what it
has written, for the given package name and the export flag (see C44 for the text). -/
theorem C49_generate (hh : args.head? ≠ some (runes "-help")) (h : Flags (documented .generate) args fs rest) (out : Out) :
    Command.generate.run x fuel args = .ok (0, out) ↔
      ∃ s s', Reads x fuel (syntaxSource fs rest) s ∧
        s.GenerateTo x.constants ⟨stringFlag fs "package-name", boolFlag fs "export"⟩ x.stdout = .ok (s', out, none) := by
  rw [run_generate hh h]
  constructor
  · intro he
    obtain ⟨s, h1, h2⟩ := Res.bind_eq_ok he
    cases s with
    | none => cases h2
    | some s =>
      simp only at h2
      obtain ⟨⟨s', o, e⟩, h3, h4⟩ := Res.bind_eq_ok h2
      cases e with
      | some e => cases h4
      | none => cases h4; exact ⟨s, s', openSyntax_iff.1 h1, h3⟩
  · rintro ⟨s, s', h1, h2⟩
    rw [openSyntax_iff.2 h1]
    simp [h2]

/-- `Generate` writes the program when no write fails. -/
theorem generateTo_iff {s s' : Syntax} {k : GenConstants} {opts : GeneratorOptions} {w : Writer} (hw : ∀ i, w i = false) :
    (∃ o, s.GenerateTo k opts w = .ok (s', o, none)) ↔ ∃ prog, s.Generate = .ok (s', .ok prog) := by
  constructor
  · rintro ⟨o, hg⟩
    obtain ⟨root, hi, hr, hc⟩ := GenerateTo_none hg
    obtain ⟨c, hp, _⟩ := (generateCode_wrote hc).2 rfl
    exact ⟨_, Generate_of hi hr hp⟩
  · rintro ⟨prog, hg⟩
    obtain ⟨o, e, hx⟩ := GenerateTo_ok (k := k) (opts := opts) (w := w) hg
    cases e with
    | false => exact ⟨o, hx⟩
    | true =>
      obtain ⟨i, _, hi⟩ := C45_real hx
      rw [hw i] at hi
      cases hi

theorem main_command (c : Command) (args : List Name) : mainCmd x fuel (commandName c :: args) = c.run x fuel args := by
  cases c <;> simp [mainCmd, commandName, runes]

theorem parse_exit {c : Command} (hc : c = .check ∨ c = .show) (hh : args.head? ≠ some (runes "-help"))
    (h : Flags (documented c) args fs rest) : (∃ out, c.run x fuel args = .ok (0, out)) ↔
      ∃ input t, Parses x fuel (syntaxSource fs []) (inputSource fs rest) input t := by
  rcases hc with rfl | rfl
  · constructor
    · rintro ⟨out, he⟩
      exact ((C49_check hh h out).1 he).2
    · exact fun hp => ⟨{}, (C49_check hh h {}).2 ⟨rfl, hp⟩⟩
  · rw [run_show hh h]
    constructor
    · rintro ⟨out, he⟩
      obtain ⟨⟨code, n⟩, h1, h2⟩ := Res.bind_eq_ok he
      unfold showCmd at h1
      obtain ⟨t, h3, h4⟩ := Res.bind_eq_ok h1
      cases t with
      | none => cases h4; cases h2
      | some t =>
        obtain ⟨input, hp⟩ := parseCmd_iff.1 h3
        exact ⟨input, t, hp⟩
    · rintro ⟨input, t, hp⟩
      have h0 := hp
      obtain ⟨s, e, s', ⟨r, e', hs1, hs2⟩, h5, h6⟩ := hp
      obtain ⟨o, ho, _⟩ := C35_show (.read .empty hs2) h6
      exact ⟨Out.print x.stdout {} (showText (boolFlag fs "pretty") (stringFlag fs "indent") o ++ [10]), by
        simp [showCmd, parseCmd_iff.2 ⟨input, h0⟩, ho]⟩

/-- C49: the exit code is zero exactly when it is possible to do what the command line asks for.  (Partial: the writes to the
standard output do not fail.) -/
theorem C49_exit_partial (hw : ∀ i, x.stdout i = false) (line : List Name) :
    (∃ out, mainCmd x fuel line = .ok (0, out)) ↔ Possible x fuel line := by
  have names : ∀ a : Name, (∃ c, a = commandName c) ∨ (a = runes "help" ∨ a = runes "-help") ∨
      ∀ args, mainCmd x fuel (a :: args) = .ok (-1, {}) := by
    intro a
    by_cases h1 : a = runes "check-syntax"
    · exact .inl ⟨.checkSyntax, h1⟩
    by_cases h2 : a = runes "generate"
    · exact .inl ⟨.generate, h2⟩
    by_cases h3 : a = runes "check"
    · exact .inl ⟨.check, h3⟩
    by_cases h4 : a = runes "show"
    · exact .inl ⟨.show, h4⟩
    by_cases h5 : a = runes "help" ∨ a = runes "-help"
    · exact .inr (.inl h5)
    · exact .inr (.inr fun args => by rw [mainCmd, if_neg h1, if_neg h2, if_neg h3, if_neg h4, if_neg h5])
  have help : ∀ {a : Name} (args : List Name), a = runes "help" ∨ a = runes "-help" →
      mainCmd x fuel (a :: args) = .ok (0, (x.help none).foldl (Out.print x.stdout) {}) := by
    intro a args h
    rcases h with rfl | rfl <;> simp [mainCmd, runes]
  constructor
  · rintro ⟨out, he⟩
    cases line with
    | nil => cases he
    | cons a args =>
      rcases names a with ⟨c, rfl⟩ | h | h
      · rw [main_command] at he
        by_cases hh : args.head? = some (runes "-help")
        · cases args with
          | nil => cases hh
          | cons b args => cases hh; exact .commandHelp c
        · cases hp : flagParse c.formal (args.length + 1) args with
          | none => rw [Command.run, if_neg hh, hp] at he; cases he
          | some y =>
            obtain ⟨fs, rest⟩ := y
            have hf := (flagParse_iff c _ _ _).1 hp
            cases c with
            | check =>
              obtain ⟨input, t, hx⟩ := (parse_exit (.inl rfl) hh hf).1 ⟨out, he⟩
              exact .parse (.inl rfl) hh hf hx
            | «show» =>
              obtain ⟨input, t, hx⟩ := (parse_exit (.inr rfl) hh hf).1 ⟨out, he⟩
              exact .parse (.inr rfl) hh hf hx
            | checkSyntax =>
              obtain ⟨_, s, s', h1, h2⟩ := (C49_checkSyntax hh hf out).1 he
              exact .checkSyntax hh hf h1 h2
            | generate =>
              obtain ⟨s, s', h1, h2⟩ := (C49_generate hh hf out).1 he
              obtain ⟨prog, h3⟩ := (generateTo_iff hw).1 ⟨out, h2⟩
              exact .generate hh hf h1 h3
      · exact .help h
      · rw [h] at he; cases he
  · intro hp
    cases hp with
    | help h => exact ⟨_, help _ h⟩
    | commandHelp c => exact ⟨_, by rw [main_command]; exact run_help rfl⟩
    | parse hc hh hf hx =>
      rw [main_command]
      exact (parse_exit hc hh hf).2 ⟨_, _, hx⟩
    | checkSyntax hh hf h1 h2 =>
      have := main_command (x := x) (fuel := fuel) .checkSyntax
      simp only [commandName] at this
      rw [this]
      exact ⟨{}, (C49_checkSyntax hh hf {}).2 ⟨rfl, _, _, h1, h2⟩⟩
    | generate hh hf h1 h2 =>
      have := main_command (x := x) (fuel := fuel) .generate
      simp only [commandName] at this
      rw [this]
      obtain ⟨o, ho⟩ := (generateTo_iff hw).2 ⟨_, h2⟩
      exact ⟨o, (C49_generate hh hf o).2 ⟨_, _, h1, ho⟩⟩

/-- C49: the exit code is zero or minus one; when it is not zero then nothing was printed.  (Partial: the writes to the
standard output do not fail.) -/
theorem C49_failure_partial (hw : ∀ i, x.stdout i = false) (line : List Name) {code : Int} {out : Out}
    (h : mainCmd x fuel line = .ok (code, out)) : code = 0 ∨ (code = -1 ∧ out = {}) := by
  have run : ∀ (c : Command) (args : List Name), c.run x fuel args = .ok (code, out) → code = 0 ∨ (code = -1 ∧ out = {}) := by
    intro c args he
    by_cases hh : args.head? = some (runes "-help")
    · rw [run_help hh] at he; cases he; exact .inl rfl
    · cases hp : flagParse c.formal (args.length + 1) args with
      | none => rw [Command.run, if_neg hh, hp] at he; cases he; exact .inr ⟨rfl, rfl⟩
      | some y =>
        obtain ⟨fs, rest⟩ := y
        have hf := (flagParse_iff c _ _ _).1 hp
        cases c with
        | check =>
          rw [run_check hh hf] at he
          obtain ⟨cd, h1, h2⟩ := Res.bind_eq_ok he
          cases h2
          unfold checkCmd at h1
          obtain ⟨n, _, h3⟩ := Res.bind_eq_ok h1
          cases n with
          | none => cases h3; exact .inr ⟨rfl, rfl⟩
          | some n => cases h3; exact .inl rfl
        | «show» =>
          rw [run_show hh hf] at he
          obtain ⟨⟨cd, n⟩, h1, h2⟩ := Res.bind_eq_ok he
          unfold showCmd at h1
          obtain ⟨t, h3, h4⟩ := Res.bind_eq_ok h1
          cases t with
          | none => cases h4; cases h2; exact .inr ⟨rfl, rfl⟩
          | some t =>
            obtain ⟨o, h5, h6⟩ := Res.bind_eq_ok h4
            cases h6; cases h2; exact .inl rfl
        | checkSyntax =>
          rw [run_checkSyntax hh hf] at he
          obtain ⟨cd, h1, h2⟩ := Res.bind_eq_ok he
          cases h2
          unfold checkSyntaxCmd at h1
          obtain ⟨s, _, h3⟩ := Res.bind_eq_ok h1
          cases s with
          | none => cases h3; exact .inr ⟨rfl, rfl⟩
          | some s =>
            simp only at h3
            obtain ⟨⟨s', e⟩, _, h4⟩ := Res.bind_eq_ok h3
            cases e with
            | none => cases h4; exact .inl rfl
            | some e => cases h4; exact .inr ⟨rfl, rfl⟩
        | generate =>
          rw [run_generate hh hf] at he
          obtain ⟨s, _, h2⟩ := Res.bind_eq_ok he
          cases s with
          | none => cases h2; exact .inr ⟨rfl, rfl⟩
          | some s =>
            simp only at h2
            obtain ⟨⟨s', o, e⟩, h3, h4⟩ := Res.bind_eq_ok h2
            cases e with
            | none => cases h4; exact .inl rfl
            | some e =>
              cases h4
              right
              refine ⟨rfl, ?_⟩
              cases e with
              | write =>
                obtain ⟨i, _, hi⟩ := C45_real h3
                rw [hw i] at hi
                cases hi
              | «syntax» e =>
                rcases GenerateTo_cases h3 with ⟨e1, _, _, h⟩ | ⟨root, b, _, _, _, h⟩
                · exact h
                · cases b <;> cases h
  cases line with
  | nil => cases h; exact .inr ⟨rfl, rfl⟩
  | cons a args =>
    rw [mainCmd] at h
    split at h
    · exact run _ _ h
    · split at h
      · exact run _ _ h
      · split at h
        · exact run _ _ h
        · split at h
          · exact run _ _ h
          · split at h
            · cases h; exact .inl rfl
            · cases h; exact .inr ⟨rfl, rfl⟩

end

/-! ### Examples -/

/-- A standard input and a file `f`, and a standard output where the writes with the given numbers fail. -/
def surroundings (fails : List Nat) : Surroundings where
  world := ⟨fun n => if n = runes "f" then some (runes "12", none) else none, some (runes "n=[0-9];s:root=n n", none)⟩
  stdout := fun i => fails.contains i
  constants := ⟨runes "// doc", runes "type Node struct{}"⟩
  help := fun _ => [runes "help\n"]

/-- The exit code and the text of a call. -/
def called (fails : List Nat) (args : List String) : Option (Int × List Rune) :=
  match mainCmd (surroundings fails) 100000 (args.map runes) with
  | .ok (code, out) => some (code, out.text)
  | _ => none

def jsonSample : List Rune := runes
  "{\"name\":\"s\",\"from\":0,\"to\":2,\"nodes\":[{\"name\":\"n\",\"from\":0,\"to\":1,\"text\":\"1\"},{\"name\":\"n\",\"from\":1,\"to\":2,\"text\":\"2\"}]}\n"

example : called [] ["show", "-input", "g", "--syntax-string=n=[0-9];s:root=n n", "-input=f"] = some (0, jsonSample) := by
  decide +kernel
example : called [] ["show", "-syntax-string", "n=[0-9];s:root=n n", "--", "f"] = some (0, jsonSample) := by decide +kernel
example : called [] ["show", "f"] = some (0, jsonSample) := by decide +kernel
example : called [] ["check", "f", "g"] = some (-1, []) := by decide +kernel
example : called [] ["check-syntax"] = some (0, []) := by decide +kernel
example : called [] ["check-syntax", "-input", "f"] = some (-1, []) := by decide +kernel
example : called [] ["check-syntax", "-help"] = some (0, runes "help\n") := by decide +kernel
example : called [] ["parse"] = some (-1, []) := by decide +kernel

example : Flags (documented .show) ([ "-input", "g", "--pretty=F", "-pretty", "f", "-indent"].map runes)
    [(runes "input", .string (runes "g")), (runes "pretty", .bool false), (runes "pretty", .bool true)] (["f", "-indent"].map runes) :=
  .separate (d := [45]) (name := runes "input") (.inl rfl) rfl
    (.assigned (d := [45, 45]) (name := runes "pretty") (text := runes "F") (.inr rfl) rfl (.no (by decide))
      (.switch (d := [45]) (name := runes "pretty") (.inl rfl) rfl (.positional (.inl (by decide)))))

/-- C49 does not hold without the condition about the writes: the exit code of show is zero, although it could not print the
tree. -/
theorem C49_output_counterexample : called [0] ["show", "f"] = some (0, []) := by decide +kernel

end Treerack
