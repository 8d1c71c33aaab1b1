import Verif.Proofs.Returns
import Verif.Props.Unmatched
import Verif.Props.Main
import Verif.Props.DocGen
import Verif.Props.Examples

/-
C65: the commands end with an exit code.

`Made cs s`: s is the result of the accepted definitions cs (Spec/Api.lean).  `Flags`, `documented`, `syntaxSource`, `inputSource`, `Reads`:
Spec of C49.
-/

namespace Treerack
open Spec Samples

variable {cs : List Call} {s s' : Syntax} {x : Surroundings} {args : List Name}

/-- The source, when it can be opened, delivers valid unicode. -/
def ValidSource (w : World) (o : FileOptions) : Prop := ∀ text e, o.open w = some (text, e) → replacementChar ∉ text

/-- The command ends with an exit code. -/
def Exits (run : Nat → Res (Int × Out)) : Prop := ∃ N code out, (code = 0 ∨ code = -1) ∧ ∀ n, N ≤ n → run n = .ok (code, out)

/-- C65: Init returns after accepted definitions. -/
theorem C65_init (h : Made cs s) : ∃ s' e, s.Init = .ok (s', e) := Init_made h

/-- C65: Generate returns after accepted definitions, whatever writes fail. -/
theorem C65_generate (h : Made cs s) (k : GenConstants) (opts : GeneratorOptions) (w : Writer) :
    ∃ s' out e, s.GenerateTo k opts w = .ok (s', out, e) := by
  obtain ⟨s', e, hi⟩ := Init_made h
  cases e with
  | some e => exact ⟨s', _, _, GenerateTo_error hi⟩
  | none =>
    obtain ⟨-, -, hl, -⟩ := (made_history h).initialized hi
    obtain ⟨root, hr, hC⟩ := hl.closed
    obtain ⟨prog, hp⟩ := generateProgram_returns hC
    obtain ⟨o, e, hx⟩ := GenerateTo_ok (k := k) (opts := opts) (w := w) (Generate_of hi hr hp)
    exact ⟨s', o, _, hx⟩

/-- The document in the source is read as the syntax. -/
def Settles (x : Surroundings) (src : FileOptions) (s : Syntax) : Prop := ∃ N, ∀ n, N ≤ n → Reads x n src s

/-- Reading the syntax of a command. -/
theorem openSyntax_ends {src : FileOptions} (hv : ValidSource x.world src) :
    ∃ N o, (∀ n, N ≤ n → src.openSyntax x.world n = .ok o) ∧ ∀ s, o = some s → (∃ cs, Made cs s) ∧ Settles x src s := by
  cases ho : src.open x.world with
  | none => exact ⟨0, none, fun n _ => by simp [FileOptions.openSyntax, ho], by simp⟩
  | some y =>
    obtain ⟨text, e⟩ := y
    obtain ⟨N, s, err, hN⟩ := C54_outcome_partial (s := {}) (hv text e ho) e
    cases err with
    | some err => exact ⟨N, none, fun n hn => by simp [FileOptions.openSyntax, ho, hN n hn], by simp⟩
    | none =>
      refine ⟨N, some s, fun n hn => by simp [FileOptions.openSyntax, ho, hN n hn], fun s1 h1 => ?_⟩
      cases h1
      have h0 := hN N (Nat.le_refl _)
      obtain ⟨-, doc, hw, -, -⟩ := C30_read_only h0
      exact ⟨⟨_, read_made hw h0⟩, N, fun n hn => ⟨text, e, ho, hN n hn⟩⟩

/-- C65: check-syntax ends with an exit code, for every document that is valid unicode. -/
theorem C65_checkSyntax (hv : ∀ fs rest, Flags (documented .checkSyntax) args fs rest → ValidSource x.world (syntaxSource fs rest)) :
    Exits fun n => Command.checkSyntax.run x n args := by
  by_cases hh : args.head? = some (runes "-help")
  · exact ⟨0, 0, (x.help (some .checkSyntax)).foldl (Out.print x.stdout) {}, .inl rfl, fun n _ => by simp [Command.run, hh]⟩
  · by_cases hf : ∃ fs rest, Flags (documented .checkSyntax) args fs rest
    · obtain ⟨fs, rest, hf⟩ := hf
      obtain ⟨N, o, hN, ho⟩ := openSyntax_ends (hv fs rest hf)
      cases o with
      | none => exact ⟨N, -1, {}, .inr rfl, fun n hn => by simp [run_checkSyntax hh hf, checkSyntaxCmd, hN n hn]⟩
      | some s =>
        obtain ⟨⟨cs, hm⟩, -⟩ := ho s rfl
        obtain ⟨s', e, hi⟩ := Init_made hm
        cases e with
        | none => exact ⟨N, 0, {}, .inl rfl, fun n hn => by simp [run_checkSyntax hh hf, checkSyntaxCmd, hN n hn, hi]⟩
        | some e => exact ⟨N, -1, {}, .inr rfl, fun n hn => by simp [run_checkSyntax hh hf, checkSyntaxCmd, hN n hn, hi]⟩
    · exact ⟨0, -1, {}, .inr rfl, fun n _ => C49_refused hh hf⟩

/-- C65: generate ends with an exit code, for every document that is valid unicode. -/
theorem C65_generate_command (hv : ∀ fs rest, Flags (documented .generate) args fs rest → ValidSource x.world (syntaxSource fs rest)) :
    Exits fun n => Command.generate.run x n args := by
  by_cases hh : args.head? = some (runes "-help")
  · exact ⟨0, 0, (x.help (some .generate)).foldl (Out.print x.stdout) {}, .inl rfl, fun n _ => by simp [Command.run, hh]⟩
  · by_cases hf : ∃ fs rest, Flags (documented .generate) args fs rest
    · obtain ⟨fs, rest, hf⟩ := hf
      obtain ⟨N, o, hN, ho⟩ := openSyntax_ends (hv fs rest hf)
      cases o with
      | none => exact ⟨N, -1, {}, .inr rfl, fun n hn => by simp [run_generate hh hf, hN n hn]⟩
      | some s =>
        obtain ⟨⟨cs, hm⟩, -⟩ := ho s rfl
        obtain ⟨s', out, e, hg⟩ := C65_generate hm x.constants ⟨stringFlag fs "package-name", boolFlag fs "export"⟩ x.stdout
        cases e with
        | none => exact ⟨N, 0, out, .inl rfl, fun n hn => by simp [run_generate hh hf, hN n hn, hg]⟩
        | some e => exact ⟨N, -1, out, .inr rfl, fun n hn => by simp [run_generate hh hf, hN n hn, hg]⟩
    · exact ⟨0, -1, {}, .inr rfl, fun n _ => C49_refused hh hf⟩

/-- The parser of the syntax does not panic on valid unicode. -/
def Panicless (s : Syntax) : Prop := ∀ n input rend, replacementChar ∉ input → s.Parse n input rend ≠ .panic

/-- Parsing returns, whether or not the syntax can be initialized. -/
theorem Parse_ends (hm : Made cs s) (hp : Panicless s) {input : List Rune} (hv : replacementChar ∉ input) (rend : Option Nat) :
    ∃ N s' r, ∀ n, N ≤ n → s.Parse n input rend = .ok (s', r) := by
  obtain ⟨s', e, hi⟩ := Init_made hm
  cases e with
  | some e => exact ⟨0, s', _, fun n _ => by unfold Syntax.Parse; rw [hi]; rfl⟩
  | none =>
    obtain ⟨N, r, h1, hN⟩ := Parse_terminates (made_history hm) hi input rend
    cases r with
    | oof => exact absurd rfl h1
    | panic => exact absurd (hN N (Nat.le_refl _)) (hp N input rend hv)
    | ok y => exact ⟨N, y.1, y.2, hN⟩

theorem parseCmd_ends {syn inp : FileOptions} (hv : ValidSource x.world syn) (hi : ValidSource (syn.after x.world) inp)
    (hp : ∀ s, Settles x syn s → Panicless s) :
    ∃ N o, (∀ n, N ≤ n → parseCmd x.world n syn inp = .ok o) := by
  obtain ⟨N, o, hN, ho⟩ := openSyntax_ends hv
  cases o with
  | none => exact ⟨N, none, fun n hn => by simp [parseCmd, hN n hn]⟩
  | some s =>
    obtain ⟨⟨cs, hm⟩, hr⟩ := ho s rfl
    cases hx : inp.open (syn.after x.world) with
    | none => exact ⟨N, none, fun n hn => by simp [parseCmd, hN n hn, hx]⟩
    | some y =>
      obtain ⟨text, e⟩ := y
      obtain ⟨M, s', r, hM⟩ := Parse_ends hm (hp s hr) (hi text e hx) e
      refine ⟨max N M, match r with | .node t => some t | _ => none, fun n hn => ?_⟩
      simp only [parseCmd, hN n (by omega), Res.bind_ok, hx, hM n (by omega)]
      cases r <;> rfl

variable {fs : List (Name × FlagValue)} {rest : List Name}

/-- C65: check ends with an exit code, when the parser of the syntax does not panic.  (Partial: see C13 for when it does.) -/
theorem C65_check_partial (hh : args.head? ≠ some (runes "-help")) (hf : Flags (documented .check) args fs rest)
    (hv : ValidSource x.world (syntaxSource fs [])) (hi : ValidSource ((syntaxSource fs []).after x.world) (inputSource fs rest))
    (hp : ∀ s, Settles x (syntaxSource fs []) s → Panicless s) : Exits fun n => Command.check.run x n args := by
  obtain ⟨N, o, hN⟩ := parseCmd_ends hv hi hp
  cases o with
  | none => exact ⟨N, -1, {}, .inr rfl, fun n hn => by simp [run_check hh hf, checkCmd, hN n hn]⟩
  | some t => exact ⟨N, 0, {}, .inl rfl, fun n hn => by simp [run_check hh hf, checkCmd, hN n hn]⟩

/-- C65: the same for show. -/
theorem C65_show_partial (hh : args.head? ≠ some (runes "-help")) (hf : Flags (documented .show) args fs rest)
    (hv : ValidSource x.world (syntaxSource fs [])) (hi : ValidSource ((syntaxSource fs []).after x.world) (inputSource fs rest))
    (hp : ∀ s, Settles x (syntaxSource fs []) s → Panicless s) : Exits fun n => Command.show.run x n args := by
  obtain ⟨N, o, hN⟩ := parseCmd_ends hv hi hp
  cases o with
  | none => exact ⟨N, -1, {}, .inr rfl, fun n hn => by simp [run_show hh hf, showCmd, hN n hn]⟩
  | some t =>
    obtain ⟨input, s, e, s', ⟨r, e', hs1, hs2⟩, h5, h6⟩ := parseCmd_iff.1 (hN N (Nat.le_refl _))
    obtain ⟨y, hy, -⟩ := C35_show (.read .empty hs2) h6
    exact ⟨N, 0, Out.print x.stdout {} (showText (boolFlag fs "pretty") (stringFlag fs "indent") y ++ [10]), .inl rfl,
      fun n hn => by simp [run_show hh hf, showCmd, hN n hn, hy]⟩

/-- The documents of C64. -/
def exampleTexts : List (List Rune) := [jsonText, sexprText, schemeText, keyvalText, eskipText]

theorem settles_panicless {src : FileOptions} {text : List Rune} (ht : text ∈ exampleTexts)
    (ho : src.open x.world = some (text, none)) : ∀ s, Settles x src s → Panicless s := by
  have key : ∀ {doc s0 s1 prog top}, Dependable text doc s0 s1 prog top → Panicless s0 → ∀ s, Settles x src s → Panicless s := by
    intro doc s0 s1 prog top hd hp s ⟨M, hM⟩
    obtain ⟨N, hN⟩ := hd.read
    obtain ⟨r, e, h1, h2⟩ := hM (max N M) (by omega)
    rw [ho] at h1
    cases h1
    rw [hN _ (by omega)] at h2
    cases h2
    exact hp
  simp only [exampleTexts, List.mem_cons, List.not_mem_nil, or_false] at ht
  rcases ht with rfl | rfl | rfl | rfl | rfl
  · obtain ⟨_, _, _, _, _, h, hp⟩ := C64_json; exact key h hp
  · obtain ⟨_, _, _, _, _, h, hp⟩ := C64_sexpr; exact key h hp
  · obtain ⟨_, _, _, _, _, h, hp⟩ := C64_scheme; exact key h hp
  · obtain ⟨_, _, _, _, _, h, hp⟩ := C64_keyval; exact key h hp
  · obtain ⟨_, _, _, _, _, h, hp⟩ := C64_eskip; exact key h hp

theorem examples_valid {text : List Rune} (ht : text ∈ exampleTexts) : replacementChar ∉ text := by
  have h : (exampleTexts.all fun t => !t.contains replacementChar) = true := by decide +kernel
  have := List.all_eq_true.1 h text ht
  simpa using this

theorem examples_source {w : World} {src : FileOptions} {text : List Rune} (ht : text ∈ exampleTexts)
    (ho : src.open w = some (text, none)) : ValidSource w src := by
  intro t e h
  rw [ho] at h
  cases h
  exact examples_valid ht

/-- C65: check and show end with an exit code for every input that is valid unicode, with the documents of C64. -/
theorem C65_examples {text : List Rune} (ht : text ∈ exampleTexts)
    (hh : args.head? ≠ some (runes "-help")) (ho : (syntaxSource fs []).open x.world = some (text, none))
    (hi : ValidSource ((syntaxSource fs []).after x.world) (inputSource fs rest)) :
    (Flags (documented .check) args fs rest → Exits fun n => Command.check.run x n args) ∧
    (Flags (documented .show) args fs rest → Exits fun n => Command.show.run x n args) :=
  ⟨fun hf => C65_check_partial hh hf (examples_source ht ho) hi (settles_panicless ht ho),
   fun hf => C65_show_partial hh hf (examples_source ht ho) hi (settles_panicless ht ho)⟩

/-- An ordinary document, see `C13_error_panic_counterexample`. -/
def optText : List Rune := runes "b=\"y\"|\"z\";c=s|\"w\";s=\"x\" b?;r:root=c b"

/-- C65: check does not end with an exit code for every document and every input: check-syntax accepts the document in `optText`, and
check panics with the input `xq`. -/
theorem C65_check_counterexample : ∃ N, ∀ n, N ≤ n →
    Command.checkSyntax.run (surroundings []) n [runes "-syntax-string", optText] = .ok (0, {}) ∧
    Command.check.run (surroundings []) n [runes "-syntax-string", optText, runes "-input-string", runes "xq"] = .panic := by
  have key : (fromText 200 optText).map (fun x => panics (x.2.1.Parse 60 (runes "xq") none)) = some true := by decide +kernel
  obtain ⟨⟨doc, s, s', prog⟩, hx, e⟩ := Option.map_eq_some_iff.1 key
  obtain ⟨-, ⟨N, h2⟩, h3⟩ := fromText_ok hx (by decide +kernel)
  obtain ⟨root, hi, -⟩ := Generate_cases h3
  have ho : (syntaxSource [(runes "syntax-string", .string optText)] []).open (surroundings []).world = some (optText, none) := by
    decide +kernel
  have hi2 : (inputSource [(runes "syntax-string", .string optText), (runes "input-string", .string (runes "xq"))] []).open
      ((syntaxSource [(runes "syntax-string", .string optText), (runes "input-string", .string (runes "xq"))] []).after
        (surroundings []).world) = some (runes "xq", none) := by decide +kernel
  have ho2 : (syntaxSource [(runes "syntax-string", .string optText), (runes "input-string", .string (runes "xq"))] []).open
      (surroundings []).world = some (optText, none) := by decide +kernel
  have hf : Flags (documented .checkSyntax) [runes "-syntax-string", optText] [(runes "syntax-string", .string optText)] [] :=
    .separate (d := [45]) (name := runes "syntax-string") (.inl rfl) (by decide +kernel) .nil
  have hf2 : Flags (documented .check) [runes "-syntax-string", optText, runes "-input-string", runes "xq"]
      [(runes "syntax-string", .string optText), (runes "input-string", .string (runes "xq"))] [] :=
    .separate (d := [45]) (name := runes "syntax-string") (.inl rfl) (by decide +kernel)
      (.separate (d := [45]) (name := runes "input-string") (.inl rfl) (by decide +kernel) .nil)
  refine ⟨max N 60, fun n hn => ⟨?_, ?_⟩⟩
  · rw [run_checkSyntax (by decide +kernel) hf]
    simp [checkSyntaxCmd, FileOptions.openSyntax, ho, h2 n (by omega), hi]
  · rw [run_check (by decide +kernel) hf2]
    simp [checkCmd, parseCmd, FileOptions.openSyntax, ho2, h2 n (by omega), hi2, panics_le (panics_ok e) (show 60 ≤ n by omega)]

/-! ### Examples -/

/-- The document on the standard input of the examples of C49, with an input file. -/
example : Flags (documented .check) (["f"].map runes) [] [runes "f"] ∧ Flags (documented .checkSyntax) [] [] [] ∧
    ValidSource (surroundings []).world (syntaxSource [] []) ∧
    ValidSource ((syntaxSource [] []).after (surroundings []).world) (inputSource [] [runes "f"]) := by
  refine ⟨.positional (.inl (by decide)), .nil, ?_, ?_⟩ <;> intro t e h
  · have : (syntaxSource [] []).open (surroundings []).world = some (runes "n=[0-9];s:root=n n", none) := by decide +kernel
    rw [this] at h; cases h; decide +kernel
  · have : (inputSource [] [runes "f"]).open ((syntaxSource [] []).after (surroundings []).world) = some (runes "12", none) := by
      decide +kernel
    rw [this] at h; cases h; decide +kernel

/-- Both exit codes occur. -/
example : called [] ["check", "f"] = some (0, []) ∧ called [] ["check", "-input-string=1"] = some (-1, []) := by decide +kernel

/-- The example documents in the source, as a file. -/
def exampleWorld (text : List Rune) : Surroundings :=
  { surroundings [] with world := ⟨fun n => if n = runes "s" then some (text, none) else none, some (runes "[1]", none)⟩ }

example (text : List Rune) (ht : text ∈ exampleTexts) : Exits fun n => Command.check.run (exampleWorld text) n (["-syntax", "s"].map runes) := by
  refine (C65_examples (fs := [(runes "syntax", .string (runes "s"))]) (rest := []) ht (by decide) ?_ ?_).1
    (.separate (d := [45]) (name := runes "syntax") (.inl rfl) (by decide +kernel) .nil)
  · rfl
  · intro t e h
    have h' : some (runes "[1]", (none : Option Nat)) = some (t, e) := h
    cases h'
    decide +kernel

end Treerack
