import Verif.Proofs.DocGen
import Verif.Proofs.ReadDoc

/-
C56: the parser that is generated from a document.
-/

namespace Treerack
open Spec

section

variable {doc : Document} {text : List Rune} {n : Nat} {rend : Option Nat} {s s' : Syntax}

theorem read_made (hw : WrittenDocument doc text) (hr : ({} : Syntax).ReadSyntax (selfParse n text rend) = .ok (s, none)) :
    Made (documentCalls doc) s :=
  Made.documents (pre := []) .empty (read_calls hw hr)

/-- A syntax can be initialized only with a root. -/
theorem read_root (hw : WrittenDocument doc text) (hr : ({} : Syntax).ReadSyntax (selfParse n text rend) = .ok (s, none))
    (hi : s.Init = .ok (s', none)) : ∃ d ∈ doc, docRoot doc = some d ∧ rootOf (documentCalls doc) = some d.name := by
  cases hd : docRoot doc with
  | some d =>
    refine ⟨d, ?_, rfl, ?_⟩
    · unfold docRoot at hd
      split at hd
      · rename_i x hx
        cases hd
        exact (List.mem_filter.1 (List.mem_of_mem_head? hx)).1
      · exact List.mem_of_getLast? hd
    · rw [document_root, hd]
      rfl
  | none =>
    have hdoc : doc = [] := by
      unfold docRoot at hd
      split at hd
      · cases hd
      · exact List.getLast?_eq_none_iff.1 hd
    subst hdoc
    have := read_calls hw hr
    cases this
    cases hi

/-- C56: for every document that can be initialized, a program is generated whose variables are declared once and before they are
used, and which returns for every input what the syntax of the document returns, with the same errors up to the name of the root
definition.  (Partial: the keywords of documents with whitespace definitions are texts, choices, or without whitespace, and the
symbols are not numbers then.) -/
theorem C56_program_partial (hw : WrittenDocument doc text)
    (hr : ({} : Syntax).ReadSyntax (selfParse n text rend) = .ok (s, none)) (hws : DocumentWsSafe doc)
    (hi : s.Init = .ok (s', none)) :
    ∃ prog d, s.Generate = .ok (s', .ok prog) ∧ docRoot doc = some d ∧
      WellDeclared prog.parsers (prog.keywords ++ [prog.rootParser]) ∧ WellDeclared prog.builders [prog.rootBuilder] ∧
      ∀ fuel input rend, SameOutcome d.name (s.result fuel input rend) (prog.run fuel input rend) := by
  have hm := read_made hw hr
  have hsym := WrittenDocument.symbols hw
  have hpl := document_plainRefs hm hsym
  have hsafe := document_wsSafe hsym hws
  obtain ⟨d, hd, hroot, hn⟩ := read_root hw hr hi
  obtain ⟨prog, hg⟩ := (C36_generated_partial hm hpl hsafe).1.1 hi
  obtain ⟨h1, h2⟩ := C36_declared_partial hm hpl hsafe hg
  refine ⟨prog, d, hg, hroot, h1, h2, fun fuel input rend => ?_⟩
  have := C37_outcome_partial hm hpl hsafe hg hn fuel input rend
  rwa [definitionPart_noColon (hsym d hd).1] at this

/-- C56: for every document without whitespace definitions that can be initialized, the generated program returns exactly what the
syntax of the document returns. -/
theorem C56_equal_partial (hw : WrittenDocument doc text)
    (hr : ({} : Syntax).ReadSyntax (selfParse n text rend) = .ok (s, none)) (hws : ∀ d ∈ doc, d.flags.whitespace = false)
    (hi : s.Init = .ok (s', none)) :
    ∃ prog, s.Generate = .ok (s', .ok prog) ∧
      ∀ fuel input rend, s.result fuel input rend = (prog.run fuel input rend).bind fun r => .ok (asResult r) := by
  have hsym := WrittenDocument.symbols hw
  obtain ⟨prog, -, hg, -⟩ := C56_program_partial hw hr (fun ⟨d, hd, h⟩ => by rw [hws d hd] at h; cases h) hi
  refine ⟨prog, hg, ?_⟩
  obtain ⟨d, hd, -, hn⟩ := read_root hw hr hi
  have hcalls : ((documentCalls doc).map Act.document).map Act.call = documentCalls doc := by
    rw [List.map_map]
    exact List.map_id'' (fun _ => rfl) _
  have hacts := internalCalls_acts (read_calls hw hr)
  refine C37_equal_partial hacts ?_ ?_ ?_ hg
  · rw [hcalls]
    exact document_plainRefs (read_made hw hr) hsym
  · intro a ha
    obtain ⟨c, hc, rfl⟩ := List.mem_map.1 ha
    exact (documentCalls_commit (f := Commit.whitespace) (fun _ => rfl) (fun _ h => Or.inr (Or.inl h))).2 hws c hc
  · intro a ha he
    obtain ⟨c, hc, rfl⟩ := List.mem_map.1 ha
    rw [hcalls, hn] at he
    obtain ⟨e, he', hc⟩ := List.mem_flatMap.1 hc
    rcases calls_user e.expr hc with h | h
    · have : c.name = d.name := Option.some.inj he
      rw [this] at h
      exact ((hsym d hd).1 h).elim
    · show c.commit.userDefined = true
      rw [h]

/-- C56: the text of the program.  When all writes succeed, then the generated file consists of the given code and of a function
that is read as the program.  (Partial: U+0000 and U+FEFF in the names of the definitions, and as above.) -/
theorem C56_text_partial (hw : WrittenDocument doc text)
    (hr : ({} : Syntax).ReadSyntax (selfParse n text rend) = .ok (s, none)) (hws : DocumentWsSafe doc)
    (hi : s.Init = .ok (s', none)) (hn : ∀ d ∈ doc, ∀ x ∈ d.name, x ≠ 0 ∧ x ≠ 0xFEFF) {k : GenConstants} {opts : GeneratorOptions}
    {w : Writer} (hwr : ∀ i, w i = false) :
    ∃ o function prog d, s.GenerateTo k opts w = .ok (s', o, none) ∧
      o.text = fileFront k.gendoc k.headCode opts.package ++ function ∧ readFunction function = some (opts.exported, prog) ∧
      docRoot doc = some d ∧ ∀ fuel input rend, SameOutcome d.name (s.result fuel input rend) (prog.run fuel input rend) := by
  obtain ⟨prog, d, hg, hd, -, -, ho⟩ := C56_program_partial hw hr hws hi
  obtain ⟨o, t, h1, h2, h3⟩ := (C44_text_partial (k := k) (opts := opts) (read_made hw hr) (document_quotable hw hn) hwr).1 hg
  exact ⟨o, t, prog, d, h1, h2, h3, hd, ho⟩

/-- C56: the texts that are accepted by the generated program are texts of the root definition of the document.  (Partial: the
quantifiers are sound, see C33, and as above.) -/
theorem C56_language_partial (hw : WrittenDocument doc text)
    (hr : ({} : Syntax).ReadSyntax (selfParse n text rend) = .ok (s, none)) (hws : DocumentWsSafe doc)
    (hsound : ∀ d ∈ doc, d.expr.Sound) {prog : Program} (hg : s.Generate = .ok (s', .ok prog)) {fuel : Nat} {input : List Rune}
    {rend : Option Nat} {t : Node} (hp : prog.run fuel input rend = .ok (.ok t)) :
    ∃ d, docRoot doc = some d ∧ DefWs doc input d 0 input.length := by
  have hm := read_made hw hr
  have hsym := WrittenDocument.symbols hw
  obtain ⟨root, hi, -⟩ := Generate_cases hg
  obtain ⟨d, hd, hroot, hn⟩ := read_root hw hr hi
  have ho := C37_outcome_partial hm (document_plainRefs hm hsym) (document_wsSafe hsym hws) hg hn fuel input rend
  rw [hp] at ho
  obtain ⟨s1, hp1⟩ : ∃ s1, s.Parse fuel input rend = .ok (s1, .node t) := by
    generalize hx : s.result fuel input rend = x at ho
    have : x = .ok (.node t) := by cases ho; rfl
    rw [this] at hx
    unfold Syntax.result at hx
    obtain ⟨⟨s1, r⟩, h1, h2⟩ := Res.bind_eq_ok hx
    cases h2
    exact ⟨s1, h1⟩
  obtain ⟨root, h1, h2⟩ := C19_soundness_partial hm (document_wsSafe hsym hws) hp1
  rw [hn] at h1
  cases h1
  exact ⟨d, hroot, (document_language_ws hm hsym hsound hd input 0 input.length).1 h2⟩

end

/-! ### Documents -/

/-- A text that is read as a document. -/
theorem reads {k : Nat} {text : List Rune} {doc : Document} {s : Syntax} (h : readDocument k text = some doc)
    (hv : replacementChar ∉ text) (hf : doc.fits = true) (hc : ({} : Syntax).internalCalls (documentCalls doc) = (s, none)) :
    WrittenDocument doc text ∧ ∃ N, ∀ n, N ≤ n → ({} : Syntax).ReadSyntax (selfParse n text none) = .ok (s, none) := by
  have hw := readDocument_sound h
  refine ⟨hw, ?_⟩
  obtain ⟨N, tree, hd, hN⟩ := C30_text hw hv
  refine ⟨N, fun n hn => ?_⟩
  rw [hN n hn, C30_calls hd hf, hc]
  rfl

/-- What is read and generated from a text. -/
def fromText (k : Nat) (text : List Rune) : Option (Document × Syntax × Syntax × Program) :=
  match readDocument k text with
  | some doc =>
    match ({} : Syntax).internalCalls (documentCalls doc) with
    | (s, none) =>
      match s.Generate with
      | .ok (s', .ok prog) => if doc.fits then some (doc, s, s', prog) else none
      | _ => none
    | _ => none
  | none => none

theorem fromText_ok {k : Nat} {text : List Rune} {doc : Document} {s s' : Syntax} {prog : Program}
    (h : fromText k text = some (doc, s, s', prog)) (hv : replacementChar ∉ text) :
    WrittenDocument doc text ∧ (∃ N, ∀ n, N ≤ n → ({} : Syntax).ReadSyntax (selfParse n text none) = .ok (s, none)) ∧
    s.Generate = .ok (s', .ok prog) := by
  unfold fromText at h
  split at h
  · rename_i hd
    split at h
    · rename_i hc
      split at h
      · rename_i hg
        split at h
        · rename_i hf
          cases h
          obtain ⟨h1, h2⟩ := reads hd hv hf hc
          exact ⟨h1, h2, hg⟩
        · cases h
      · cases h
    · cases h
  · cases h

/-- A test for `DocumentWsSafe`. -/
def wsSafeTest (doc : Document) : Bool := doc.all fun d =>
  !isNumber d.name && d.expr.symbols.all (fun m => !isNumber m) &&
    (!d.flags.keyword || d.flags.noWhitespace || d.flags.whitespace ||
      match d.expr with
      | .chars _ => true
      | .choice _ => true
      | _ => false)

theorem wsSafeTest_sound {doc : Document} (h : wsSafeTest doc = true) : DocumentWsSafe doc := by
  intro _ d hd
  have := List.all_eq_true.1 h d hd
  simp only [Bool.and_eq_true, Bool.not_eq_true', List.all_eq_true, Bool.or_eq_true] at this
  obtain ⟨⟨h1, h2⟩, h3⟩ := this
  refine ⟨h1, h2, fun hk => ?_⟩
  rw [hk] at h3
  rcases h3 with ((h3 | h3) | h3) | h3
  · cases h3
  · exact .inl h3
  · exact .inr (.inl h3)
  · split at h3
    · rename_i cs e; exact .inr (.inr (.inl ⟨cs, e⟩))
    · rename_i os e; exact .inr (.inr (.inr ⟨os, e⟩))
    · cases h3

mutual
/-- A test for `Sound`. -/
def soundTest : DExpr → Bool
  | .seq items => soundItems items
  | .choice os => soundOptions os
  | _ => true
def soundItems : DItems → Bool
  | .nil => true
  | .cons e none rest => soundTest e && soundItems rest
  | .cons e (some (.exactly n)) rest => decide (1 ≤ n) && soundTest e && soundItems rest
  | .cons e (some (.between n m)) rest => decide (1 ≤ m ∧ n ≤ m) && soundTest e && soundItems rest
  | .cons e (some (.atMost m)) rest => decide (1 ≤ m) && soundTest e && soundItems rest
  | .cons e _ rest => soundTest e && soundItems rest
def soundOptions : DOptions → Bool
  | .nil => true
  | .cons e rest => soundTest e && soundOptions rest
end

mutual
theorem soundTest_sound : (e : DExpr) → soundTest e = true → e.Sound
  | .seq items, h => soundItems_sound items h
  | .choice os, h => soundOptions_sound os h
  | .any, _ => trivial
  | .class_ .., _ => trivial
  | .chars .., _ => trivial
  | .symbol .., _ => trivial
theorem soundItems_sound : (is : DItems) → soundItems is = true → is.Sound
  | .nil, _ => trivial
  | .cons e q rest, h => by
    have : soundTest e = true ∧ soundItems rest = true ∧ ∀ x, q = some x → x.Sound := by
      cases q with
      | none => simp only [soundItems, Bool.and_eq_true] at h; exact ⟨h.1, h.2, by simp⟩
      | some x =>
        cases x <;> simp only [soundItems, Bool.and_eq_true, decide_eq_true_eq] at h <;>
          simp_all [Quantifier.Sound]
    exact ⟨soundTest_sound e this.1, this.2.2, soundItems_sound rest this.2.1⟩
theorem soundOptions_sound : (os : DOptions) → soundOptions os = true → os.Sound
  | .nil, _ => trivial
  | .cons e rest, h => by
    simp only [soundOptions, Bool.and_eq_true] at h
    exact ⟨soundTest_sound e h.1, soundOptions_sound rest h.2⟩
end

/-- A document with whitespace and a keyword. -/
def conditionText : List Rune :=
  runes "space:ws = [ \\n]; if:kw = \"if\"; name:nokw:nows = [a-z]+; r:root = if (name | \"(\" name? \")\");"

/-- The hypotheses hold for the document, and the generated program accepts a text with whitespace. -/
example : ∃ doc s s' prog N, WrittenDocument doc conditionText ∧
    (∀ n, N ≤ n → ({} : Syntax).ReadSyntax (selfParse n conditionText none) = .ok (s, none)) ∧ DocumentWsSafe doc ∧
    (∃ d ∈ doc, d.flags.whitespace = true) ∧ (∀ d ∈ doc, ∀ x ∈ d.name, x ≠ 0 ∧ x ≠ 0xFEFF) ∧ (∀ d ∈ doc, d.expr.Sound) ∧
    s.Generate = .ok (s', .ok prog) ∧ s.Init = .ok (s', none) ∧
    (∃ t, prog.run 100 (runes "if ( ab )") none = .ok (.ok t)) ∧ ∃ e, prog.run 100 (runes "if if") none = .ok (.error e) := by
  have key : (fromText 200 conditionText).map (fun x => wsSafeTest x.1 && x.1.any (fun d => d.flags.whitespace) &&
      x.1.all (fun d => d.name.all fun x => decide (x ≠ 0 ∧ x ≠ 0xFEFF)) && x.1.all (fun d => soundTest d.expr) &&
      (match x.2.2.2.run 100 (runes "if ( ab )") none with | .ok (.ok _) => true | _ => false) &&
      (match x.2.2.2.run 100 (runes "if if") none with | .ok (.error _) => true | _ => false)) = some true := by decide +kernel
  obtain ⟨⟨doc, s, s', prog⟩, hx, e⟩ := Option.map_eq_some_iff.1 key
  obtain ⟨h1, ⟨N, h2⟩, h3⟩ := fromText_ok hx (by decide +kernel)
  obtain ⟨root, hi, -⟩ := Generate_cases h3
  simp only [Bool.and_eq_true] at e
  obtain ⟨⟨⟨⟨⟨e1, e2⟩, e3⟩, e4⟩, e5⟩, e6⟩ := e
  refine ⟨doc, s, s', prog, N, h1, h2, wsSafeTest_sound e1, ?_, ?_, ?_, h3, hi, ?_, ?_⟩
  · simpa using e2
  · intro d hd x hx
    exact of_decide_eq_true (List.all_eq_true.1 (List.all_eq_true.1 e3 d hd) x hx)
  · exact fun d hd => soundTest_sound _ (List.all_eq_true.1 e4 d hd)
  · split at e5
    · rename_i t ht; exact ⟨t, ht⟩
    · cases e5
  · split at e6
    · rename_i t ht; exact ⟨t, ht⟩
    · cases e6

/-- A document without whitespace. -/
def plainText : List Rune := runes "// sums\nnum = [0-9]+\n; sum:root = num (\"+\" num)*"

example : ∃ doc s s' prog N, WrittenDocument doc plainText ∧
    (∀ n, N ≤ n → ({} : Syntax).ReadSyntax (selfParse n plainText none) = .ok (s, none)) ∧
    (∀ d ∈ doc, d.flags.whitespace = false) ∧ s.Init = .ok (s', none) ∧ s.Generate = .ok (s', .ok prog) ∧
    ∃ t, prog.run 100 (runes "12+3") none = .ok (.ok t) := by
  have key : (fromText 200 plainText).map (fun x => x.1.all (fun d => !d.flags.whitespace) &&
      match x.2.2.2.run 100 (runes "12+3") none with | .ok (.ok _) => true | _ => false) = some true := by decide +kernel
  obtain ⟨⟨doc, s, s', prog⟩, hx, e⟩ := Option.map_eq_some_iff.1 key
  obtain ⟨h1, ⟨N, h2⟩, h3⟩ := fromText_ok hx (by decide +kernel)
  obtain ⟨root, hi, -⟩ := Generate_cases h3
  simp only [Bool.and_eq_true, List.all_eq_true, Bool.not_eq_true'] at e
  refine ⟨doc, s, s', prog, N, h1, h2, e.1, hi, h3, ?_⟩
  have e2 := e.2
  split at e2
  · rename_i t ht; exact ⟨t, ht⟩
  · cases e2

/-- The text of `staleCalls`. -/
def staleText : List Rune :=
  runes "letter:alias=[a-z];n:nokw:nows=letter+;a:alias=\"a\";b:alias=\"b\";c:alias=\"c\";d:alias=\"d\";s:ws=\" \";kw:kw=a b;x=c d;r:root=n|x"

/-- C56 does not hold without `DocumentWsSafe`: here is a document from which a program is generated that declares a variable
twice, which is not accepted by the compiler. -/
theorem C56_keyword_counterexample : ∃ doc text s s' prog N, WrittenDocument doc text ∧
    (∀ n, N ≤ n → ({} : Syntax).ReadSyntax (selfParse n text none) = .ok (s, none)) ∧ s.Generate = .ok (s', .ok prog) ∧
    ¬ (prog.parsers.flatMap declared).Nodup := by
  have key : (fromText 200 staleText).map (fun x => decide (x.2.2.2.parsers.flatMap declared).Nodup) = some false := by
    decide +kernel
  obtain ⟨⟨doc, s, s', prog⟩, hx, e⟩ := Option.map_eq_some_iff.1 key
  obtain ⟨h1, ⟨N, h2⟩, h3⟩ := fromText_ok hx (by decide +kernel)
  exact ⟨doc, _, s, s', prog, N, h1, h2, h3, by simpa using e⟩

end Treerack
