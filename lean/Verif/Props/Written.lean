import Verif.Proofs.SelfDocument
import Verif.Proofs.SelfRead
import Verif.Proofs.DocumentUnique
import Verif.Proofs.WrittenSymbols
import Verif.Props.Document

/-
C30 and C31, from the text of the documents.

`WrittenDocument doc text` (Spec/Written.lean): the text is a notation of the document `doc`, with whitespace and comments
wherever they are allowed.
-/

namespace Treerack
open Spec Samples

/-! ### C30 -/

/-- C30: the parser of the documents accepts every notation of a document, and the tree stands for the document. -/
theorem C30_text {doc : Document} {text : List Rune} (hw : WrittenDocument doc text) (hv : replacementChar ∉ text) :
    ∃ N tree, DocumentNode tree doc ∧ ∀ n, N ≤ n → selfParse n text none = .ok (.ok tree) := by
  obtain ⟨t, ht, hd⟩ := SelfG.document hw
  obtain ⟨N, x, hx, hN⟩ := parseInput_terminates (input := text) self_straight.linked.closed none
  have hs := parseInput_exact self_straight hv N
  rw [hN N (Nat.le_refl _)] at hs
  match x, hx, hs with
  | .panic, _, hs => exact absurd ⟨_, ht⟩ hs
  | .ok (.error _), _, hs => exact absurd ⟨_, ht⟩ hs
  | .ok (.ok t'), _, hs =>
    have := ht.unique hs
    simp only [Option.some.injEq, Prod.mk.injEq, List.cons.injEq, and_true, true_and] at this
    subst this
    exact ⟨N, t, hd, hN⟩

/-- C30: a text that the parser of the documents accepts is a notation of a document, and the tree stands for that document. -/
theorem C30_accepted {text : List Rune} {rend : Option Nat} {n : Nat} {tree : Node} (h : selfParse n text rend = .ok (.ok tree)) :
    rend = none ∧ replacementChar ∉ text ∧ ∃ doc, WrittenDocument doc text ∧ DocumentNode tree doc := by
  have hT := parseInput_spec self_straight.linked.closed (Interp.trivial selfEnv (Reach selfEnv selfRoot) text)
    ⟨_, rfl, fun _ => rfl⟩ h
  obtain rfl := hT.ended
  have hv := hT.valid
  refine ⟨rfl, hv, ?_⟩
  have hE := (parseInput_exact self_straight hv n).of_eq h
  obtain ⟨doc, hw⟩ := SelfG.M.document ⟨_, hE⟩
  obtain ⟨t, ht, hd⟩ := SelfG.document hw
  have := ht.unique hE
  simp only [Option.some.injEq, Prod.mk.injEq, List.cons.injEq, and_true, true_and] at this
  subst this
  exact ⟨doc, hw, hd⟩

/-- C30: exactly the notations of documents are accepted. -/
theorem C30_accepts {text : List Rune} {rend : Option Nat} :
    (∃ n tree, selfParse n text rend = .ok (.ok tree)) ↔ rend = none ∧ replacementChar ∉ text ∧ ∃ doc, WrittenDocument doc text := by
  constructor
  · rintro ⟨n, tree, h⟩
    obtain ⟨h1, h2, doc, h3, -⟩ := C30_accepted h
    exact ⟨h1, h2, doc, h3⟩
  · rintro ⟨rfl, hv, doc, hw⟩
    obtain ⟨N, tree, -, hN⟩ := C30_text hw hv
    exact ⟨N, tree, hN N (Nat.le_refl _)⟩

/-- C30: the notation of documents is not ambiguous. -/
theorem C30_unambiguous {doc doc' : Document} {text : List Rune} (hw : WrittenDocument doc text) (hw' : WrittenDocument doc' text) :
    doc = doc' := by
  obtain ⟨t, ht, hd⟩ := SelfG.document hw
  obtain ⟨t', ht', hd'⟩ := SelfG.document hw'
  have := ht.unique ht'
  simp only [Option.some.injEq, Prod.mk.injEq, List.cons.injEq, and_true, true_and] at this
  subst this
  exact DefinitionNodes.unique hd hd'

/-- C30: reading any other text defines nothing. -/
theorem C30_rejected {text : List Rune} {rend : Option Nat} {n : Nat} {s s' : Syntax} {e : Option SynErr}
    (hw : ¬ ∃ doc, WrittenDocument doc text) (h : s.ReadSyntax (selfParse n text rend) = .ok (s', e)) : s' = s ∧ e ≠ none := by
  unfold Syntax.ReadSyntax at h
  split at h
  · cases h
    exact ⟨rfl, by simp⟩
  · obtain ⟨x, hx, h⟩ := Res.bind_eq_ok h
    cases x with
    | error e => cases h; exact ⟨rfl, by simp⟩
    | ok tree =>
      obtain ⟨-, -, doc, hd, -⟩ := C30_accepted hx
      exact absurd ⟨doc, hd⟩ hw

/-- C30: a successful reading has made the definition calls of the document that was written. -/
theorem C30_read_only {text : List Rune} {rend : Option Nat} {n : Nat} {s s' : Syntax}
    (h : s.ReadSyntax (selfParse n text rend) = .ok (s', none)) :
    s.initialized = false ∧ ∃ doc, WrittenDocument doc text ∧ doc.fits = true ∧ s.internalCalls (documentCalls doc) = (s', none) := by
  have h0 := h
  unfold Syntax.ReadSyntax at h
  split at h
  · cases h
  · rename_i hi
    obtain ⟨x, hx, h⟩ := Res.bind_eq_ok h
    cases x with
    | error e => cases h
    | ok tree =>
      obtain ⟨-, -, doc, hw, hd⟩ := C30_accepted hx
      rw [hx] at h0
      by_cases hf : doc.fits = true
      · rw [C30_calls hd hf, if_neg hi] at h0
        exact ⟨by simpa using hi, doc, hw, hf, by simpa using h0⟩
      · obtain ⟨s'', e, h1⟩ := C30_overflow (s := s) hd (by simpa using hf)
        rw [h1] at h0
        simp at h0

/-- C30: reading a notation of a document is the same as making the steps of the definitions that correspond to the document. -/
theorem C30_read {doc : Document} {text : List Rune} (hw : WrittenDocument doc text) (hv : replacementChar ∉ text) :
    ∃ N, ∀ n, N ≤ n → ∀ s : Syntax, s.ReadSyntax (selfParse n text none) =
      if s.initialized then .ok (s, some .syntaxInitialized) else .ok (s.steps (documentSteps doc)) := by
  obtain ⟨N, tree, hd, hN⟩ := C30_text hw hv
  exact ⟨N, fun n hn s => by rw [hN n hn, C30_steps hd]⟩

/-- C30: with numbers below 2^63, these are the definition calls that correspond to the document. -/
theorem C30_read_calls {doc : Document} {text : List Rune} (hw : WrittenDocument doc text) (hv : replacementChar ∉ text)
    (hf : doc.fits = true) :
    ∃ N, ∀ n, N ≤ n → ∀ s : Syntax, s.ReadSyntax (selfParse n text none) =
      if s.initialized then .ok (s, some .syntaxInitialized) else .ok (s.internalCalls (documentCalls doc)) := by
  obtain ⟨N, tree, hd, hN⟩ := C30_text hw hv
  exact ⟨N, fun n hn s => by rw [hN n hn, C30_calls hd hf]⟩

/-- C30: the parser that is made from the text of a document without whitespace definitions accepts only texts that the root
definition of the document stands for.  Missing: the quantifiers that do not work as documented (C33). -/
theorem C30_text_parse_partial {doc : Document} {text : List Rune} (hw : WrittenDocument doc text) (hv : replacementChar ∉ text)
    (hsound : ∀ d ∈ doc, d.expr.Sound) (hws : ∀ d ∈ doc, d.flags.whitespace = false) :
    ∃ N, ∀ n, N ≤ n → ∀ s, ({} : Syntax).ReadSyntax (selfParse n text none) = .ok (s, none) →
      ∀ fuel input rend s' t, s.Parse fuel input rend = .ok (s', .node t) →
        ∃ d, docRoot doc = some d ∧ Means doc input d.expr 0 input.length := by
  obtain ⟨N, tree, hd, hN⟩ := C30_text hw hv
  refine ⟨N, fun n hn s hr fuel input rend s' t hp => ?_⟩
  rw [hN n hn] at hr
  exact C30_parse_partial hd hr (fun d hd => (WrittenDocument.symbols hw d hd).2) hsound hws hp

/-- C30: the parser that is made from the text of any document accepts only texts that the root definition of the document
stands for, with whitespace between the items of the sequences.  Missing: the quantifiers that do not work as documented (C33),
and documents in which the definitions for the whitespace get confused (`DocumentWsSafe`, C19). -/
theorem C30_text_parse_ws_partial {doc : Document} {text : List Rune} (hw : WrittenDocument doc text) (hv : replacementChar ∉ text)
    (hsound : ∀ d ∈ doc, d.expr.Sound) (hws : DocumentWsSafe doc) :
    ∃ N, ∀ n, N ≤ n → ∀ s, ({} : Syntax).ReadSyntax (selfParse n text none) = .ok (s, none) →
      ∀ fuel input rend s' t, s.Parse fuel input rend = .ok (s', .node t) →
        ∃ d, docRoot doc = some d ∧ DefWs doc input d 0 input.length := by
  obtain ⟨N, tree, hd, hN⟩ := C30_text hw hv
  refine ⟨N, fun n hn s hr fuel input rend s' t hp => ?_⟩
  rw [hN n hn] at hr
  exact C30_parse_ws_partial hd hr (WrittenDocument.symbols hw) hsound hws hp

/-! ### C31 -/

/-- C31: two notations of the same document are read with the same effect: whitespace and comments do not matter, and
neither do the further differences between notations, like escapes, parentheses and the number of the semicolons. -/
theorem C31_text {doc : Document} {text text' : List Rune} (hw : WrittenDocument doc text) (hw' : WrittenDocument doc text')
    (hv : replacementChar ∉ text) (hv' : replacementChar ∉ text') :
    ∃ N, ∀ n, N ≤ n → ∀ s : Syntax, s.ReadSyntax (selfParse n text none) = s.ReadSyntax (selfParse n text' none) := by
  obtain ⟨N, hN⟩ := C30_read hw hv
  obtain ⟨N', hN'⟩ := C30_read hw' hv'
  exact ⟨max N N', fun n hn s => by rw [hN n (by omega) s, hN' n (by omega) s]⟩

/-! ### A document in two notations -/

theorem spaces_layout : Layout (runes " ") := .space (by decide) .nil

theorem two_written : WrittenNumber 2 (runes "2") := ⟨by decide, by decide, rfl⟩
theorem three_written : WrittenNumber 3 (runes "3") := ⟨by decide, by decide, rfl⟩

theorem docText_written : WrittenDocument sampleDoc docText := by
  have hx : WrittenPrimary (.chars (runes "x")) (runes "\"x\"") := .chars (.cons (.plain (by decide)) .nil)
  have hq : WrittenQuantifier (.between 2 3) (runes "{2,3}") :=
    .between .nil two_written .nil .nil three_written .nil
  have ha : WrittenDefinition ⟨runes "a", {}, .seq (.cons (.chars (runes "x")) (some (.between 2 3)) .nil)⟩ (runes "a=\"x\"{2,3}") :=
    .mk (flags := []) ⟨by decide, by decide⟩ (by decide) .nil .nil (.option (.seq (.one (.many hx hq)) trivial))
  have hy : WrittenOption (.class_ true (runes "y") []) (runes "[^y]") := .primary (.classNot (.char (.plain (by decide)) .nil))
  have hb : WrittenDefinition ⟨runes "b", { root := true }, .choice (.cons (.symbol (runes "a")) (.cons (.class_ true (runes "y") []) .nil))⟩
      (runes "b:root=a|[^y]") :=
    .mk (flags := [runes "root"]) ⟨by decide, by decide⟩ (by decide) .nil .nil
      (.choice (.primary (.symbol ⟨by decide, by decide⟩)) .nil .nil (.one hy))
  have hs : Between 1 (runes ";//c\n") := .semicolon .nil (.layout (.line (b := runes "c") (by decide) .nil))
  exact .definitions (t := []) (t' := []) (.layout .nil) (.cons ha hs (.one hb)) (.layout .nil) .none

/-- ```
/* c */ a = "\x"{ 2 , 3 } ;; b:root // d
= a | ( [^y] );
``` -/
def docText' : List Rune := runes "/* c */ a = \"\\x\"{ 2 , 3 } ;; b:root // d\n= a | ( [^y] ); // e"

theorem docText'_written : WrittenDocument sampleDoc docText' := by
  have sp := spaces_layout
  have hx : WrittenPrimary (.chars (runes "x")) (runes "\"\\x\"") := .chars (.cons (.escaped (x := 120) (.inr ⟨fun d hd => by simp [controls, runes] at hd, rfl⟩)) .nil)
  have hq : WrittenQuantifier (.between 2 3) (runes "{ 2 , 3 }") :=
    .between sp two_written sp sp three_written sp
  have ha : WrittenDefinition ⟨runes "a", {}, .seq (.cons (.chars (runes "x")) (some (.between 2 3)) .nil)⟩ (runes "a = \"\\x\"{ 2 , 3 }") :=
    .mk (flags := []) ⟨by decide, by decide⟩ (by decide) sp sp (.option (.seq (.one (.many hx hq)) trivial))
  have hy : WrittenOption (.class_ true (runes "y") []) (runes "( [^y] )") :=
    .primary (.group sp (.option (.primary (.classNot (.char (.plain (by decide)) .nil)))) sp)
  have hb : WrittenDefinition ⟨runes "b", { root := true }, .choice (.cons (.symbol (runes "a")) (.cons (.class_ true (runes "y") []) .nil))⟩
      (runes "b:root // d\n= a | ( [^y] )") :=
    .mk (flags := [runes "root"]) ⟨by decide, by decide⟩ (by decide) (.space (by decide) (.line (b := runes " d") (by decide) .nil)) sp
      (.choice (.primary (.symbol ⟨by decide, by decide⟩)) sp sp (.one hy))
  have hs : Between 2 (runes " ;; ") := .semicolon sp (.semicolon .nil (.layout sp))
  have hc : CommentBody (runes " c ") := .char (by decide) (.char (by decide) (.char (by decide) .nil))
  exact .definitions (t := runes "/* c */ ") (t' := runes "; ") (.layout (.block hc sp)) (.cons ha hs (.one hb))
    (.semicolon .nil (.layout sp)) (.line (b := runes " e") (by decide))

example : docText ≠ docText' ∧ WrittenDocument sampleDoc docText ∧ WrittenDocument sampleDoc docText' ∧ replacementChar ∉ docText ∧
    replacementChar ∉ docText' ∧ sampleDoc.fits = true ∧ (({} : Syntax).internalCalls (documentCalls sampleDoc)).2 = none :=
  ⟨by decide, docText_written, docText'_written, by decide, by decide, by decide, by decide +kernel⟩

/-! ### A document with whitespace -/

/-- ```
w:ws=" ";a="x";b:root=a+","
``` -/
def spacedDoc : Document :=
  [⟨runes "w", { whitespace := true }, .chars (runes " ")⟩, ⟨runes "a", {}, .chars (runes "x")⟩,
    ⟨runes "b", { root := true }, .seq (.cons (.symbol (runes "a")) (some .oneOrMore) (.cons (.chars (runes ",")) none .nil))⟩]

def spacedText : List Rune := runes "w:ws=\" \";a=\"x\";b:root=a+\",\""

theorem spacedText_written : WrittenDocument spacedDoc spacedText := by
  have hw : WrittenDefinition ⟨runes "w", { whitespace := true }, .chars (runes " ")⟩ (runes "w:ws=\" \"") :=
    .mk (flags := [runes "ws"]) ⟨by decide, by decide⟩ (by decide) .nil .nil
      (.option (.primary (.chars (.cons (.plain (by decide)) .nil))))
  have ha : WrittenDefinition ⟨runes "a", {}, .chars (runes "x")⟩ (runes "a=\"x\"") :=
    .mk (flags := []) ⟨by decide, by decide⟩ (by decide) .nil .nil
      (.option (.primary (.chars (.cons (.plain (by decide)) .nil))))
  have hi : WrittenItem (.symbol (runes "a")) (some .oneOrMore) (runes "a+") := .many (.symbol ⟨by decide, by decide⟩) .oneOrMore
  have hj : WrittenItem (.chars (runes ",")) none (runes "\",\"") := .once (.chars (.cons (.plain (by decide)) .nil))
  have hm : ¬ Merge (runes "a+") (runes "\",\"") := by
    rintro ⟨⟨c, h1, h2⟩, -⟩
    have : (runes "a+").getLast? = some 43 := by decide
    rw [this] at h1
    cases h1
    revert h2; decide
  have he : WrittenItems (.cons (.symbol (runes "a")) (some .oneOrMore) (.cons (.chars (runes ",")) none .nil)) (runes "a+\",\"") :=
    .cons (g := []) hi .nil (.one hj) (fun _ => hm)
  have hb : WrittenDefinition ⟨runes "b", { root := true },
      .seq (.cons (.symbol (runes "a")) (some .oneOrMore) (.cons (.chars (runes ",")) none .nil))⟩ (runes "b:root=a+\",\"") :=
    .mk (flags := [runes "root"]) ⟨by decide, by decide⟩ (by decide) .nil .nil
      (.option (.seq he trivial))
  have hs : Between 1 (runes ";") := .semicolon (g := []) .nil (.layout .nil)
  exact .definitions (t := []) (t' := []) (.layout .nil) (.cons hw hs (.cons ha hs (.one hb))) (.layout .nil) .none

/-- The document is accepted, and its parser accepts a text with spaces. -/
example : WrittenDocument spacedDoc spacedText ∧ replacementChar ∉ spacedText ∧ (∀ d ∈ spacedDoc, d.expr.Sound) ∧
    DocumentWsSafe spacedDoc ∧ (∃ d ∈ spacedDoc, d.flags.whitespace = true) ∧
    (({} : Syntax).internalCalls (documentCalls spacedDoc)).2 = none ∧
    ∃ s' t, (({} : Syntax).internalCalls (documentCalls spacedDoc)).1.Parse 90 (runes " x x ,") none = .ok (s', .node t) := by
  refine ⟨spacedText_written, by decide, ?_, ?_, ⟨_, List.mem_cons_self .., rfl⟩, by decide +kernel,
    tree_ok (x := (({} : Syntax).internalCalls (documentCalls spacedDoc)).1.Parse 90 (runes " x x ,") none) (by decide +kernel)⟩
  · intro d hd
    simp only [spacedDoc, List.mem_cons, List.not_mem_nil, or_false] at hd
    rcases hd with rfl | rfl | rfl <;> simp [DExpr.Sound, DItems.Sound, Quantifier.Sound]
  · intro _ d hd
    simp only [spacedDoc, List.mem_cons, List.not_mem_nil, or_false] at hd
    rcases hd with rfl | rfl | rfl <;> simp [DExpr.symbols, DItems.symbols] <;> decide

/-- `a=`, a definition without an expression: not a notation of a document. -/
example : (¬ ∃ doc, WrittenDocument doc (runes "a=")) ∧
    ∃ e, ({} : Syntax).ReadSyntax (selfParse 400 (runes "a=") none) = .ok ({}, some e) := by
  have h : ∃ e, selfParse 400 (runes "a=") none = .ok (.error e) := by
    have : (match (generalizing := false) selfParse 400 (runes "a=") none with | .ok (.error _) => true | _ => false) = true := by decide +kernel
    split at this
    · rename_i e he; exact ⟨e, he⟩
    · cases this
  obtain ⟨e, h⟩ := h
  refine ⟨fun ⟨doc, hw⟩ => ?_, _, by rw [h]; rfl⟩
  obtain ⟨N, tree, -, hN⟩ := C30_text hw (by decide)
  have h2 := hN _ (Nat.le_max_right 400 N)
  unfold selfParse at h h2
  rcases parseInput_le selfEnv (Nat.le_max_left 400 N) selfRoot (runes "a=") none with h1 | h1
  · rw [h1] at h; cases h
  · rw [h1, h2] at h; cases h

end Treerack
