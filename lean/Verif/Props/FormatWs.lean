import Verif.Props.Format
import Verif.Proofs.FormatWs
import Verif.Props.JsonExample

/-
C50 with whitespace definitions: `SameWs`, `SameDocumentWs` in Spec/FormatWs.lean.
-/

namespace Treerack
open Spec Samples

/-- C50: with whitespace definitions, the expression that the text made by `format` is a notation of has the same meaning as the
one in the document.  Missing: as in `C50_format_partial`, and the groups of a single item in a sequence, like `a (b*)`
(`Spread`), see `C50_ws_counterexample`; a definition with the flag ws, without nows, is not a sequence of a single item. -/
theorem C50_format_ws_partial {doc : Document} {text : List Rune} {rend : Option Nat} {n : Nat} {s : Syntax} (hw : WrittenDocument doc text)
    (hr : ({} : Syntax).ReadSyntax (selfParse n text rend) = .ok (s, none)) {d : DDef} (hd : d ∈ doc)
    (hk : ∀ m ∈ d.expr.symbols, ∃ d' ∈ doc, d'.name = m) (hs : d.expr.Sound) (hp : d.expr.Printable) (hg : d.expr.Spread)
    (hf : d.flags.whitespace = true → d.flags.noWhitespace = true ∨ ¬ d.expr.Single) :
    ∃ o t e', s.defined d.name = some o ∧ (∃ N, ∀ k, N ≤ k → s.format k o = .ok t) ∧ WrittenExpr e' t ∧ SameWs d.flags e' d.expr := by
  obtain ⟨o, t, h1, h2, h3⟩ := format_shape (b := false) hw hr hd hk hs hp (fun _ => hg)
  by_cases hx : d.flags.whitespace = false ∨ d.flags.noWhitespace = true
  · obtain ⟨e', h4, h5⟩ := Shape.expr h3
    exact ⟨o, t, e', h1, h2, h4, Even.sameWs (Alike.even h5) hx⟩
  · have hws : d.flags.whitespace = true := by
      cases hc : d.flags.whitespace with
      | true => rfl
      | false => exact absurd (.inl hc) hx
    obtain ⟨e', h4, h5⟩ := Shape.uneven h3 ((hf hws).resolve_left fun hc => hx (.inr hc))
    exact ⟨o, t, e', h1, h2, h4, Uneven.sameWs h5 _⟩

/-- C50: documents with expressions of the same meaning stand for the same texts, with whitespace. -/
theorem C50_same_ws {doc doc' : Document} (h : SameDocumentWs doc doc') {input : List Rune} {tight inner : Bool} {e : DExpr} {i j : Nat} :
    MeansWs doc input tight inner e i j ↔ MeansWs doc' input tight inner e i j :=
  ⟨MeansWs.document h, MeansWs.document (SameDocumentWs.symm h)⟩

/-- The definitions of a document, from the notations of the expressions. -/
theorem documentText_written_ws {flags : DDef → List Name} {expr : DDef → List Rune} : ∀ {doc : Document}, doc ≠ [] →
    (∀ d ∈ doc, WrittenSymbol d.name ∧ (∀ f ∈ flags d, f ∈ flagNames) ∧ flagsOf (flags d) = d.flags ∧
      ∃ e, WrittenExpr e (expr d) ∧ SameWs d.flags e d.expr) →
    ∃ doc', WrittenDefinitions doc' (documentText flags expr doc) ∧ SameDocumentWs doc doc'
  | [], hne, _ => absurd rfl hne
  | [d], _, h => by
    obtain ⟨h1, h2, h3, e, h4, h5⟩ := h d (List.mem_cons_self ..)
    exact ⟨[⟨d.name, flagsOf (flags d), e⟩], .one (.mk h1 h2 space_layout space_layout h4),
      .cons rfl h3.symm (fun doc input i j => (h5 doc input i j).symm) .nil⟩
  | d :: d2 :: doc, _, h => by
    obtain ⟨h1, h2, h3, e, h4, h5⟩ := h d (List.mem_cons_self ..)
    obtain ⟨doc', h6, h7⟩ := documentText_written_ws (doc := d2 :: doc) (by simp) fun d hd => h d (List.mem_cons_of_mem _ hd)
    have hs : Between 1 [59, 10] := .semicolon (g := []) .nil (.layout (.space (by decide) .nil))
    exact ⟨⟨d.name, flagsOf (flags d), e⟩ :: doc', .cons (.mk h1 h2 space_layout space_layout h4) hs h6,
      .cons rfl h3.symm (fun doc input i j => (h5 doc input i j).symm) h7⟩

/-- C50: with whitespace definitions, too, the texts made by `format`, put together with the names and the flags, are the text of
a document in which all expressions stand for the same texts as in the original one.  Missing: as before. -/
theorem C50_document_ws_partial {doc : Document} {text : List Rune} {rend : Option Nat} {n : Nat} {s : Syntax} (hw : WrittenDocument doc text)
    (hr : ({} : Syntax).ReadSyntax (selfParse n text rend) = .ok (s, none))
    (hk : ∀ d ∈ doc, ∀ m ∈ d.expr.symbols, ∃ d' ∈ doc, d'.name = m) (hs : ∀ d ∈ doc, d.expr.Sound) (hp : ∀ d ∈ doc, d.expr.Printable)
    (hg : ∀ d ∈ doc, d.expr.Spread) (hfl : ∀ d ∈ doc, d.flags.whitespace = true → d.flags.noWhitespace = true ∨ ¬ d.expr.Single)
    {flags : DDef → List Name} (hf : ∀ d ∈ doc, (∀ f ∈ flags d, f ∈ flagNames) ∧ flagsOf (flags d) = d.flags)
    {expr : DDef → List Rune} (he : ∀ d ∈ doc, ∃ o, s.defined d.name = some o ∧ ∃ k, s.format k o = .ok (expr d)) :
    ∃ doc', WrittenDocument doc' (documentText flags expr doc) ∧ SameDocumentWs doc doc' ∧
      ∀ input tight inner e i j, MeansWs doc input tight inner e i j ↔ MeansWs doc' input tight inner e i j := by
  by_cases hne : doc = []
  · subst hne
    exact ⟨[], .empty (t := []) (.layout .nil) .none, .nil, fun _ _ _ _ _ _ => Iff.rfl⟩
  · obtain ⟨doc', h1, h2⟩ := documentText_written_ws (flags := flags) (expr := expr) hne fun d hd => by
      obtain ⟨_, hdef⟩ := WrittenDocument.mem hw d hd
      refine ⟨by cases hdef; assumption, (hf d hd).1, (hf d hd).2, ?_⟩
      obtain ⟨o, t, e', h3, ⟨N, h4⟩, h5, h6⟩ := C50_format_ws_partial hw hr hd (hk d hd) (hs d hd) (hp d hd) (hg d hd) (hfl d hd)
      obtain ⟨o', h7, k, h8⟩ := he d hd
      obtain rfl : o = o' := Option.some.inj (h3.symm.trans h7)
      have := format_mono (Nat.le_max_left k N) h8
      rw [h4 _ (Nat.le_max_right k N)] at this
      cases this
      exact ⟨e', h5, h6⟩
    refine ⟨doc', ?_, h2, fun _ _ _ _ _ _ => C50_same_ws h2⟩
    have := WrittenDocument.definitions (t := []) (t' := []) (.layout .nil) h1 (.layout .nil) .none
    simpa using this

/-! ### Witnesses -/

/-- `a="x" ("y"*)` stands for an x with a space behind it, when there is a space among the whitespace definitions; the text made by
`format` is `[x] [y]*`, and this does not. -/
theorem C50_ws_counterexample : ∃ (e : DExpr) (text t : List Rune) (n : Nat) (s : Syntax) (o : Def),
    WrittenDocument [⟨runes "a", {}, e⟩] text ∧ ({} : Syntax).ReadSyntax (selfParse n text none) = .ok (s, none) ∧ e.Sound ∧
    e.Printable ∧ e.symbols = [] ∧ s.defined (runes "a") = some o ∧ s.format 20 o = .ok t ∧
    ¬ ∃ e', WrittenExpr e' t ∧ SameWs {} e' e := by
  have pl : ∀ {c : Rune}, c ∉ quoteSpecial → WrittenChar quoteSpecial c [c] := fun h => .plain h
  have hy : WrittenExpr (.seq (.cons (.chars (runes "y")) (some .zeroOrMore) .nil)) (runes "\"y\"*") :=
    .option (.seq (.one (.many (t := runes "\"y\"") (.chars (.cons (pl (by decide)) .nil)) .zeroOrMore)) trivial)
  have h : WrittenExpr (.seq (.cons (.chars (runes "x")) none (.cons (.seq (.cons (.chars (runes "y")) (some .zeroOrMore) .nil)) none .nil)))
      (runes "\"x\" (\"y\"*)") :=
    .option (.seq (.cons (t := runes "\"x\"") (g := runes " ") (.once (.chars (.cons (pl (by decide)) .nil))) spaces_layout
      (.one (.once (.group (g := []) (g' := []) .nil hy .nil))) (fun h => absurd h (by decide))) trivial)
  obtain ⟨n, s, o, h1, h2, h3, h4⟩ := one_read (u := runes "[x] [y]*") h (by decide) (by decide) (by decide +kernel) (by decide +kernel)
  refine ⟨_, _, _, n, s, o, h1, h2, by simp [DExpr.Sound, DItems.Sound, Quantifier.Sound],
    by simp [DExpr.Printable, DItems.Printable, DExpr.Single, runes], rfl, h3, h4, ?_⟩
  rintro ⟨e', h5, h6⟩
  have mem : ∀ c : Rune, c ∉ classSpecial → WrittenPrimary (.class_ false [c] []) [91, c, 93] := fun c hc =>
    .class_ (t := [c]) (.char (t := [c]) (.plain hc) .nil)
  have h7 : WrittenExpr (.seq (.cons (.class_ false (runes "x") []) none (.cons (.class_ false (runes "y") []) (some .zeroOrMore) .nil)))
      (runes "[x] [y]*") :=
    .option (.seq (.cons (t := runes "[x]") (g := runes " ") (.once (mem 120 (by decide))) spaces_layout
      (.one (.many (t := runes "[y]") (mem 121 (by decide)) .zeroOrMore)) (fun h => absurd h (by decide))) trivial)
  have h8 := C30_unambiguous (one_written h5) (one_written h7)
  simp only [List.cons.injEq, DDef.mk.injEq, and_true, true_and] at h8
  subst h8
  let w : DDef := ⟨runes "w", { whitespace := true }, .chars [32]⟩
  have hdoc : DefWs [w, ⟨runes "r", {}, .chars [32]⟩] (runes "x ") w 1 2 :=
    .def_ (List.mem_cons_self ..) (by unfold IsRoot; decide) (.chars (cs := [32]) (by decide))
  have hsp : MeansWs [w, ⟨runes "r", {}, .chars [32]⟩] (runes "x ") false false
      (.seq (.cons (.chars (runes "x")) none (.cons (.seq (.cons (.chars (runes "y")) (some .zeroOrMore) .nil)) none .nil))) 0 2 := by
    refine .loose (.cons (k := 1) (m := 1) (.first (.chars (cs := runes "x") (by decide))) rfl (.cons (k := 1) (m := 2)
      (.succ .zero nofun (.cons .nil rfl hdoc) (.loose (.cons (k := 0) .zero trivial .nil))) rfl .nil))
  have h9 := (h6 _ _ 0 2).2 hsp
  have h10 : ∀ {i : Nat}, MeansWs [w, ⟨runes "r", {}, .chars [32]⟩] (runes "x ") false false (.class_ false (runes "y") []) i 2 → False := by
    intro i h
    generalize hj : (2 : Nat) = j at h
    cases h with
    | class_ h1 h2 =>
      obtain rfl : i = 1 := by omega
      rw [show (runes "x ")[1]? = some 32 by decide] at h1
      cases h1
      simp [InClass, runes] at h2
  rw [meansWs_seq, if_neg (by decide)] at h9
  cases h9 with
  | cons a1 a2 a3 =>
    obtain rfl := a2
    rename_i m
    cases a1 with
    | succ _ h0 => exact absurd (h0 rfl) (by decide)
    | first a1 =>
      have hm : m = 1 := by
        generalize hz : (0 : Nat) = z at a1
        cases a1
        omega
      subst hm
      cases a3 with
      | absent _ _ hx => exact hx trivial
      | cons b1 _ b3 =>
        rename_i m2
        cases b3
        generalize hz : (1 : Nat) = z at b1
        cases b1 with
        | zero => cases hz
        | succ _ _ _ b4 => exact h10 b4

/-- The text made by `format` for the definitions of the JSON example: the theorems apply to all of them. -/
example : ∃ n s, WrittenDocument jsonDoc jsonText ∧ ({} : Syntax).ReadSyntax (selfParse n jsonText none) = .ok (s, none) ∧
    (∀ d ∈ jsonDoc, ∀ m ∈ d.expr.symbols, ∃ d' ∈ jsonDoc, d'.name = m) ∧ (∀ d ∈ jsonDoc, d.expr.Sound) ∧
    (∀ d ∈ jsonDoc, d.expr.Printable) ∧ (∀ d ∈ jsonDoc, d.expr.Spread) ∧
    ∀ d ∈ jsonDoc, d.flags.whitespace = true → d.flags.noWhitespace = true ∨ ¬ d.expr.Single := by
  obtain ⟨s, s', hc, hi⟩ := json_syntax
  obtain ⟨hw, N, hN⟩ := reads json_read (by decide +kernel) (by decide +kernel) hc
  refine ⟨N, s, hw, hN N (Nat.le_refl _), by decide +kernel, ?_, ?_, ?_, ?_⟩
  · simp [jsonDoc, stringExpr, numberExpr, entryExpr, listExpr, valueExpr, seqOf, choiceOf, charsOf, symbolOf, digitClass,
      DExpr.Sound, DItems.Sound, DOptions.Sound, Quantifier.Sound]
  · simp [jsonDoc, stringExpr, numberExpr, entryExpr, listExpr, valueExpr, seqOf, choiceOf, charsOf, symbolOf, digitClass,
      DExpr.Printable, DItems.Printable, DOptions.Printable, DExpr.Single, runes]
  · simp [jsonDoc, stringExpr, numberExpr, entryExpr, listExpr, valueExpr, seqOf, choiceOf, charsOf, symbolOf, digitClass,
      DExpr.Spread, DItems.Spread, DOptions.Spread, DExpr.Single]
  · simp [jsonDoc, DExpr.Single]

end Treerack
