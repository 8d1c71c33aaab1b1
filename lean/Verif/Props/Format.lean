import Verif.Proofs.FormatDocument
import Verif.Props.Written

/-
C50: the notation of a definition that is made by `format` can be read back, and it means the same.

`WrittenExpr e t` (Spec/Written.lean): the text is a notation of the expression.  `Same`, `Printable`: Spec/Format.lean.
-/

namespace Treerack
open Spec Samples

theorem WrittenDefinitions.mem : ∀ {doc : Document} {t : List Rune}, WrittenDefinitions doc t → ∀ d ∈ doc, ∃ u, WrittenDefinition d u
  | _, _, .one h, d, hd => by
    obtain rfl := List.mem_singleton.1 hd
    exact ⟨_, h⟩
  | _, _, .cons h _ hs, d, hd => by
    rcases List.mem_cons.1 hd with rfl | hd
    · exact ⟨_, h⟩
    · exact WrittenDefinitions.mem hs d hd

theorem WrittenDocument.mem {doc : Document} {t : List Rune} (h : WrittenDocument doc t) : ∀ d ∈ doc, ∃ u, WrittenDefinition d u := by
  cases h with
  | empty => intro d hd; cases hd
  | definitions _ h => exact WrittenDefinitions.mem h

/-! ### C50 -/

/-- After reading a document, `format` makes a text of the right shape. -/
theorem format_shape {b : Bool} {doc : Document} {text : List Rune} {rend : Option Nat} {n : Nat} {s : Syntax} (hw : WrittenDocument doc text)
    (hr : ({} : Syntax).ReadSyntax (selfParse n text rend) = .ok (s, none)) {d : DDef} (hd : d ∈ doc)
    (hk : ∀ m ∈ d.expr.symbols, ∃ d' ∈ doc, d'.name = m) (hs : d.expr.Sound) (hp : d.expr.Printable) (hg : b = false → d.expr.Spread) :
    ∃ o t, s.defined d.name = some o ∧ (∃ N, ∀ k, N ≤ k → s.format k o = .ok t) ∧ Shape b d.expr t := by
  obtain ⟨-, doc', hw', -, hc⟩ := C30_read_only hr
  obtain rfl := C30_unambiguous hw hw'
  have ha := internalCalls_adds .empty hc
  have placed : ∀ d ∈ doc, Placed s (d.expr.calls d.name { d.flags with userDefined := true }) := fun d hd c hcm f hf =>
    ha.new f (List.mem_flatMap.2 ⟨c, List.mem_flatMap.2 ⟨d, hd, hcm⟩, hf⟩)
  obtain ⟨_, hdef⟩ := WrittenDocument.mem hw d hd
  have hproper : DExpr.Proper d.expr := by
    cases hdef with
    | mk _ _ _ _ he => exact WrittenExpr.proper he
  obtain ⟨N, t, h1, h2⟩ := format_expr (b := b) d.expr (placed d hd) (fun m hm => by
    obtain ⟨d', hd', rfl⟩ := hk m hm
    obtain ⟨o, h3, h4, h5, -⟩ := main_def _ (placed d' hd')
    exact ⟨o, h3, h4, h5⟩) hproper hs hp hg
  obtain ⟨o, h3, -⟩ := main_def _ (placed d hd)
  exact ⟨o, t, h3, ⟨N, fun k hk => h1 k hk o h3⟩, h2⟩

/-- C50: after reading a document, the text made by `format` for a definition of the document is a notation, and the
expression it is a notation of has the same meaning as the one in the document.  Missing: quotes in texts of several characters
and quantifiers behind a group of a single item (`Printable`), symbols without a definition, and the quantifiers that do not
work as documented (C33). -/
theorem C50_format_partial {doc : Document} {text : List Rune} {rend : Option Nat} {n : Nat} {s : Syntax} (hw : WrittenDocument doc text)
    (hr : ({} : Syntax).ReadSyntax (selfParse n text rend) = .ok (s, none)) {d : DDef} (hd : d ∈ doc)
    (hk : ∀ m ∈ d.expr.symbols, ∃ d' ∈ doc, d'.name = m) (hs : d.expr.Sound) (hp : d.expr.Printable) :
    ∃ o t e', s.defined d.name = some o ∧ (∃ N, ∀ k, N ≤ k → s.format k o = .ok t) ∧ WrittenExpr e' t ∧ Same e' d.expr := by
  obtain ⟨o, t, h1, h2, h3⟩ := format_shape (b := true) hw hr hd hk hs hp nofun
  obtain ⟨e', h4, h5⟩ := Shape.expr h3
  exact ⟨o, t, e', h1, h2, h4, Alike.same h5⟩

/-- C50: `format` takes a sequence for a text only if every item occurs exactly once and is a single character. -/
theorem C50_charSequence {s : Syntax} {items : List SeqItem} : s.isCharSequence items = true ↔
    ∀ item ∈ items, ((∀ k, InRange (normalizeItemRange item).min (normalizeItemRange item).max k ↔ k = 1) ∧
      (normalizeItemRange item).min ≤ (normalizeItemRange item).max) ∧ ∃ d c, s.defined item.name = some d ∧ d.kind = .char false [c] [] := by
  unfold Syntax.isCharSequence
  rw [List.all_eq_true]
  refine forall_congr' fun item => imp_congr_right fun _ => ?_
  simp only [Bool.and_eq_true, beq_iff_eq]
  refine and_congr ?_ ?_
  · generalize (normalizeItemRange item).min = mn
    generalize (normalizeItemRange item).max = mx
    constructor
    · rintro ⟨rfl, rfl⟩
      refine ⟨fun k => ?_, Int.le_refl _⟩
      unfold InRange
      omega
    · rintro ⟨h, hle⟩
      have h0 := h 0
      have h1 := h 1
      have h2 := h 2
      unfold InRange at h0 h1 h2
      omega
  · constructor
    · intro h
      cases hd : s.defined item.name with
      | none => rw [hd] at h; cases h
      | some d =>
        rw [hd, Option.bind_some] at h
        unfold Def.singleChar at h
        split at h
        · rename_i c hc
          exact ⟨d, c, rfl, hc⟩
        · cases h
    · rintro ⟨d, c, hd, hc⟩
      rw [hd, Option.bind_some, Def.singleChar, hc]
      rfl

/-- C50: documents with expressions of the same meaning stand for the same texts. -/
theorem C50_same {doc doc' : Document} (h : SameDocument doc doc') {input : List Rune} {e : DExpr} {i j : Nat} :
    Means doc input e i j ↔ Means doc' input e i j :=
  ⟨Means.document h, Means.document (SameDocument.symm h)⟩

/-- The definitions of a document, from the notations of the expressions. -/
theorem documentText_written {flags : DDef → List Name} {expr : DDef → List Rune} : ∀ {doc : Document}, doc ≠ [] →
    (∀ d ∈ doc, WrittenSymbol d.name ∧ (∀ f ∈ flags d, f ∈ flagNames) ∧ flagsOf (flags d) = d.flags ∧
      ∃ e, WrittenExpr e (expr d) ∧ Same e d.expr) →
    ∃ doc', WrittenDefinitions doc' (documentText flags expr doc) ∧ SameDocument doc doc'
  | [], hne, _ => absurd rfl hne
  | [d], _, h => by
    obtain ⟨h1, h2, h3, e, h4, h5⟩ := h d (List.mem_cons_self ..)
    exact ⟨[⟨d.name, flagsOf (flags d), e⟩], .one (.mk h1 h2 space_layout space_layout h4), .cons rfl h3.symm (Same.symm h5) .nil⟩
  | d :: d2 :: doc, _, h => by
    obtain ⟨h1, h2, h3, e, h4, h5⟩ := h d (List.mem_cons_self ..)
    obtain ⟨doc', h6, h7⟩ := documentText_written (doc := d2 :: doc) (by simp) fun d hd => h d (List.mem_cons_of_mem _ hd)
    have hs : Between 1 [59, 10] := .semicolon (g := []) .nil (.layout (.space (by decide) .nil))
    exact ⟨⟨d.name, flagsOf (flags d), e⟩ :: doc', .cons (.mk h1 h2 space_layout space_layout h4) hs h6, .cons rfl h3.symm (Same.symm h5) h7⟩

/-- C50: the texts made by `format` can be put together, with the names and the flags, to the text of a document.  It is a
notation of a document in which all expressions stand for the same texts as in the original one.  Missing: as before. -/
theorem C50_document_partial {doc : Document} {text : List Rune} {rend : Option Nat} {n : Nat} {s : Syntax} (hw : WrittenDocument doc text)
    (hr : ({} : Syntax).ReadSyntax (selfParse n text rend) = .ok (s, none))
    (hk : ∀ d ∈ doc, ∀ m ∈ d.expr.symbols, ∃ d' ∈ doc, d'.name = m) (hs : ∀ d ∈ doc, d.expr.Sound) (hp : ∀ d ∈ doc, d.expr.Printable)
    {flags : DDef → List Name} (hf : ∀ d ∈ doc, (∀ f ∈ flags d, f ∈ flagNames) ∧ flagsOf (flags d) = d.flags)
    {expr : DDef → List Rune} (he : ∀ d ∈ doc, ∃ o, s.defined d.name = some o ∧ ∃ k, s.format k o = .ok (expr d)) :
    ∃ doc', WrittenDocument doc' (documentText flags expr doc) ∧ SameDocument doc doc' ∧
      ∀ input e i j, Means doc input e i j ↔ Means doc' input e i j := by
  by_cases hne : doc = []
  · subst hne
    exact ⟨[], .empty (t := []) (.layout .nil) .none, .nil, fun _ _ _ _ => Iff.rfl⟩
  · obtain ⟨doc', h1, h2⟩ := documentText_written (flags := flags) (expr := expr) hne fun d hd => by
      obtain ⟨_, hdef⟩ := WrittenDocument.mem hw d hd
      refine ⟨by cases hdef; assumption, (hf d hd).1, (hf d hd).2, ?_⟩
      obtain ⟨o, t, e', h3, ⟨N, h4⟩, h5, h6⟩ := C50_format_partial hw hr hd (hk d hd) (hs d hd) (hp d hd)
      obtain ⟨o', h7, k, h8⟩ := he d hd
      obtain rfl : o = o' := Option.some.inj (h3.symm.trans h7)
      have := format_mono (Nat.le_max_left k N) h8
      rw [h4 _ (Nat.le_max_right k N)] at this
      cases this
      exact ⟨e', h5, h6⟩
    refine ⟨doc', ?_, h2, fun _ _ _ _ => C50_same h2⟩
    have := WrittenDocument.definitions (t := []) (t' := []) (.layout .nil) h1 (.layout .nil) .none
    simpa using this

/-! ### Witnesses -/

/-- A document of one definition. -/
theorem one_written {e : DExpr} {t : List Rune} (h : WrittenExpr e t) :
    WrittenDocument [⟨runes "a", {}, e⟩] (runes "a=" ++ t) := by
  have h1 : WrittenDefinition ⟨runes "a", {}, e⟩ (runes "a=" ++ t) :=
    .mk (flags := []) (g := []) (g' := []) ⟨by decide, by decide⟩ (by decide) .nil .nil h
  have := WrittenDocument.definitions (t := []) (t' := []) (.layout .nil) (.one h1) (.layout .nil) .none
  simpa using this

theorem format_ok {x : Res (List Rune)} {t : List Rune}
    (h : (match (generalizing := false) x with | .ok u => decide (u = t) | _ => false) = true) : x = .ok t := by
  split at h
  · rw [of_decide_eq_true h]
  · cases h

/-- The document with one definition is read, and its definition is formatted. -/
theorem one_read {e : DExpr} {t u : List Rune} (h : WrittenExpr e t) (hv : replacementChar ∉ runes "a=" ++ t)
    (hf : Document.fits [⟨runes "a", {}, e⟩] = true)
    (hc : (({} : Syntax).internalCalls (documentCalls [⟨runes "a", {}, e⟩])).2 = none)
    (ho : (match (({} : Syntax).internalCalls (documentCalls [⟨runes "a", {}, e⟩])).1.defined (runes "a") with
      | some o => (match (generalizing := false) (({} : Syntax).internalCalls (documentCalls [⟨runes "a", {}, e⟩])).1.format 20 o with
        | .ok x => decide (x = u) | _ => false)
      | none => false) = true) :
    ∃ n s o, WrittenDocument [⟨runes "a", {}, e⟩] (runes "a=" ++ t) ∧
      ({} : Syntax).ReadSyntax (selfParse n (runes "a=" ++ t) none) = .ok (s, none) ∧ s.defined (runes "a") = some o ∧
      s.format 20 o = .ok u := by
  obtain ⟨N, hN⟩ := C30_read_calls (one_written h) hv hf
  refine ⟨N, (({} : Syntax).internalCalls (documentCalls [⟨runes "a", {}, e⟩])).1, ?_⟩
  split at ho
  · rename_i o ho1
    refine ⟨o, one_written h, ?_, ho1, format_ok ho⟩
    rw [hN N (Nat.le_refl _), if_neg (by decide), ← hc]
  · cases ho

/-- `a="x\" \"y"`: the quotes are not escaped, the notation is `"x" "y"`, a sequence of two texts. -/
theorem C50_quote_counterexample : ∃ (e : DExpr) (text t : List Rune) (n : Nat) (s : Syntax) (o : Def),
    WrittenDocument [⟨runes "a", {}, e⟩] text ∧ ({} : Syntax).ReadSyntax (selfParse n text none) = .ok (s, none) ∧ e.Sound ∧
    e.symbols = [] ∧ s.defined (runes "a") = some o ∧ s.format 20 o = .ok t ∧ ¬ ∃ e', WrittenExpr e' t ∧ Same e' e := by
  have pl : ∀ {c : Rune}, c ∉ quoteSpecial → WrittenChar quoteSpecial c [c] := fun h => .plain h
  have q : WrittenChar quoteSpecial 34 [92, 34] := .escaped (.inr ⟨fun d hd => by simp [controls] at hd, rfl⟩)
  have h : WrittenExpr (.chars (runes "x\" \"y")) (runes "\"x\\\" \\\"y\"") :=
    .option (.primary (.chars (.cons (pl (by decide)) (.cons q (.cons (pl (by decide)) (.cons q (.cons (pl (by decide)) .nil)))))))
  obtain ⟨n, s, o, h1, h2, h3, h4⟩ := one_read (u := runes "\"x\" \"y\"") h (by decide) (by decide) (by decide +kernel) (by decide +kernel)
  refine ⟨_, _, _, n, s, o, h1, h2, trivial, rfl, h3, h4, ?_⟩
  rintro ⟨e', h5, h6⟩
  have h7 : WrittenExpr (.seq (.cons (.chars (runes "x")) none (.cons (.chars (runes "y")) none .nil))) (runes "\"x\" \"y\"") :=
    .option (.seq (.cons (t := runes "\"x\"") (g := runes " ") (.once (.chars (.cons (pl (by decide)) .nil))) spaces_layout
      (.one (.once (.chars (.cons (pl (by decide)) .nil)))) (fun h => absurd h (by decide))) trivial)
  have h8 := C30_unambiguous (one_written h5) (one_written h7)
  simp only [List.cons.injEq, DDef.mk.injEq, and_true, true_and] at h8
  subst h8
  have h9 := (h6 [] (runes "x\" \"y") 0 5).2 (.chars (cs := runes "x\" \"y") (i := 0) (by decide))
  rw [means_seq, meansItems_cons] at h9
  obtain ⟨k, m, a1, a2, a3⟩ := h9
  obtain rfl : k = 1 := a2
  rw [meansTimes_one] at a1
  rw [meansItems_cons] at a3
  obtain ⟨k, m', b1, b2, b3⟩ := a3
  obtain rfl : k = 1 := b2
  rw [meansTimes_one] at b1
  rw [meansItems_nil] at b3
  subst b3
  generalize hj : (5 : Nat) = j at b1
  cases a1
  cases b1
  revert hj
  decide

/-- `a=("a"*)?`: the notation is `[a]*?`, which cannot be read. -/
theorem C50_group_counterexample : ∃ (e : DExpr) (text t : List Rune) (n : Nat) (s : Syntax) (o : Def),
    WrittenDocument [⟨runes "a", {}, e⟩] text ∧ ({} : Syntax).ReadSyntax (selfParse n text none) = .ok (s, none) ∧ e.Sound ∧
    e.symbols = [] ∧ s.defined (runes "a") = some o ∧ s.format 20 o = .ok t ∧ ¬ ∃ e', WrittenExpr e' t := by
  have h1 : WrittenExpr (.seq (.cons (.chars (runes "a")) (some .zeroOrMore) .nil)) (runes "\"a\"*") :=
    .option (.seq (.one (.many (t := runes "\"a\"") (.chars (.cons (.plain (by decide)) .nil)) .zeroOrMore)) trivial)
  have h : WrittenExpr (.seq (.cons (.seq (.cons (.chars (runes "a")) (some .zeroOrMore) .nil)) (some .zeroOrOne) .nil))
      (runes "(\"a\"*)?") :=
    .option (.seq (.one (.many (t := runes "(\"a\"*)") (.group (g := []) (g' := []) .nil h1 .nil) .zeroOrOne)) trivial)
  obtain ⟨n, s, o, h2, h3, h4, h5⟩ := one_read (u := runes "[a]*?") h (by decide) (by decide) (by decide +kernel) (by decide +kernel)
  refine ⟨_, _, _, n, s, o, h2, h3, by simp [DExpr.Sound, DItems.Sound, Quantifier.Sound], rfl, h4, h5, ?_⟩
  rintro ⟨e', h6⟩
  have hw := one_written h6
  have h : ∃ e, selfParse 400 (runes "a=[a]*?") none = .ok (.error e) := by
    have : (match (generalizing := false) selfParse 400 (runes "a=[a]*?") none with | .ok (.error _) => true | _ => false) = true := by
      decide +kernel
    split at this
    · rename_i e he; exact ⟨e, he⟩
    · cases this
  obtain ⟨e, h⟩ := h
  obtain ⟨N, tree, -, hN⟩ := C30_text hw (by decide)
  have h2 := hN _ (Nat.le_max_right 400 N)
  unfold selfParse at h h2
  rcases parseInput_le selfEnv (Nat.le_max_left 400 N) selfRoot (runes "a=[a]*?") none with h1 | h1
  · rw [h1] at h; cases h
  · rw [h1] at h
    rw [show runes "a=" ++ runes "[a]*?" = runes "a=[a]*?" by decide, h] at h2
    cases h2

/-- `a=("x"|.)+ "[a"?` is formatted as `([x] | .)+ "\[a"?`. -/
example : ∃ (e : DExpr) (text : List Rune) (n : Nat) (s : Syntax) (o : Def),
    WrittenDocument [⟨runes "a", {}, e⟩] text ∧ ({} : Syntax).ReadSyntax (selfParse n text none) = .ok (s, none) ∧ e.Sound ∧ e.Printable ∧
    e.symbols = [] ∧ s.defined (runes "a") = some o ∧ s.format 20 o = .ok (runes "([x] | .)+ \"\\[a\"?") := by
  have hx : WrittenExpr (.choice (.cons (.chars (runes "x")) (.cons .any .nil))) (runes "\"x\"|.") :=
    .choice (t := runes "\"x\"") (g := []) (g' := []) (.primary (.chars (.cons (.plain (by decide)) .nil))) .nil .nil (.one (.primary .any))
  have hy : WrittenItem (.chars (runes "[a")) (some .zeroOrOne) (runes "\"[a\"?") :=
    .many (t := runes "\"[a\"") (.chars (.cons (.plain (by decide)) (.cons (.plain (by decide)) .nil))) .zeroOrOne
  have h : WrittenExpr (.seq (.cons (.choice (.cons (.chars (runes "x")) (.cons .any .nil))) (some .oneOrMore)
      (.cons (.chars (runes "[a")) (some .zeroOrOne) .nil))) (runes "(\"x\"|.)+ \"[a\"?") :=
    .option (.seq (.cons (t := runes "(\"x\"|.)+") (g := runes " ") (.many (t := runes "(\"x\"|.)") (.group (g := []) (g' := []) .nil hx .nil) .oneOrMore)
      spaces_layout (.one hy) (fun h => absurd h (by decide))) trivial)
  obtain ⟨n, s, o, h2, h3, h4, h5⟩ := one_read (u := runes "([x] | .)+ \"\\[a\"?") h (by decide) (by decide) (by decide +kernel) (by decide +kernel)
  exact ⟨_, _, n, s, o, h2, h3, by simp [DExpr.Sound, DItems.Sound, DOptions.Sound, Quantifier.Sound],
    by simp [DExpr.Printable, DItems.Printable, DOptions.Printable, DExpr.Single, runes], rfl, h4, h5⟩

/-- Two definitions, one with a symbol and with flags. -/
example : WrittenDocument sampleDoc docText ∧ (∃ n s, ({} : Syntax).ReadSyntax (selfParse n docText none) = .ok (s, none)) ∧
    (∀ d ∈ sampleDoc, ∀ m ∈ d.expr.symbols, ∃ d' ∈ sampleDoc, d'.name = m) ∧ (∀ d ∈ sampleDoc, d.expr.Sound) ∧
    (∀ d ∈ sampleDoc, d.expr.Printable) ∧ (∃ d ∈ sampleDoc, d.expr.symbols ≠ []) ∧
    (∃ flags : DDef → List Name, ∀ d ∈ sampleDoc, (∀ f ∈ flags d, f ∈ flagNames) ∧ flagsOf (flags d) = d.flags) := by
  obtain ⟨N, hN⟩ := C30_read_calls docText_written (by decide) (by decide)
  refine ⟨docText_written, ⟨N, (({} : Syntax).internalCalls (documentCalls sampleDoc)).1, ?_⟩, ?_, ?_, ?_, ?_,
    fun d => if d.flags.root then [runes "root"] else [], ?_⟩
  · have : (({} : Syntax).internalCalls (documentCalls sampleDoc)).2 = none := by decide +kernel
    rw [hN N (Nat.le_refl _), if_neg (by decide), ← this]
  · intro d hd
    simp only [sampleDoc, List.mem_cons, List.not_mem_nil, or_false] at hd
    rcases hd with rfl | rfl <;> simp [DExpr.symbols, DItems.symbols, DOptions.symbols, sampleDoc]
  · intro d hd
    simp only [sampleDoc, List.mem_cons, List.not_mem_nil, or_false] at hd
    rcases hd with rfl | rfl <;> simp [DExpr.Sound, DItems.Sound, DOptions.Sound, Quantifier.Sound]
  · intro d hd
    simp only [sampleDoc, List.mem_cons, List.not_mem_nil, or_false] at hd
    rcases hd with rfl | rfl <;> simp [DExpr.Printable, DItems.Printable, DOptions.Printable, DExpr.Single, runes]
  · exact ⟨_, List.mem_cons_of_mem _ (List.mem_cons_self ..), by simp [DExpr.symbols, DOptions.symbols]⟩
  · intro d hd
    simp only [sampleDoc, List.mem_cons, List.not_mem_nil, or_false] at hd
    rcases hd with rfl | rfl <;> exact ⟨by decide, by decide⟩

end Treerack
