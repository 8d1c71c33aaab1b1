import Verif.Proofs.DocLangWs
import Verif.Proofs.Comments
import Verif.Props.Language
import Verif.Model.Self

/-
C30-C33: syntax documents.

`DocumentNode tree doc`: the tree of a syntax document, as the parser of the documents returns it, stands for the
document `doc`.  `Means doc input e i j`: the part of the input from `i` to `j` is one of the texts the expression
stands for.  `documentCalls doc` are the definition calls that correspond to the document.
-/

namespace Treerack
open Spec Samples

/-! ### A document -/

/-- ```
a="x"{2,3};//c
b:root=a|[^y]
``` -/
def docText : List Rune := runes "a=\"x\"{2,3};//c\nb:root=a|[^y]"

def docNode (name : String) (from_ to : Nat) (nodes : List Node) : Node := .mk (runes name) from_ to docText nodes

/-- The tree of the document. -/
def docTree : Node :=
  docNode "syntax" 0 28 [
    docNode "definition" 0 10 [
      docNode "symbol" 0 1 [],
      docNode "sequence" 2 10 [
        docNode "item" 2 10 [
          docNode "char-sequence" 2 5 [docNode "sequence-char" 3 4 []],
          docNode "range-quantifier" 5 10 [docNode "range-from" 6 7 [], docNode "range-to" 8 9 []]]]],
    docNode "comment" 11 14 [],
    docNode "definition" 15 28 [
      docNode "symbol" 15 16 [],
      docNode "root" 17 21 [],
      docNode "choice" 22 28 [
        docNode "symbol" 22 23 [],
        docNode "char-class" 24 28 [docNode "class-not" 25 26 [], docNode "class-char" 26 27 []]]]]

/-- The document. -/
def sampleDoc : Document := [
  { name := runes "a", flags := {}, expr := .seq (.cons (.chars (runes "x")) (some (.between 2 3)) .nil) },
  { name := runes "b", flags := { root := true },
    expr := .choice (.cons (.symbol (runes "a")) (.cons (.class_ true (runes "y") []) .nil)) }]

theorem docTree_doc : DocumentNode docTree sampleDoc := by
  refine .cons ⟨_, [], _, rfl, ⟨rfl, rfl⟩, rfl, .seq rfl (.many rfl (.chars rfl (.cons (Or.inl ⟨⟨rfl, rfl⟩, by decide⟩) .nil))
      (.between rfl rfl rfl ⟨_, ⟨rfl, rfl⟩, by decide, by decide, rfl⟩ rfl
        ⟨_, ⟨rfl, rfl⟩, by decide, by decide, rfl⟩) .nil)⟩
    (.cons ⟨_, [docNode "root" 17 21 []], _, rfl, ⟨rfl, rfl⟩, rfl,
      .choice rfl (.cons (.symbol rfl ⟨rfl, rfl⟩)
        (.cons (.classNot rfl rfl rfl (.char rfl (Or.inl ⟨⟨rfl, rfl⟩, by decide⟩) .nil)) .nil))⟩ .nil)

/-- Two trees with the same shape, names and positions. -/
def shape : Node → List (Nat × Name × Nat × Nat)
  | .mk n f t _ ns => (0, n, f, t) :: go ns
where
  go : List Node → List (Nat × Name × Nat × Nat)
  | [] => []
  | n :: ns => (shape n).map (fun x => (x.1 + 1, x.2)) ++ go ns

/-! ### C30 -/

/-- C30: reading a document is the same as making the steps of the definitions that correspond to it, in order, up to the
first one that fails. -/
theorem C30_steps {tree : Node} {doc : Document} (h : DocumentNode tree doc) (s : Syntax) :
    s.ReadSyntax (.ok (.ok tree)) =
      if s.initialized then .ok (s, some .syntaxInitialized) else .ok (s.steps (documentSteps doc)) := by
  unfold Syntax.ReadSyntax
  split
  · rfl
  · exact define_spec h s

/-- C30: when the numbers in the document are below 2^63, then these steps are the definition calls that correspond to the
document. -/
theorem C30_calls {tree : Node} {doc : Document} (h : DocumentNode tree doc) (hf : doc.fits = true) (s : Syntax) :
    s.ReadSyntax (.ok (.ok tree)) =
      if s.initialized then .ok (s, some .syntaxInitialized) else .ok (s.internalCalls (documentCalls doc)) := by
  rw [C30_steps h, steps_calls ((document_fits doc).1 hf), callsOf_document]

/-- C30: a document with a larger number is not accepted. -/
theorem C30_overflow {tree : Node} {doc : Document} (h : DocumentNode tree doc) (hf : doc.fits = false) (s : Syntax) :
    ∃ s' e, s.ReadSyntax (.ok (.ok tree)) = .ok (s', some e) := by
  rw [C30_steps h]
  split
  · exact ⟨_, _, rfl⟩
  · cases hs : s.steps (documentSteps doc) with
    | mk s' e =>
      cases e with
      | some e => exact ⟨_, _, rfl⟩
      | none =>
        have := (document_fits doc).2 (steps_none hs).2
        rw [hf] at this
        cases this

/-- C30: a syntax made by reading one document has the definitions of the document. -/
theorem C30_made {tree : Node} {doc : Document} (h : DocumentNode tree doc) {s : Syntax}
    (hr : ({} : Syntax).ReadSyntax (.ok (.ok tree)) = .ok (s, none)) : Made (documentCalls doc) s := by
  rw [C30_steps h] at hr
  have := (steps_none (Res.ok.inj hr)).1
  rw [callsOf_document] at this
  exact Made.documents (pre := []) .empty this

/-- C30: a syntax to which a document was added. -/
theorem C30_added {tree : Node} {doc : Document} (h : DocumentNode tree doc) {cs : List Call} {s s' : Syntax}
    (hm : Made cs s) (hr : s.ReadSyntax (.ok (.ok tree)) = .ok (s', none)) : Made (cs ++ documentCalls doc) s' := by
  rw [C30_steps h] at hr
  split at hr
  · cases hr
  · have := (steps_none (Res.ok.inj hr)).1
    rw [callsOf_document] at this
    exact Made.documents hm this

/-- C30: in a document without whitespace definitions, the language of a definition is that of its expression.  Missing: the
quantifiers that do not work as documented (C33). -/
theorem C30_language_partial {tree : Node} {doc : Document} (h : DocumentNode tree doc) {s : Syntax}
    (hr : ({} : Syntax).ReadSyntax (.ok (.ok tree)) = .ok (s, none))
    (hsym : ∀ d ∈ doc, ∀ m ∈ d.expr.symbols, NoColon m) (hsound : ∀ d ∈ doc, d.expr.Sound) {d : DDef} (hd : d ∈ doc)
    (input : List Rune) (i j : Nat) :
    Derives (grammarOf (documentCalls doc)) input d.name i j ↔ Means doc input d.expr i j :=
  document_language (C30_made h hr) hsym hsound hd input i j

/-- C30: a text accepted by the parser of a document is one of the texts of its root definition. -/
theorem C30_parse_partial {tree : Node} {doc : Document} (h : DocumentNode tree doc) {s s' : Syntax}
    (hr : ({} : Syntax).ReadSyntax (.ok (.ok tree)) = .ok (s, none))
    (hsym : ∀ d ∈ doc, ∀ m ∈ d.expr.symbols, NoColon m) (hsound : ∀ d ∈ doc, d.expr.Sound)
    (hws : ∀ d ∈ doc, d.flags.whitespace = false) {fuel : Nat} {input : List Rune} {rend : Option Nat} {t : Node}
    (hp : s.Parse fuel input rend = .ok (s', .node t)) :
    ∃ d, docRoot doc = some d ∧ Means doc input d.expr 0 input.length := by
  have hm := C30_made h hr
  obtain ⟨root, h1, h2⟩ := C02_soundness hm
    ((documentCalls_commit (f := Commit.whitespace) (fun _ => rfl) (fun _ h => Or.inr (Or.inl h))).2 hws) hp
  rw [document_root] at h1
  obtain ⟨d, hd, rfl⟩ := Option.map_eq_some_iff.1 h1
  exact ⟨d, hd, (document_language hm hsym hsound (docRoot_mem hd) input _ _).1 h2⟩

/-- C30: in any document, the language of a definition is that of its expression, with the whitespace between the items, and
around the root.  Missing: the quantifiers that do not work as documented (C33). -/
theorem C30_language_ws_partial {tree : Node} {doc : Document} (h : DocumentNode tree doc) {s : Syntax}
    (hr : ({} : Syntax).ReadSyntax (.ok (.ok tree)) = .ok (s, none)) (hsym : PlainSymbols doc) (hsound : ∀ d ∈ doc, d.expr.Sound)
    {d : DDef} (hd : d ∈ doc) (input : List Rune) (i j : Nat) :
    WDerives (wgrammarOf (documentCalls doc)) input d.name i j ↔ DefWs doc input d i j :=
  document_language_ws (C30_made h hr) hsym hsound hd input i j

/-- C30: a text accepted by the parser of a document, with or without whitespace definitions, is one of the texts of its root
definition. -/
theorem C30_parse_ws_partial {tree : Node} {doc : Document} (h : DocumentNode tree doc) {s s' : Syntax}
    (hr : ({} : Syntax).ReadSyntax (.ok (.ok tree)) = .ok (s, none)) (hsym : PlainSymbols doc) (hsound : ∀ d ∈ doc, d.expr.Sound)
    (hws : DocumentWsSafe doc) {fuel : Nat} {input : List Rune} {rend : Option Nat} {t : Node}
    (hp : s.Parse fuel input rend = .ok (s', .node t)) :
    ∃ d, docRoot doc = some d ∧ DefWs doc input d 0 input.length := by
  have hm := C30_made h hr
  obtain ⟨root, h1, h2⟩ := C19_soundness_partial hm (document_wsSafe hsym hws) hp
  rw [document_root] at h1
  obtain ⟨d, hd, rfl⟩ := Option.map_eq_some_iff.1 h1
  exact ⟨d, hd, (document_language_ws hm hsym hsound (docRoot_mem hd) input _ _).1 h2⟩

/-- The parser of the documents returns this tree for this document. -/
example : (match (generalizing := false) selfParse 400 docText none with | .ok (.ok t) => shape t | _ => []) = shape docTree := by
  decide +kernel

/-- The document is accepted, and its parser accepts a text. -/
example : DocumentNode docTree sampleDoc ∧
    ∃ s s' t, ({} : Syntax).ReadSyntax (.ok (.ok docTree)) = .ok (s, none) ∧
      (∀ d ∈ sampleDoc, ∀ m ∈ d.expr.symbols, NoColon m) ∧ (∀ d ∈ sampleDoc, d.expr.Sound) ∧
      (∀ d ∈ sampleDoc, d.flags.whitespace = false) ∧ s.Parse 60 (runes "xxx") none = .ok (s', .node t) := by
  refine ⟨docTree_doc, ?_⟩
  obtain ⟨s, hs⟩ : ∃ s, ({} : Syntax).ReadSyntax (.ok (.ok docTree)) = .ok (s, none) := by
    rw [C30_calls docTree_doc (by decide)]
    refine ⟨(({} : Syntax).internalCalls (documentCalls sampleDoc)).1, ?_⟩
    rw [if_neg (by decide)]
    have : (({} : Syntax).internalCalls (documentCalls sampleDoc)).2 = none := by decide +kernel
    rw [← this]
  have hs' := hs
  rw [C30_calls docTree_doc (by decide), if_neg (by decide)] at hs'
  obtain ⟨s', t, ht⟩ := tree_ok (x := (({} : Syntax).internalCalls (documentCalls sampleDoc)).1.Parse 60 (runes "xxx") none)
    (by decide +kernel)
  rw [Res.ok.inj hs'] at ht
  refine ⟨s, s', t, hs, ?_, ?_, ?_, ht⟩
  · intro d hd m hm
    simp only [sampleDoc, List.mem_cons, List.not_mem_nil, or_false] at hd
    rcases hd with rfl | rfl <;> simp [DExpr.symbols, DItems.symbols, DOptions.symbols] at hm
    subst hm; unfold NoColon; decide
  · intro d hd
    simp only [sampleDoc, List.mem_cons, List.not_mem_nil, or_false] at hd
    rcases hd with rfl | rfl <;> simp [DExpr.Sound, DItems.Sound, DOptions.Sound, Quantifier.Sound]
  · intro d hd
    simp only [sampleDoc, List.mem_cons, List.not_mem_nil, or_false] at hd
    rcases hd with rfl | rfl <;> rfl

/-! ### C31 -/

/-- C31: the trees of the same document are read with the same effect, on any syntax. -/
theorem C31_same {tree tree' : Node} {doc : Document} (h : DocumentNode tree doc) (h' : DocumentNode tree' doc) (s : Syntax) :
    s.ReadSyntax (.ok (.ok tree)) = s.ReadSyntax (.ok (.ok tree')) := by rw [C30_steps h, C30_steps h']

/-- C31: a document with comments added or removed, at any place of its tree, is read with the same effect.  For the
texts of the documents see `C31_text` (Props/Written.lean). -/
theorem C31_comments {tree tree' : Node} {doc : Document} (h : DocumentNode tree doc) (ha : Alike tree tree') (s : Syntax) :
    DocumentNode tree' doc ∧ s.ReadSyntax (.ok (.ok tree)) = s.ReadSyntax (.ok (.ok tree')) :=
  have h' : DocumentNode tree' doc := DefinitionNodes.alike h ha.all
  ⟨h', C31_same h h' s⟩

/-- C31: `Alike` allows comments anywhere: at any place among the children of a node, -/
theorem C31_insert (name : Name) (f t : Nat) (ts : List Rune) (ns ns' : List Node) {n : Node} (hn : n.name = runes "comment") :
    Alike (.mk name f t ts (ns ++ ns')) (.mk name f t ts (ns ++ n :: ns')) := by
  have hc : content (.mk name f t ts (ns ++ n :: ns')) = content (.mk name f t ts (ns ++ ns')) := by
    unfold content
    simp [Node.nodes, List.filter_append, hn]
  refine .mk rfl (fun _ => rfl) ?_
  rw [hc]
  exact (alike_refl _).all

/-- and at any depth. -/
theorem C31_inside (name : Name) (f t : Nat) (ts : List Rune) (ns ns' : List Node) {n n' : Node} (h : Alike n n') :
    Alike (.mk name f t ts (ns ++ n :: ns')) (.mk name f t ts (ns ++ n' :: ns')) := by
  refine .mk rfl (fun _ => rfl) ?_
  unfold content
  simp only [Node.nodes, List.filter_append, List.filter_cons, h.name]
  refine .append (alikeAll_refl ns) ?_
  split
  · exact .cons h (alikeAll_refl ns')
  · exact alikeAll_refl ns'

/-- The comment is removed, and another one is put between the parts of the choice. -/
def docTree' : Node :=
  docNode "syntax" 0 28 [
    docNode "definition" 0 10 [
      docNode "symbol" 0 1 [],
      docNode "sequence" 2 10 [
        docNode "item" 2 10 [
          docNode "char-sequence" 2 5 [docNode "sequence-char" 3 4 []],
          docNode "range-quantifier" 5 10 [docNode "range-from" 6 7 [], docNode "range-to" 8 9 []]]]],
    docNode "definition" 15 28 [
      docNode "symbol" 15 16 [],
      docNode "root" 17 21 [],
      docNode "choice" 22 28 [
        docNode "symbol" 22 23 [],
        docNode "comment" 11 14 [],
        docNode "char-class" 24 28 [docNode "class-not" 25 26 [], docNode "class-char" 26 27 []]]]]

example : Alike docTree docTree' ∧ DocumentNode docTree sampleDoc := by
  refine ⟨?_, docTree_doc⟩
  have leaf : ∀ s f t, Alike (docNode s f t []) (docNode s f t []) := fun s f t => .mk rfl (fun _ => rfl) .nil
  have one : ∀ {n n' : Node}, Alike n n' → AlikeAll [n] [n'] := fun h => .cons h .nil
  have two : ∀ {n n' m m' : Node}, Alike n n' → Alike m m' → AlikeAll [n, m] [n', m'] := fun h1 h2 => .cons h1 (.cons h2 .nil)
  refine .mk rfl (fun h => by simp [content, docTree] at h; revert h; decide) (two ?_ ?_)
  · refine .mk rfl (fun _ => rfl) (two (leaf ..) (.mk rfl (fun _ => rfl) (one (.mk rfl (fun _ => rfl) (two ?_ ?_)))))
    · exact .mk rfl (fun _ => rfl) (one (leaf ..))
    · exact .mk rfl (fun _ => rfl) (two (leaf ..) (leaf ..))
  · refine .mk rfl (fun _ => rfl) (.cons (leaf ..) (two (leaf ..) (.mk rfl (fun _ => rfl) (two (leaf ..) ?_))))
    exact .mk rfl (fun _ => rfl) (two (leaf ..) (leaf ..))

/-! ### C32 -/

/-- C32: the commit type of the flags has exactly the flags whose names are among them. -/
theorem C32_flags (ns : List Node) :
    ((flagsToCommitType ns).alias = true ↔ runes "alias" ∈ ns.map Node.name) ∧
    ((flagsToCommitType ns).whitespace = true ↔ runes "ws" ∈ ns.map Node.name) ∧
    ((flagsToCommitType ns).noWhitespace = true ↔ runes "nows" ∈ ns.map Node.name) ∧
    ((flagsToCommitType ns).keyword = true ↔ runes "kw" ∈ ns.map Node.name) ∧
    ((flagsToCommitType ns).noKeyword = true ↔ runes "nokw" ∈ ns.map Node.name) ∧
    ((flagsToCommitType ns).failPass = true ↔ runes "failpass" ∈ ns.map Node.name) ∧
    ((flagsToCommitType ns).root = true ↔ runes "root" ∈ ns.map Node.name) ∧
    (flagsToCommitType ns).userDefined = false := by
  rw [flagsToCommitType_spec]
  simp only [flagsOf, List.contains_iff_mem, and_self, iff_self]

theorem flagsOf_set {ns ns' : List Name} (h : ∀ n, n ∈ ns ↔ n ∈ ns') : flagsOf ns = flagsOf ns' := by
  have : ∀ n, ns.contains n = ns'.contains n := by
    intro n
    rw [Bool.eq_iff_iff, List.contains_iff_mem, List.contains_iff_mem]
    exact h n
  simp only [flagsOf, this]

/-- C32: neither the order nor the repetition of the flags matters. -/
theorem C32_set {ns ns' : List Node} (h : ∀ n, n ∈ ns.map Node.name ↔ n ∈ ns'.map Node.name) :
    flagsToCommitType ns = flagsToCommitType ns' := by
  rw [flagsToCommitType_spec, flagsToCommitType_spec, flagsOf_set h]

/-- C32: two definitions with the same flags in any order are defined in the same way. -/
theorem C32_definition {n n' x e : Node} {fs fs' : List Node} {d : DDef} (h : DefinitionNode n d) (hn : content n = x :: fs ++ [e])
    (hn' : content n' = x :: fs' ++ [e]) (hf : ∀ m, m ∈ fs.map Node.name ↔ m ∈ fs'.map Node.name) (s : Syntax) :
    addDefinition s (dropComments n) = addDefinition s (dropComments n') := by
  have h' : DefinitionNode n' d := by
    obtain ⟨x1, fs1, e1, h1, h2, h3, h4⟩ := h.parts
    rw [hn] at h1
    simp only [List.cons_append, List.cons.injEq] at h1
    obtain ⟨rfl, h1⟩ := h1
    obtain ⟨h5, h6⟩ := List.append_inj' h1 rfl
    simp only [List.cons.injEq, and_true] at h6
    subst h5 h6
    exact ⟨x, fs', e, hn', h2, by rw [h3, flagsOf_set hf], h4⟩
  rw [addDefinition_spec h, addDefinition_spec h']

example : flagsToCommitType [docNode "root" 0 1 [], docNode "ws" 0 1 [], docNode "root" 0 1 []] =
    flagsToCommitType [docNode "ws" 0 1 [], docNode "root" 0 1 []] ∧
    flagsToCommitType [docNode "root" 0 1 [], docNode "ws" 0 1 []] = { whitespace := true, root := true } := by decide

/-! ### C33 -/

/-- C33: the minimum and the maximum of the notations; a number of 2^63 or more is an error. -/
theorem C33_notation {q : Node} {x : Quantifier} (h : QuantifierNode q x) :
    getQuantity (dropComments q) = .ok (if x.fits then some x.range else none) := getQuantity_spec h

/-- C33: the notations mean the documented numbers of occurrences.  Missing: an upper limit that is zero or below
the lower limit, see the counterexamples. -/
theorem C33_meaning_partial {x : Quantifier} (h : x.Sound) (k : Nat) :
    InRange (bounds x.range.1 x.range.2).1 (bounds x.range.1 x.range.2).2 k ↔ x.allows k :=
  itemRange_allowed (q := some x) (fun y hy => by cases hy; exact h) k

/-- C33: an item without a quantifier occurs once. -/
theorem C33_none (k : Nat) : InRange (bounds (Spec.itemRange none).1 (Spec.itemRange none).2).1 (bounds (Spec.itemRange none).1 (Spec.itemRange none).2).2 k ↔ k = 1 :=
  itemRange_allowed (q := none) (fun y hy => by cases hy) k

/-- C33 does not hold: what the other notations mean.  `{0}`, `{0,0}` and `{,0}` mean one occurrence, `{n,0}` means
at least `n`, and `{n,m}` with `m` below `n` means `m`. -/
theorem C33_unsound (k : Nat) :
    (InRange (bounds (Quantifier.exactly 0).range.1 (Quantifier.exactly 0).range.2).1 (bounds (Quantifier.exactly 0).range.1 (Quantifier.exactly 0).range.2).2 k ↔ k = 1) ∧
    (InRange (bounds (Quantifier.atMost 0).range.1 (Quantifier.atMost 0).range.2).1 (bounds (Quantifier.atMost 0).range.1 (Quantifier.atMost 0).range.2).2 k ↔ k = 1) ∧
    (∀ n, InRange (bounds (Quantifier.between n 0).range.1 (Quantifier.between n 0).range.2).1 (bounds (Quantifier.between n 0).range.1 (Quantifier.between n 0).range.2).2 k ↔
      if n = 0 then k = 1 else n ≤ k) ∧
    (∀ n m, 1 ≤ m → m < n → (InRange (bounds (Quantifier.between n m).range.1 (Quantifier.between n m).range.2).1
      (bounds (Quantifier.between n m).range.1 (Quantifier.between n m).range.2).2 k ↔ k = m)) := by
  refine ⟨?_, ?_, ?_, ?_⟩
  · rw [inRange_bounds]; simp [Quantifier.range]
  · rw [inRange_bounds]; simp [Quantifier.range]
  · intro n; rw [inRange_bounds]; simp only [Quantifier.range]; split <;> omega
  · intro n m h1 h2; rw [inRange_bounds]; simp only [Quantifier.range]; omega

/-- C33: `{0}` does not mean zero occurrences. -/
theorem C33_zero_counterexample : ¬ ∀ (x : Quantifier) (k : Nat),
    InRange (bounds x.range.1 x.range.2).1 (bounds x.range.1 x.range.2).2 k ↔ x.allows k := by
  intro h
  have h1 := (C33_unsound 1).1.2 rfl
  have h2 := (h (.exactly 0) 1).1 h1
  cases h2

/-- C33: a number that does not fit into 63 bits is an error. -/
theorem C33_overflow {q : Node} {x : Quantifier} (h : QuantifierNode q x) (hx : x.fits = false) :
    getQuantity (dropComments q) = .ok none := by rw [C33_notation h, hx]; rfl

example : QuantifierNode (docNode "range-quantifier" 5 10 [docNode "range-from" 6 7 [], docNode "range-to" 8 9 []]) (.between 2 3) ∧
    (Quantifier.between 2 3).fits = true ∧ (Quantifier.between 2 3).Sound ∧ (Quantifier.between 2 3).allows 3 ∧ ¬ (Quantifier.between 2 3).allows 4 :=
  ⟨.between rfl rfl rfl ⟨_, ⟨rfl, rfl⟩, by decide, by decide, rfl⟩ rfl
    ⟨_, ⟨rfl, rfl⟩, by decide, by decide, rfl⟩, by decide, by simp [Quantifier.Sound], by simp [Quantifier.allows],
    by simp [Quantifier.allows]⟩

end Treerack
