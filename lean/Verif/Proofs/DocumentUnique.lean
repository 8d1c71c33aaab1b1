import Verif.Props.Escape
import Verif.Spec.Document

/-
A tree stands for at most one document.
-/

namespace Treerack
open Spec

theorem Leaf.unique {n : Node} {t u : List Rune} (h : Leaf n t) (h' : Leaf n u) : t = u := by
  have := h.2.symm.trans h'.2
  cases this
  rfl

theorem NumberNode.unique {n : Node} {v w : Nat} (h : NumberNode n v) (h' : NumberNode n w) : v = w := by
  obtain ⟨t, h1, -, -, rfl⟩ := h
  obtain ⟨u, h2, -, -, rfl⟩ := h'
  rw [Leaf.unique h1 h2]

theorem CharNode.unique {n : Node} {c d : Rune} (h : CharNode n c) (h' : CharNode n d) : c = d := by
  rcases h with ⟨h, -⟩ | ⟨x, h, hx⟩ <;> rcases h' with ⟨h', -⟩ | ⟨y, h', hy⟩ <;> have e := Leaf.unique h h'
  · simpa using e
  · simp at e
  · simp at e
  · obtain rfl : x = y := by simpa using e
    exact denotes_unique hx hy

theorem CharNodes.unique {ns : List Node} {cs ds : List Rune} (h : CharNodes ns cs) (h' : CharNodes ns ds) : cs = ds := by
  induction h generalizing ds with
  | nil => cases h'; rfl
  | cons h1 _ ih => cases h' with | cons h1' h2' => rw [CharNode.unique h1 h1', ih h2']

theorem ClassNodes.unique {ns : List Node} {cs ds : List Rune} {rs ss : List (Rune × Rune)} (h : ClassNodes ns cs rs)
    (h' : ClassNodes ns ds ss) : cs = ds ∧ rs = ss := by
  induction h generalizing ds ss with
  | nil => cases h'; exact ⟨rfl, rfl⟩
  | char hn h1 _ ih =>
    cases h' with
    | char hn' h1' h2' =>
      obtain ⟨rfl, rfl⟩ := ih h2'
      rw [CharNode.unique h1 h1']
      exact ⟨rfl, rfl⟩
    | range hn' => exact absurd (hn.symm.trans hn') (by decide)
  | range hn hc h1 h2 _ ih =>
    cases h' with
    | char hn' => exact absurd (hn.symm.trans hn') (by decide)
    | range hn' hc' h1' h2' h3' =>
      obtain ⟨rfl, rfl⟩ := ih h3'
      have e := hc.symm.trans hc'
      simp only [List.cons.injEq, and_true] at e
      obtain ⟨rfl, rfl⟩ := e
      rw [CharNode.unique h1 h1', CharNode.unique h2 h2']
      exact ⟨rfl, rfl⟩

theorem ClassNodes.notNot {x : Node} {ms : List Node} {cs : List Rune} {rs : List (Rune × Rune)} (h : ClassNodes (x :: ms) cs rs) :
    x.name ≠ runes "class-not" := by
  intro hx
  cases h with
  | char hn => exact absurd (hn.symm.trans hx) (by decide)
  | range hn => exact absurd (hn.symm.trans hx) (by decide)

theorem QuantifierNode.unique {q : Node} {x y : Quantifier} (h : QuantifierNode q x) (h' : QuantifierNode q y) : x = y := by
  cases h with
  | exactly hn hc h1 =>
    cases h' with
    | exactly hn' hc' h1' =>
      have e := hc.symm.trans hc'
      cases e
      rw [NumberNode.unique h1 h1']
    | between hn' | atLeast hn' | atMost hn' | unbounded hn' | oneOrMore hn' | zeroOrMore hn' | zeroOrOne hn' =>
      exact absurd (hn.symm.trans hn') (by decide)
  | between hn hc ha h1 hb h2 =>
    cases h' with
    | between hn' hc' ha' h1' hb' h2' =>
      cases hc.symm.trans hc'
      rw [NumberNode.unique h1 h1', NumberNode.unique h2 h2']
    | atLeast hn' hc' | atMost hn' hc' | unbounded hn' hc' => simp [hc] at hc'
    | exactly hn' | oneOrMore hn' | zeroOrMore hn' | zeroOrOne hn' => exact absurd (hn.symm.trans hn') (by decide)
  | atLeast hn hc ha h1 =>
    cases h' with
    | atLeast hn' hc' ha' h1' =>
      cases hc.symm.trans hc'
      rw [NumberNode.unique h1 h1']
    | atMost hn' hc' hb' =>
      cases hc.symm.trans hc'
      exact absurd (ha.symm.trans hb') (by decide)
    | between hn' hc' | unbounded hn' hc' => simp [hc] at hc'
    | exactly hn' | oneOrMore hn' | zeroOrMore hn' | zeroOrOne hn' => exact absurd (hn.symm.trans hn') (by decide)
  | atMost hn hc hb h1 =>
    cases h' with
    | atMost hn' hc' hb' h1' =>
      cases hc.symm.trans hc'
      rw [NumberNode.unique h1 h1']
    | atLeast hn' hc' ha' =>
      cases hc.symm.trans hc'
      exact absurd (hb.symm.trans ha') (by decide)
    | between hn' hc' | unbounded hn' hc' => simp [hc] at hc'
    | exactly hn' | oneOrMore hn' | zeroOrMore hn' | zeroOrOne hn' => exact absurd (hn.symm.trans hn') (by decide)
  | unbounded hn hc =>
    cases h' with
    | unbounded => rfl
    | between hn' hc' | atLeast hn' hc' | atMost hn' hc' => simp [hc] at hc'
    | exactly hn' | oneOrMore hn' | zeroOrMore hn' | zeroOrOne hn' => exact absurd (hn.symm.trans hn') (by decide)
  | oneOrMore hn =>
    cases h' with
    | oneOrMore => rfl
    | exactly hn' | between hn' | atLeast hn' | atMost hn' | unbounded hn' | zeroOrMore hn' | zeroOrOne hn' =>
      exact absurd (hn.symm.trans hn') (by decide)
  | zeroOrMore hn =>
    cases h' with
    | zeroOrMore => rfl
    | exactly hn' | between hn' | atLeast hn' | atMost hn' | unbounded hn' | oneOrMore hn' | zeroOrOne hn' =>
      exact absurd (hn.symm.trans hn') (by decide)
  | zeroOrOne hn =>
    cases h' with
    | zeroOrOne => rfl
    | exactly hn' | between hn' | atLeast hn' | atMost hn' | unbounded hn' | oneOrMore hn' | zeroOrMore hn' =>
      exact absurd (hn.symm.trans hn') (by decide)

/-- The names of the nodes of the expressions. -/
def exprName : DExpr → Name
  | .any => runes "any-char"
  | .class_ .. => runes "char-class"
  | .chars _ => runes "char-sequence"
  | .symbol _ => runes "symbol"
  | .seq _ => runes "sequence"
  | .choice _ => runes "choice"

theorem ExprNode.named {n : Node} {e : DExpr} (h : ExprNode n e) : n.name = exprName e := by cases h <;> assumption

mutual
theorem ExprNode.unique {n : Node} {e : DExpr} (h : ExprNode n e) {e' : DExpr} (h' : ExprNode n e') : e = e' := by
  have hn := (ExprNode.named h).symm.trans (ExprNode.named h')
  match h with
  | .any _ => cases e' <;> first | rfl | (simp only [exprName] at hn; exact absurd hn (by decide))
  | .class_ _ hc =>
    cases h' with
    | class_ _ hc' =>
      obtain ⟨rfl, rfl⟩ := ClassNodes.unique hc hc'
      rfl
    | classNot _ he hx => rw [he] at hc; exact absurd hx (ClassNodes.notNot hc)
    | any | chars | symbol | seq | choice => (simp only [exprName] at hn; exact absurd hn (by decide))
  | .classNot _ he hx hc =>
    cases h' with
    | class_ _ hc' => rw [he] at hc'; exact absurd hx (ClassNodes.notNot hc')
    | classNot _ he' hx' hc' =>
      cases he.symm.trans he'
      obtain ⟨rfl, rfl⟩ := ClassNodes.unique hc hc'
      rfl
    | any | chars | symbol | seq | choice => (simp only [exprName] at hn; exact absurd hn (by decide))
  | .chars _ hc =>
    cases h' with
    | chars _ hc' => rw [CharNodes.unique hc hc']
    | any | class_ | classNot | symbol | seq | choice => (simp only [exprName] at hn; exact absurd hn (by decide))
  | .symbol _ hc =>
    cases h' with
    | symbol _ hc' => rw [Leaf.unique hc hc']
    | any | class_ | classNot | chars | seq | choice => (simp only [exprName] at hn; exact absurd hn (by decide))
  | .seq _ hc =>
    cases h' with
    | seq _ hc' => rw [ItemNodes.unique hc hc']
    | any | class_ | classNot | chars | symbol | choice => (simp only [exprName] at hn; exact absurd hn (by decide))
  | .choice _ hc =>
    cases h' with
    | choice _ hc' => rw [OptionNodes.unique hc hc']
    | any | class_ | classNot | chars | symbol | seq => (simp only [exprName] at hn; exact absurd hn (by decide))
  termination_by structural h

theorem ItemNodes.unique {ns : List Node} {items : DItems} (h : ItemNodes ns items) {items' : DItems} (h' : ItemNodes ns items') :
    items = items' := by
  match h with
  | .nil => cases h'; rfl
  | .once hc he hr =>
    cases h' with
    | once hc' he' hr' =>
      cases hc.symm.trans hc'
      rw [ExprNode.unique he he', ItemNodes.unique hr hr']
    | many hc' => simp [hc] at hc'
  | .many hc he hq hr =>
    cases h' with
    | once hc' => simp [hc] at hc'
    | many hc' he' hq' hr' =>
      cases hc.symm.trans hc'
      rw [ExprNode.unique he he', QuantifierNode.unique hq hq', ItemNodes.unique hr hr']
  termination_by structural h

theorem OptionNodes.unique {ns : List Node} {os : DOptions} (h : OptionNodes ns os) {os' : DOptions} (h' : OptionNodes ns os') :
    os = os' := by
  match h with
  | .nil => cases h'; rfl
  | .cons he hr =>
    cases h' with
    | cons he' hr' => rw [ExprNode.unique he he', OptionNodes.unique hr hr']
  termination_by structural h
end

theorem DefinitionNode.unique {n : Node} {d d' : DDef} (h : DefinitionNode n d) (h' : DefinitionNode n d') : d = d' := by
  obtain ⟨x, fs, e, h1, h2, h3, h4⟩ := h.parts
  obtain ⟨x', fs', e', h1', h2', h3', h4'⟩ := h'.parts
  have hc := h1.symm.trans h1'
  simp only [List.cons_append, List.cons.injEq] at hc
  obtain ⟨rfl, hc⟩ := hc
  obtain ⟨rfl, he⟩ := List.append_inj' hc rfl
  cases he
  cases d; cases d'
  simp only at *
  rw [Leaf.unique h2 h2', h3, h3', ExprNode.unique h4 h4']

theorem DefinitionNodes.unique {ns : List Node} {doc doc' : Document} (h : DefinitionNodes ns doc) (h' : DefinitionNodes ns doc') : doc = doc' := by
  induction h generalizing doc' with
  | nil => cases h'; rfl
  | cons h1 _ ih => cases h' with | cons h1' h2' => rw [DefinitionNode.unique h1 h1', ih h2']

end Treerack
