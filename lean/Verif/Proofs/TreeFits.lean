import Verif.Spec.TreesDocument

/-
The trees of the definitions of a document: for a meaning of the symbols and of the whitespace, with positions and nodes, the meaning
of the expressions.  Whatever fits to the definitions, holds for their trees.
-/

namespace Treerack
open Spec

/-- A property of a part of the input and the nodes that stand for it. -/
abbrev PartProp := Nat → Nat → List Node → Prop

def timesOf (P : PartProp) : Nat → PartProp
  | 0, i, j, ns => i = j ∧ ns = []
  | k + 1, i, j, ns => ∃ m us vs, timesOf P k i m us ∧ P m j vs ∧ ns = us ++ vs

def occOf (P Sp : PartProp) (first : Bool) : Nat → PartProp
  | 0, i, j, ns => i = j ∧ ns = []
  | k + 1, i, j, ns => (first = true ∧ k = 0 ∧ P i j ns) ∨
      ((first = true → 0 < k) ∧ ∃ a b us ws vs, occOf P Sp first k i a us ∧ Sp a b ws ∧ P b j vs ∧ ns = us ++ ws ++ vs)

mutual
def exprOf (input : List Rune) (S : Name → PartProp) (Sp : PartProp) (tight inner : Bool) : DExpr → PartProp
  | .any, i, j, ns => ns = [] ∧ j = i + 1 ∧ ∃ c, input[i]? = some c
  | .class_ neg cs rs, i, j, ns => ns = [] ∧ j = i + 1 ∧ ∃ c, input[i]? = some c ∧ InClass neg cs rs c
  | .chars cs, i, j, ns => ns = [] ∧ j = i + cs.length ∧ (input.drop i).take cs.length = cs
  | .symbol m, i, j, ns => S m i j ns
  | .seq items, i, j, ns => if tight then tightOf input S Sp inner items i j ns else looseOf input S Sp inner true items i j ns
  | .choice os, i, j, ns => optionOf input S Sp inner os i j ns
def tightOf (input : List Rune) (S : Name → PartProp) (Sp : PartProp) (inner : Bool) : DItems → PartProp
  | .nil, i, j, ns => i = j ∧ ns = []
  | .cons e q rest, i, j, ns => ∃ k m us vs, timesOf (exprOf input S Sp inner inner e) k i m us ∧ allowed q k ∧
      tightOf input S Sp inner rest m j vs ∧ ns = us ++ vs
def looseOf (input : List Rune) (S : Name → PartProp) (Sp : PartProp) (inner : Bool) (first : Bool) : DItems → PartProp
  | .nil, i, j, ns => i = j ∧ ns = []
  | .cons e q rest, i, j, ns =>
    (∃ k m us vs, occOf (exprOf input S Sp inner inner e) Sp first k i m us ∧ allowed q k ∧
      looseOf input S Sp inner false rest m j vs ∧ ns = us ++ vs) ∨
    (first = false ∧ allowed q 0 ∧ allowed q 1 ∧ ¬ allowed q 2 ∧ ∃ m us vs, Sp i m us ∧ looseOf input S Sp inner false rest m j vs ∧
      ns = us ++ vs)
def optionOf (input : List Rune) (S : Name → PartProp) (Sp : PartProp) (inner : Bool) : DOptions → PartProp
  | .nil, _, _, _ => False
  | .cons e rest, i, j, ns => exprOf input S Sp inner inner e i j ns ∨ optionOf input S Sp inner rest i j ns
end

/-- The meaning of the symbols and of the whitespace fits to the definitions. -/
structure TreeFits (doc : Document) (input : List Rune) (S : Name → PartProp) (Sp : PartProp) : Prop where
  shown : ∀ {d i j ns}, d ∈ doc → ¬ IsRoot doc d → d.Shown →
    exprOf input S Sp (d.flags.noWhitespace || d.flags.whitespace) d.flags.noWhitespace d.expr i j ns →
    S d.name i j [Node.mk d.name i j input ns]
  hidden : ∀ {d i j ns}, d ∈ doc → ¬ IsRoot doc d → ¬ d.Shown →
    exprOf input S Sp (d.flags.noWhitespace || d.flags.whitespace) d.flags.noWhitespace d.expr i j ns → S d.name i j ns
  root : ∀ {d i a b j us ns vs}, d ∈ doc → IsRoot doc d → Sp i a us →
    exprOf input S Sp (d.flags.noWhitespace || d.flags.whitespace) d.flags.noWhitespace d.expr a b ns → Sp b j vs →
    S d.name i j [Node.mk d.name i j input (us ++ ns ++ vs)]
  nil : ∀ {i}, Sp i i []
  cons : ∀ {d i m j us ns}, d ∈ doc → d.flags.whitespace = true → Sp i m us → S d.name m j ns → Sp i j (us ++ ns)

section
variable {doc : Document} {input : List Rune} {S : Name → PartProp} {Sp : PartProp} (F : TreeFits doc input S Sp)
include F

mutual

theorem defTree_of : ∀ {d : DDef} {i j : Nat} {ns : List Node}, DefTree doc input d i j ns → d ∈ doc ∧ S d.name i j ns
  | _, _, _, _, .shown h1 h2 h3 h4 => ⟨h1, F.shown h1 h2 h3 (meansTree_of h4)⟩
  | _, _, _, _, .hidden h1 h2 h3 h4 => ⟨h1, F.hidden h1 h2 h3 (meansTree_of h4)⟩
  | _, _, _, _, .root h1 h2 h3 h4 h5 => ⟨h1, F.root h1 h2 (gapTree_of h3) (meansTree_of h4) (gapTree_of h5)⟩

theorem meansTree_of : ∀ {tight inner : Bool} {e : DExpr} {i j : Nat} {ns : List Node}, MeansTree doc input tight inner e i j ns →
    exprOf input S Sp tight inner e i j ns
  | _, _, _, _, _, _, .any h => ⟨rfl, rfl, _, h⟩
  | _, _, _, _, _, _, .class_ h1 h2 => ⟨rfl, rfl, _, h1, h2⟩
  | _, _, _, _, _, _, .chars h => ⟨rfl, rfl, h⟩
  | _, _, _, _, _, _, .symbol h => (defTree_of h).2
  | _, _, _, _, _, _, .tight h => by
    have := tightTree_of h
    simpa only [exprOf, if_true] using this
  | _, _, _, _, _, _, .loose h => by
    have := looseTree_of h
    simpa only [exprOf, Bool.false_eq_true, if_false] using this
  | _, _, _, _, _, _, .choice h => by
    have := optionsTree_of h
    simpa only [exprOf] using this

theorem gapTree_of : ∀ {i j : Nat} {ns : List Node}, GapTree doc input i j ns → Sp i j ns
  | _, _, _, .nil => F.nil
  | _, _, _, .cons h1 h2 h3 => F.cons (defTree_of h3).1 h2 (gapTree_of h1) (defTree_of h3).2

theorem tightTree_of : ∀ {inner : Bool} {items : DItems} {i j : Nat} {ns : List Node}, TightTree doc input inner items i j ns →
    tightOf input S Sp inner items i j ns
  | _, _, _, _, _, .nil => ⟨rfl, rfl⟩
  | _, _, _, _, _, .cons h1 h2 h3 => ⟨_, _, _, _, timesTree_of h1, h2, tightTree_of h3, rfl⟩

theorem timesTree_of : ∀ {inner : Bool} {e : DExpr} {k i j : Nat} {ns : List Node}, TimesTree doc input inner e k i j ns →
    timesOf (exprOf input S Sp inner inner e) k i j ns
  | _, _, _, _, _, _, .zero => ⟨rfl, rfl⟩
  | _, _, _, _, _, _, .succ h1 h2 => ⟨_, _, _, timesTree_of h1, meansTree_of h2, rfl⟩

theorem looseTree_of : ∀ {inner first : Bool} {items : DItems} {i j : Nat} {ns : List Node}, LooseTree doc input inner first items i j ns →
    looseOf input S Sp inner first items i j ns
  | _, _, _, _, _, _, .nil => ⟨rfl, rfl⟩
  | _, _, _, _, _, _, .cons h1 h2 h3 => .inl ⟨_, _, _, _, occTree_of h1, h2, looseTree_of h3, rfl⟩
  | _, _, _, _, _, _, .absent h1 h2 h3 h4 h5 => .inr ⟨rfl, h1, h2, h3, _, _, _, gapTree_of h4, looseTree_of h5, rfl⟩

theorem occTree_of : ∀ {inner first : Bool} {e : DExpr} {k i j : Nat} {ns : List Node}, OccTree doc input inner first e k i j ns →
    occOf (exprOf input S Sp inner inner e) Sp first k i j ns
  | _, _, _, _, _, _, _, .zero => ⟨rfl, rfl⟩
  | _, _, _, _, _, _, _, .first h => .inl ⟨rfl, rfl, meansTree_of h⟩
  | _, _, _, _, _, _, _, .succ h1 h2 h3 h4 => .inr ⟨h2, _, _, _, _, _, occTree_of h1, gapTree_of h3, meansTree_of h4, rfl⟩

theorem optionsTree_of : ∀ {inner : Bool} {os : DOptions} {i j : Nat} {ns : List Node}, OptionsTree doc input inner os i j ns →
    optionOf input S Sp inner os i j ns
  | _, _, _, _, _, .here h => .inl (meansTree_of h)
  | _, _, _, _, _, .there h => .inr (optionsTree_of h)

end

end

/-! ### Items -/

section
variable {input : List Rune} {S : Name → PartProp} {Sp : PartProp} {inner first : Bool} {e : DExpr} {q : Option Quantifier} {rest : DItems}
  {i j : Nat} {ns : List Node}

theorem looseOf_first (h : looseOf input S Sp inner true (.cons e none rest) i j ns) :
    ∃ m us vs, exprOf input S Sp inner inner e i m us ∧ looseOf input S Sp inner false rest m j vs ∧ ns = us ++ vs := by
  rcases h with ⟨k, m, us, vs, h1, h2, h3, rfl⟩ | ⟨h, -⟩
  · cases (show k = 1 from h2)
    rcases h1 with ⟨-, -, h1⟩ | ⟨h, -⟩
    · exact ⟨m, us, vs, h1, h3, rfl⟩
    · exact absurd (h rfl) (by decide)
  · cases h

theorem looseOf_one (h : looseOf input S Sp inner false (.cons e none rest) i j ns) :
    ∃ a b us ws vs, Sp i a us ∧ exprOf input S Sp inner inner e a b ws ∧ looseOf input S Sp inner false rest b j vs ∧ ns = us ++ ws ++ vs := by
  rcases h with ⟨k, m, us, vs, h1, h2, h3, rfl⟩ | ⟨-, h, -⟩
  · cases (show k = 1 from h2)
    rcases h1 with ⟨h, -⟩ | ⟨-, a, b, us, ws, vs, ⟨rfl, rfl⟩, h4, h5, rfl⟩
    · cases h
    · exact ⟨_, _, _, _, _, h4, h5, h3, by simp⟩
  · cases (show 0 = 1 from h)

theorem looseOf_optional (h : looseOf input S Sp inner false (.cons e (some .zeroOrOne) rest) i j ns) :
    looseOf input S Sp inner false rest i j ns ∨
    (∃ a us vs, Sp i a us ∧ looseOf input S Sp inner false rest a j vs ∧ ns = us ++ vs) ∨
    ∃ a b us ws vs, Sp i a us ∧ exprOf input S Sp inner inner e a b ws ∧ looseOf input S Sp inner false rest b j vs ∧
      ns = us ++ ws ++ vs := by
  rcases h with ⟨k, m, us, vs, h1, h2, h3, rfl⟩ | ⟨-, -, -, -, h⟩
  · have h2 : k ≤ 1 := h2
    match k, h2 with
    | 0, _ => obtain ⟨rfl, rfl⟩ := h1; exact .inl h3
    | 1, _ =>
      rcases h1 with ⟨h, -⟩ | ⟨-, a, b, us, ws, vs, ⟨rfl, rfl⟩, h4, h5, rfl⟩
      · cases h
      · exact .inr (.inr ⟨_, _, _, _, _, h4, h5, h3, by simp⟩)
  · exact .inr (.inl h)

theorem looseOf_many (h : looseOf input S Sp inner false (.cons e (some .zeroOrMore) rest) i j ns) :
    ∃ k m us vs, occOf (exprOf input S Sp inner inner e) Sp false k i m us ∧ looseOf input S Sp inner false rest m j vs ∧ ns = us ++ vs := by
  rcases h with ⟨k, m, us, vs, h1, -, h3, rfl⟩ | ⟨-, -, -, h, -⟩
  · exact ⟨k, m, us, vs, h1, h3, rfl⟩
  · exact absurd trivial h

end

/-! ### Expressions without symbols have no nodes -/

mutual
def plainExpr : DExpr → Bool
  | .symbol _ => false
  | .seq items => plainItems items
  | .choice os => plainOptions os
  | _ => true
def plainItems : DItems → Bool
  | .nil => true
  | .cons e _ rest => plainExpr e && plainItems rest
def plainOptions : DOptions → Bool
  | .nil => true
  | .cons e rest => plainExpr e && plainOptions rest
end

section
variable {input : List Rune} {S : Name → PartProp} {Sp : PartProp}

theorem timesOf_plain {P : PartProp} (h : ∀ {i j ns}, P i j ns → ns = []) : ∀ {k i j : Nat} {ns : List Node}, timesOf P k i j ns → ns = []
  | 0, _, _, _, h1 => h1.2
  | k + 1, _, _, _, ⟨m, us, vs, h1, h2, e⟩ => by rw [e, timesOf_plain h h1, h h2]; rfl

mutual

theorem exprOf_plain : ∀ {e : DExpr}, plainExpr e = true → ∀ {i j : Nat} {ns : List Node}, exprOf input S Sp true true e i j ns → ns = []
  | .any, _, _, _, _, h => h.1
  | .class_ .., _, _, _, _, h => h.1
  | .chars _, _, _, _, _, h => h.1
  | .symbol _, hp, _, _, _, _ => by cases hp
  | .seq items, hp, _, _, _, h => tightOf_plain (items := items) (by simpa [plainExpr] using hp) (by simpa [exprOf] using h)
  | .choice os, hp, _, _, _, h => optionOf_plain (os := os) (by simpa [plainExpr] using hp) (by simpa [exprOf] using h)

theorem tightOf_plain : ∀ {items : DItems}, plainItems items = true → ∀ {i j : Nat} {ns : List Node}, tightOf input S Sp true items i j ns → ns = []
  | .nil, _, _, _, _, h => h.2
  | .cons e q rest, hp, _, _, _, ⟨k, m, us, vs, h1, _, h3, e'⟩ => by
    simp only [plainItems, Bool.and_eq_true] at hp
    rw [e', timesOf_plain (fun h => exprOf_plain hp.1 h) h1, tightOf_plain hp.2 h3]
    rfl

theorem optionOf_plain : ∀ {os : DOptions}, plainOptions os = true → ∀ {i j : Nat} {ns : List Node}, optionOf input S Sp true os i j ns → ns = []
  | .nil, _, _, _, _, h => h.elim
  | .cons e rest, hp, _, _, _, h => by
    simp only [plainOptions, Bool.and_eq_true] at hp
    rcases h with h | h
    · exact exprOf_plain hp.1 h
    · exact optionOf_plain hp.2 h

end

end

end Treerack
