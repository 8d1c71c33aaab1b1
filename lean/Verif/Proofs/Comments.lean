import Verif.Proofs.Document

/-
Trees that differ in comments only stand for the same document.
-/

namespace Treerack.Spec
open Treerack

theorem Alike.name {n n' : Node} (h : Alike n n') : n.name = n'.name := by cases h; assumption
theorem Alike.all {n n' : Node} (h : Alike n n') : AlikeAll (content n) (content n') := by cases h; assumption

theorem AlikeAll.of_nil {ns : List Node} (h : AlikeAll [] ns) : ns = [] := by cases h; rfl

theorem AlikeAll.of_cons {n : Node} {ns ms : List Node} (h : AlikeAll (n :: ns) ms) :
    ∃ m ms', ms = m :: ms' ∧ Alike n m ∧ AlikeAll ns ms' := by
  cases h with
  | cons h1 h2 => exact ⟨_, _, rfl, h1, h2⟩

theorem AlikeAll.of_append {ns ns' ms : List Node} (h : AlikeAll (ns ++ ns') ms) :
    ∃ m m', ms = m ++ m' ∧ AlikeAll ns m ∧ AlikeAll ns' m' := by
  induction ns generalizing ms with
  | nil => exact ⟨[], ms, rfl, .nil, h⟩
  | cons n ns ih =>
    obtain ⟨m, ms', rfl, h1, h2⟩ := h.of_cons
    obtain ⟨a, b, rfl, h3, h4⟩ := ih h2
    exact ⟨m :: a, b, rfl, .cons h1 h3, h4⟩

theorem AlikeAll.names {ns ms : List Node} (h : AlikeAll ns ms) : ns.map Node.name = ms.map Node.name := by
  induction ns generalizing ms with
  | nil => rw [h.of_nil]
  | cons n ns ih =>
    obtain ⟨m, ms', rfl, h1, h2⟩ := h.of_cons
    simp [h1.name, ih h2]

theorem Alike.leaf {n n' : Node} (h : Alike n n') {t : List Rune} (hl : Leaf n t) : Leaf n' t := by
  cases h with
  | mk h1 h2 h3 =>
    rw [hl.1] at h3
    exact ⟨h3.of_nil, by rw [← h2 hl.1]; exact hl.2⟩

theorem Alike.number {n n' : Node} (h : Alike n n') {v : Nat} (hl : NumberNode n v) : NumberNode n' v := by
  obtain ⟨t, h1, h2⟩ := hl
  exact ⟨t, h.leaf h1, h2⟩

theorem Alike.char {n n' : Node} (h : Alike n n') {c : Rune} (hl : CharNode n c) : CharNode n' c := by
  rcases hl with ⟨h1, h2⟩ | ⟨x, h1, h2⟩
  · exact Or.inl ⟨h.leaf h1, h2⟩
  · exact Or.inr ⟨x, h.leaf h1, h2⟩

theorem AlikeAll.chars {ns ns' : List Node} (h : AlikeAll ns ns') {cs : List Rune} (hl : CharNodes ns cs) : CharNodes ns' cs := by
  induction hl generalizing ns' with
  | nil => rw [h.of_nil]; exact .nil
  | cons h1 _ ih =>
    obtain ⟨m, ms, rfl, k1, k2⟩ := h.of_cons
    exact .cons (k1.char h1) (ih k2)

theorem AlikeAll.class_ {ns ns' : List Node} (h : AlikeAll ns ns') {cs : List Rune} {rs : List (Rune × Rune)}
    (hl : ClassNodes ns cs rs) : ClassNodes ns' cs rs := by
  induction hl generalizing ns' with
  | nil => rw [h.of_nil]; exact .nil
  | char h1 h2 _ ih =>
    obtain ⟨m, ms, rfl, k1, k2⟩ := h.of_cons
    exact .char (by rw [← k1.name]; exact h1) (k1.char h2) (ih k2)
  | range h1 h2 h3 h4 _ ih =>
    obtain ⟨m, ms, rfl, k1, k2⟩ := h.of_cons
    have ka := k1.all
    rw [h2] at ka
    obtain ⟨a, as, e1, k3, k4⟩ := ka.of_cons
    obtain ⟨b, bs, rfl, k5, k6⟩ := k4.of_cons
    obtain rfl := k6.of_nil
    exact .range (by rw [← k1.name]; exact h1) e1 (k3.char h3) (k5.char h4) (ih k2)

theorem Alike.quantifier {q q' : Node} (h : Alike q q') {x : Quantifier} (hq : QuantifierNode q x) : QuantifierNode q' x := by
  have ka := h.all
  have hn := h.name
  cases hq with
  | exactly h1 h2 h3 =>
    rw [h2] at ka
    obtain ⟨a, as, e1, k3, k4⟩ := ka.of_cons
    obtain rfl := k4.of_nil
    exact .exactly (by rw [← hn]; exact h1) e1 (k3.number h3)
  | between h1 h2 h3 h4 h5 h6 =>
    rw [h2] at ka
    obtain ⟨a, as, e1, k3, k4⟩ := ka.of_cons
    obtain ⟨b, bs, rfl, k5, k6⟩ := k4.of_cons
    obtain rfl := k6.of_nil
    exact .between (by rw [← hn]; exact h1) e1 (by rw [← k3.name]; exact h3) (k3.number h4) (by rw [← k5.name]; exact h5) (k5.number h6)
  | atLeast h1 h2 h3 h4 =>
    rw [h2] at ka
    obtain ⟨a, as, e1, k3, k4⟩ := ka.of_cons
    obtain rfl := k4.of_nil
    exact .atLeast (by rw [← hn]; exact h1) e1 (by rw [← k3.name]; exact h3) (k3.number h4)
  | atMost h1 h2 h3 h4 =>
    rw [h2] at ka
    obtain ⟨a, as, e1, k3, k4⟩ := ka.of_cons
    obtain rfl := k4.of_nil
    exact .atMost (by rw [← hn]; exact h1) e1 (by rw [← k3.name]; exact h3) (k3.number h4)
  | unbounded h1 h2 =>
    rw [h2] at ka
    exact .unbounded (by rw [← hn]; exact h1) ka.of_nil
  | oneOrMore h1 => exact .oneOrMore (by rw [← hn]; exact h1)
  | zeroOrMore h1 => exact .zeroOrMore (by rw [← hn]; exact h1)
  | zeroOrOne h1 => exact .zeroOrOne (by rw [← hn]; exact h1)

mutual

theorem ExprNode.alike : ∀ {n : Node} {e : DExpr}, ExprNode n e → ∀ {n' : Node}, Alike n n' → ExprNode n' e
  | _, _, .any h1, n', h => .any (by rw [← h.name]; exact h1)
  | _, _, .class_ h1 h2, n', h => .class_ (by rw [← h.name]; exact h1) (h.all.class_ h2)
  | _, _, .classNot h1 h2 h3 h4, n', h => by
    have ka := h.all
    rw [h2] at ka
    obtain ⟨a, as, e1, k3, k4⟩ := ka.of_cons
    exact .classNot (by rw [← h.name]; exact h1) e1 (by rw [← k3.name]; exact h3) (k4.class_ h4)
  | _, _, .chars h1 h2, n', h => .chars (by rw [← h.name]; exact h1) (h.all.chars h2)
  | _, _, .symbol h1 h2, n', h => .symbol (by rw [← h.name]; exact h1) (h.leaf h2)
  | _, _, .seq h1 h2, n', h => .seq (by rw [← h.name]; exact h1) (ItemNodes.alike h2 h.all)
  | _, _, .choice h1 h2, n', h => .choice (by rw [← h.name]; exact h1) (OptionNodes.alike h2 h.all)

theorem ItemNodes.alike : ∀ {ns : List Node} {items : DItems}, ItemNodes ns items → ∀ {ns' : List Node}, AlikeAll ns ns' →
    ItemNodes ns' items
  | _, _, .nil, _, h => by rw [h.of_nil]; exact .nil
  | _, _, .once h1 h2 h3, _, h => by
    obtain ⟨m, ms, rfl, k1, k2⟩ := h.of_cons
    have ka := k1.all
    rw [h1] at ka
    obtain ⟨a, as, e1, k3, k4⟩ := ka.of_cons
    obtain rfl := k4.of_nil
    exact .once e1 (ExprNode.alike h2 k3) (ItemNodes.alike h3 k2)
  | _, _, .many h1 h2 h3 h4, _, h => by
    obtain ⟨m, ms, rfl, k1, k2⟩ := h.of_cons
    have ka := k1.all
    rw [h1] at ka
    obtain ⟨a, as, e1, k3, k4⟩ := ka.of_cons
    obtain ⟨b, bs, rfl, k5, k6⟩ := k4.of_cons
    obtain rfl := k6.of_nil
    exact .many e1 (ExprNode.alike h2 k3) (k5.quantifier h3) (ItemNodes.alike h4 k2)

theorem OptionNodes.alike : ∀ {ns : List Node} {os : DOptions}, OptionNodes ns os → ∀ {ns' : List Node}, AlikeAll ns ns' →
    OptionNodes ns' os
  | _, _, .nil, _, h => by rw [h.of_nil]; exact .nil
  | _, _, .cons h1 h2, _, h => by
    obtain ⟨m, ms, rfl, k1, k2⟩ := h.of_cons
    exact .cons (ExprNode.alike h1 k1) (OptionNodes.alike h2 k2)

end

theorem DefinitionNode.alike {n n' : Node} {d : DDef} (hd : DefinitionNode n d) (h : Alike n n') : DefinitionNode n' d := by
  obtain ⟨x, fs, e, h1, h2, h3, h4⟩ := hd.parts
  have ka := h.all
  rw [h1] at ka
  obtain ⟨a, b, e1, k1, k2⟩ := ka.of_append
  obtain ⟨x', fs', rfl, k3, k4⟩ := k1.of_cons
  obtain ⟨e', es, rfl, k5, k6⟩ := k2.of_cons
  obtain rfl := k6.of_nil
  exact ⟨x', fs', e', e1, k3.leaf h2, by rw [h3, k4.names], h4.alike k5⟩

theorem DefinitionNodes.alike {ns ns' : List Node} {doc : Document} (hd : DefinitionNodes ns doc) (h : AlikeAll ns ns') :
    DefinitionNodes ns' doc := by
  induction hd generalizing ns' with
  | nil => rw [h.of_nil]; exact .nil
  | cons h1 _ ih =>
    obtain ⟨m, ms, rfl, k1, k2⟩ := h.of_cons
    exact .cons (h1.alike k1) (ih k2)

theorem alike_refl : ∀ (n : Node), Alike n n
  | .mk _ _ _ _ ns => .mk rfl (fun _ => rfl) (alikeAll_refl ns)
where
  alikeAll_refl : ∀ (ns : List Node), AlikeAll (ns.filter fun m => m.name != runes "comment") (ns.filter fun m => m.name != runes "comment")
  | [] => .nil
  | n :: ns => by
    have h1 := alike_refl n
    have h2 := alikeAll_refl ns
    rw [List.filter_cons]
    split
    · exact .cons h1 h2
    · exact h2

theorem alikeAll_refl (ns : List Node) : AlikeAll (ns.filter fun m => m.name != runes "comment") (ns.filter fun m => m.name != runes "comment") :=
  alike_refl.alikeAll_refl ns

theorem AlikeAll.append {a a' b b' : List Node} (h : AlikeAll a a') (h' : AlikeAll b b') : AlikeAll (a ++ b) (a' ++ b') := by
  induction a generalizing a' with
  | nil => rw [h.of_nil]; exact h'
  | cons n a ih =>
    obtain ⟨m, ms, rfl, k1, k2⟩ := h.of_cons
    exact .cons k1 (ih k2)

end Treerack.Spec
