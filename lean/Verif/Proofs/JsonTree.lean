import Verif.Spec.JsonTree
import Verif.Proofs.TreeFits
import Verif.Proofs.JsonDoc

/-
The trees of the document in examples/json.treerack stand for JSON values.
-/

namespace Treerack
open Spec

/-! ### Texts of expressions without symbols -/

section
variable {input : List Rune} {S : Name → PartProp} {Sp : PartProp} {S' : Name → List Rune → Prop} {Sp' : List Rune → Prop}

theorem timesOf_text {P : PartProp} {Q : List Rune → Prop} (h : ∀ {i j ns}, P i j ns → HasText input Q i j) :
    ∀ {k i j : Nat} {ns : List Node}, timesOf P k i j ns → HasText input (timesText Q k) i j
  | 0, _, _, _, h1 => by cases h1.1; exact ⟨[], .nil, rfl⟩
  | k + 1, _, _, _, ⟨m, us, vs, h1, h2, _⟩ => by
    obtain ⟨t, g1, g2⟩ := timesOf_text h h1
    obtain ⟨u, g3, g4⟩ := h h2
    exact ⟨t ++ u, g1.append g3, t, u, g2, g4, rfl⟩

mutual

theorem exprOf_text : ∀ {e : DExpr}, plainExpr e = true → ∀ {i j : Nat} {ns : List Node}, exprOf input S Sp true true e i j ns →
    HasText input (exprText S' Sp' true true e) i j
  | .any, _, _, _, _, ⟨_, h1, c, h2⟩ => ⟨_, Span.single.2 ⟨h1, h2⟩, _, rfl⟩
  | .class_ .., _, _, _, _, ⟨_, h1, c, h2, h3⟩ => ⟨_, Span.single.2 ⟨h1, h2⟩, _, h3, rfl⟩
  | .chars _, _, _, _, _, ⟨_, h1, h2⟩ => ⟨_, ⟨h1, h2⟩, rfl⟩
  | .symbol _, hp, _, _, _, _ => by cases hp
  | .seq items, hp, _, _, _, h => by
    have := tightOf_text (items := items) (by simpa [plainExpr] using hp) (by simpa [exprOf] using h)
    simpa only [exprText, if_true] using this
  | .choice os, hp, _, _, _, h => by
    have := optionOf_text (os := os) (by simpa [plainExpr] using hp) (by simpa [exprOf] using h)
    simpa only [exprText] using this

theorem tightOf_text : ∀ {items : DItems}, plainItems items = true → ∀ {i j : Nat} {ns : List Node}, tightOf input S Sp true items i j ns →
    HasText input (tightText S' Sp' true items) i j
  | .nil, _, _, _, _, h => by cases h.1; exact ⟨[], .nil, rfl⟩
  | .cons e q rest, hp, _, _, _, ⟨k, m, us, vs, h1, h2, h3, _⟩ => by
    simp only [plainItems, Bool.and_eq_true] at hp
    obtain ⟨t, g1, g2⟩ := timesOf_text (fun h => exprOf_text hp.1 h) h1
    obtain ⟨u, g3, g4⟩ := tightOf_text hp.2 h3
    exact ⟨t ++ u, g1.append g3, _, t, u, g2, h2, g4, rfl⟩

theorem optionOf_text : ∀ {os : DOptions}, plainOptions os = true → ∀ {i j : Nat} {ns : List Node}, optionOf input S Sp true os i j ns →
    HasText input (optionText S' Sp' true os) i j
  | .nil, _, _, _, _, h => h.elim
  | .cons e rest, hp, _, _, _, h => by
    simp only [plainOptions, Bool.and_eq_true] at hp
    rcases h with h | h
    · obtain ⟨t, g1, g2⟩ := exprOf_text hp.1 h
      exact ⟨t, g1, .inl g2⟩
    · obtain ⟨t, g1, g2⟩ := optionOf_text hp.2 h
      exact ⟨t, g1, .inr g2⟩

end

end

theorem Span.source {input : List Rune} {i j : Nat} {t : List Rune} (h : Span input i j t) : (input.drop i).take (j - i) = t := by
  obtain ⟨rfl, h⟩ := h
  rw [Nat.add_sub_cancel_left, h]

/-! ### The meaning of the symbols -/

section
variable (input : List Rune)

open JsonText in
def valueAt : PartProp := fun i j ns => ∃ n v, ns = [n] ∧ nodeValue n = some v ∧ HasText input (ValueOf example_ · v) i j

open JsonText in
def jsonAt : Nat → PartProp
  | 0 => fun i j ns => ns = [] ∧ HasText input (fun t => ∃ c, example_.space c ∧ t = [c]) i j
  | 4 => fun i j ns => ns = [Node.mk (runes "string") i j input []] ∧ HasText input (JsonText.String example_) i j
  | 6 => fun i j ns => ∃ n m, ns = [n] ∧ nodeMember n = some m ∧ HasText input (MemberOf example_ · m) i j
  | 10 => fun i j ns => ∃ n v, ns = [n] ∧ treeValue n = some v ∧ HasText input (TextOf example_ · v) i j
  | _ => valueAt input

def gapAt : PartProp := fun i j ns => ns = [] ∧ HasText input jsonSpace i j

def symbolAt (n : Name) : PartProp := fun i j ns => ∀ k, (jsonDoc.map DDef.name).idxOf? n = some k → jsonAt input k i j ns

end

variable {input : List Rune} {i j : Nat} {ns : List Node}

theorem symbolAt_iff {n : Name} {k : Nat} (h : (jsonDoc.map DDef.name).idxOf? n = some k) : symbolAt input n i j ns ↔ jsonAt input k i j ns :=
  ⟨fun g => g k h, fun g k' h' => by rw [h] at h'; cases h'; exact g⟩

theorem at_true : symbolAt input (runes "true") i j ns ↔ valueAt input i j ns := symbolAt_iff (k := 1) (by decide +kernel)
theorem at_false : symbolAt input (runes "false") i j ns ↔ valueAt input i j ns := symbolAt_iff (k := 2) (by decide +kernel)
theorem at_null : symbolAt input (runes "null") i j ns ↔ valueAt input i j ns := symbolAt_iff (k := 3) (by decide +kernel)
theorem at_string : symbolAt input (runes "string") i j ns ↔ jsonAt input 4 i j ns := symbolAt_iff (k := 4) (by decide +kernel)
theorem at_number : symbolAt input (runes "number") i j ns ↔ valueAt input i j ns := symbolAt_iff (k := 5) (by decide +kernel)
theorem at_entry : symbolAt input (runes "entry") i j ns ↔ jsonAt input 6 i j ns := symbolAt_iff (k := 6) (by decide +kernel)
theorem at_object : symbolAt input (runes "object") i j ns ↔ valueAt input i j ns := symbolAt_iff (k := 7) (by decide +kernel)
theorem at_array : symbolAt input (runes "array") i j ns ↔ valueAt input i j ns := symbolAt_iff (k := 8) (by decide +kernel)
theorem at_expression : symbolAt input (runes "expression") i j ns ↔ valueAt input i j ns := symbolAt_iff (k := 9) (by decide +kernel)
theorem at_json : symbolAt input (runes "json") i j ns ↔ jsonAt input 10 i j ns := symbolAt_iff (k := 10) (by decide +kernel)
theorem at_whitespace : symbolAt input (runes "whitespace") i j ns ↔ jsonAt input 0 i j ns := symbolAt_iff (k := 0) (by decide +kernel)

abbrev jsonExprOf (input : List Rune) (tight inner : Bool) (e : DExpr) : PartProp := exprOf input (symbolAt input) (gapAt input) tight inner e

/-! ### Lists -/

/-- Parts with commas between them. -/
inductive ListedAt (input : List Rune) (P : PartProp) : PartProp
  | one {i j : Nat} {ns : List Node} : P i j ns → ListedAt input P i j ns
  | more {i a b j : Nat} {ns ms : List Node} {w w' : List Rune} : ListedAt input P i a ns → Span input a b (w ++ runes "," ++ w') →
      jsonSpace w → jsonSpace w' → P b j ms → ListedAt input P i j (ns ++ ms)

theorem chars_at {s : String} (h : jsonExprOf input true true (charsOf s) i j ns) : ns = [] ∧ Span input i j (runes s) := by
  obtain ⟨h1, h2, h3⟩ := h
  exact ⟨h1, h2, h3⟩

theorem chars_at' {s : String} (h : jsonExprOf input false false (charsOf s) i j ns) : ns = [] ∧ Span input i j (runes s) := by
  obtain ⟨h1, h2, h3⟩ := h
  exact ⟨h1, h2, h3⟩

theorem loose_at {items : List (DExpr × Option Quantifier)} (h : jsonExprOf input false false (seqOf items) i j ns) :
    looseOf input (symbolAt input) (gapAt input) false true (items.foldr (fun x r => .cons x.1 x.2 r) .nil) i j ns := by
  simpa only [jsonExprOf, seqOf, exprOf, Bool.false_eq_true, if_false] using h

theorem listed_at {x : String} (h : jsonExprOf input false false
    (seqOf [(symbolOf x, none), (seqOf [(charsOf ",", none), (symbolOf x, none)], some .zeroOrMore)]) i j ns) :
    ListedAt input (symbolAt input (runes x)) i j ns := by
  obtain ⟨m, us, vs, h1, h2, rfl⟩ := looseOf_first (loose_at h)
  obtain ⟨k, m', us', vs', h3, h4, rfl⟩ := looseOf_many h2
  obtain ⟨rfl, rfl⟩ := h4
  clear h h2
  rw [List.append_nil]
  induction k generalizing m' us' with
  | zero => obtain ⟨rfl, rfl⟩ := h3; rw [List.append_nil]; exact .one h1
  | succ k ih =>
    rcases h3 with ⟨h, -⟩ | ⟨-, a, b, us1, ws, vs1, g1, ⟨rfl, w, g2, g3⟩, g4, rfl⟩
    · cases h
    · have g4 := loose_at g4
      obtain ⟨c, xs, ys, f1, f2, rfl⟩ := looseOf_first g4
      obtain ⟨rfl, f0⟩ := chars_at' f1
      obtain ⟨d, e, xs, zs, ys, ⟨rfl, w', f3, f4⟩, f5, ⟨rfl, rfl⟩, rfl⟩ := looseOf_one f2
      have := ListedAt.more (ih _ _ g1) ((g2.append f0).append f3) g3 f4 f5
      simpa using this

theorem list_at {l x r : String} (h : jsonExprOf input false false (listExpr l x r) i j ns) :
    (ns = [] ∧ ∃ w, jsonSpace w ∧ Span input i j (runes l ++ w ++ runes r)) ∨
    ∃ a b w w', jsonSpace w ∧ jsonSpace w' ∧ Span input i a (runes l ++ w) ∧ ListedAt input (symbolAt input (runes x)) a b ns ∧
      Span input b j (w' ++ runes r) := by
  have h := loose_at h
  obtain ⟨m, us, vs, h1, h2, rfl⟩ := looseOf_first h
  obtain ⟨rfl, h0⟩ := chars_at' h1
  have close : ∀ {m vs}, looseOf input (symbolAt input) (gapAt input) false false (.cons (charsOf r) none .nil) m j vs →
      vs = [] ∧ ∃ w, jsonSpace w ∧ Span input m j (w ++ runes r) := by
    intro m vs h
    obtain ⟨a, b, us, ws, ys, ⟨rfl, w, g1, g2⟩, g3, ⟨rfl, rfl⟩, rfl⟩ := looseOf_one h
    obtain ⟨rfl, g0⟩ := chars_at' g3
    exact ⟨rfl, w, g2, g1.append g0⟩
  rcases looseOf_optional h2 with h3 | ⟨a, us, vs', ⟨rfl, w, g1, g2⟩, h3, rfl⟩ | ⟨a, b, us, ws, vs', ⟨rfl, w, g1, g2⟩, h3, h4, rfl⟩
  · obtain ⟨rfl, w, g1, g2⟩ := close h3
    refine .inl ⟨rfl, w, g1, ?_⟩
    rw [List.append_assoc]
    exact h0.append g2
  · obtain ⟨rfl, w', g3, g4⟩ := close h3
    refine .inl ⟨rfl, w ++ w', jsonSpace_append g2 g3, ?_⟩
    have := (h0.append g1).append g4
    simpa using this
  · obtain ⟨rfl, w', g3, g4⟩ := close h4
    exact .inr ⟨a, b, w, w', g2, g3, h0.append g1, by simpa using listed_at h3, g4⟩

open JsonText

theorem nodeValues_append {vs : List JValue} {v : JValue} {n : Node} : ∀ {ns : List Node} {vs : List JValue}, nodeValues ns = some vs →
    nodeValue n = some v → nodeValues (ns ++ [n]) = some (vs ++ [v])
  | [], _, h1, h2 => by cases h1; simp [nodeValues, h2]
  | a :: ns, vs, h1, h2 => by
    simp only [nodeValues, Option.bind_eq_some_iff, Option.map_eq_some_iff] at h1
    obtain ⟨x, h3, y, h4, rfl⟩ := h1
    simp [nodeValues, h3, nodeValues_append (vs := vs) h4 h2]

theorem nodeMembers_append {m : List Rune × JValue} {n : Node} : ∀ {ns : List Node} {ms : List (List Rune × JValue)},
    nodeMembers ns = some ms → nodeMember n = some m → nodeMembers (ns ++ [n]) = some (ms ++ [m])
  | [], _, h1, h2 => by cases h1; simp [nodeMembers, h2]
  | a :: ns, vs, h1, h2 => by
    simp only [nodeMembers, Option.bind_eq_some_iff, Option.map_eq_some_iff] at h1
    obtain ⟨x, h3, y, h4, rfl⟩ := h1
    simp [nodeMembers, h3, nodeMembers_append h4 h2]

theorem values_at (h : ListedAt input (symbolAt input (runes "expression")) i j ns) :
    ∃ vs, nodeValues ns = some vs ∧ HasText input (ValuesOf example_ · vs) i j := by
  induction h with
  | one h =>
    obtain ⟨n, v, rfl, h1, t, h2, h3⟩ := at_expression.1 h
    exact ⟨[v], by simp [nodeValues, h1], t, h2, .one h3⟩
  | more _ h2 h3 h4 h5 ih =>
    obtain ⟨vs, h6, t, h7, h8⟩ := ih
    obtain ⟨n, v, rfl, g1, u, g2, g3⟩ := at_expression.1 h5
    refine ⟨vs ++ [v], nodeValues_append (vs := vs) h6 g1, _, (h7.append h2).append g2, ?_⟩
    have := ValuesOf.more h8 h3 h4 g3
    simpa using this

theorem members_at (h : ListedAt input (symbolAt input (runes "entry")) i j ns) :
    ∃ ms, nodeMembers ns = some ms ∧ HasText input (MembersOf example_ · ms) i j := by
  induction h with
  | one h =>
    obtain ⟨n, v, rfl, h1, t, h2, h3⟩ := at_entry.1 h
    exact ⟨[v], by simp [nodeMembers, h1], t, h2, .one h3⟩
  | more _ h2 h3 h4 h5 ih =>
    obtain ⟨vs, h6, t, h7, h8⟩ := ih
    obtain ⟨n, v, rfl, g1, u, g2, g3⟩ := at_entry.1 h5
    refine ⟨vs ++ [v], nodeMembers_append h6 g1, _, (h7.append h2).append g2, ?_⟩
    have := MembersOf.more h8 h3 h4 g3
    simpa using this

/-! ### The definitions -/

theorem string_at (h : jsonExprOf input true true stringExpr i j ns) : ns = [] ∧ HasText input (JsonText.String example_) i j := by
  refine ⟨exprOf_plain (by decide +kernel) h, ?_⟩
  obtain ⟨t, h1, h2⟩ := exprOf_text (S' := fun _ _ => True) (Sp' := fun _ => True) (by decide +kernel) h
  exact ⟨t, h1, string_text.1 h2⟩

theorem number_at (h : jsonExprOf input true true numberExpr i j ns) : HasText input JsonText.Number i j := by
  obtain ⟨t, h1, h2⟩ := exprOf_text (S' := fun _ _ => True) (Sp' := fun _ => True) (by decide +kernel) h
  exact ⟨t, h1, number_text.1 h2⟩

theorem entry_at (h : jsonExprOf input false false entryExpr i j ns) :
    jsonAt input 6 i j [Node.mk (runes "entry") i j input ns] := by
  have h := loose_at h
  obtain ⟨m, us, vs, h1, h2, rfl⟩ := looseOf_first h
  obtain ⟨a, b, us1, ws, vs, ⟨rfl, w, g1, g2⟩, g3, g4, rfl⟩ := looseOf_one h2
  obtain ⟨rfl, g0⟩ := chars_at' g3
  obtain ⟨c, d, us1, ws, vs, ⟨rfl, w', g5, g6⟩, g7, ⟨rfl, rfl⟩, rfl⟩ := looseOf_one g4
  obtain ⟨rfl, s, k1, k2⟩ := at_string.1 h1
  obtain ⟨n, v, rfl, k3, t, k4, k5⟩ := at_expression.1 g7
  refine ⟨_, (s, v), rfl, ?_, _, (((k1.append g1).append g0).append g5).append k4, .mk k2 g2 g6 k5⟩
  simp [nodeMember, nodePair, nodeOnly, k3, source, Node.name, k1.source]

theorem json_value {n : Node} {v : JValue} (h1 : nodeValue n = some v) (h2 : HasText input (ValueOf example_ · v) i j) : valueAt input i j [n] :=
  ⟨n, v, rfl, h1, h2⟩

theorem object_at (h : jsonExprOf input false false (listExpr "{" "entry" "}") i j ns) :
    valueAt input i j [Node.mk (runes "object") i j input ns] := by
  have hv : ∀ ms, nodeMembers ns = some ms → nodeValue (Node.mk (runes "object") i j input ns) = some (.object ms) := by
    intro ms h
    rw [nodeValue, if_neg (by decide), if_neg (by decide), if_neg (by decide), if_neg (by decide), if_neg (by decide), if_pos rfl, h]
    rfl
  rcases list_at h with ⟨rfl, w, h1, h2⟩ | ⟨a, b, w, w', h1, h2, h3, h4, h5⟩
  · exact json_value (hv _ rfl) ⟨_, h2, .emptyObject h1⟩
  · obtain ⟨ms, g1, t, g2, g3⟩ := members_at h4
    refine json_value (hv _ g1) ⟨_, (h3.append g2).append h5, ?_⟩
    have := ValueOf.object h1 g3 h2
    simpa using this

theorem array_at (h : jsonExprOf input false false (listExpr "[" "expression" "]") i j ns) :
    valueAt input i j [Node.mk (runes "array") i j input ns] := by
  have hv : ∀ ms, nodeValues ns = some ms → nodeValue (Node.mk (runes "array") i j input ns) = some (.array ms) := by
    intro ms h
    rw [nodeValue, if_neg (by decide), if_neg (by decide), if_neg (by decide), if_neg (by decide), if_neg (by decide), if_neg (by decide), if_pos rfl, h]
    rfl
  rcases list_at h with ⟨rfl, w, h1, h2⟩ | ⟨a, b, w, w', h1, h2, h3, h4, h5⟩
  · exact json_value (hv _ rfl) ⟨_, h2, .emptyArray h1⟩
  · obtain ⟨ms, g1, t, g2, g3⟩ := values_at h4
    refine json_value (hv _ g1) ⟨_, (h3.append g2).append h5, ?_⟩
    have := ValueOf.array h1 g3 h2
    simpa using this

theorem expression_at (h : jsonExprOf input false false valueExpr i j ns) : valueAt input i j ns := by
  have h : optionOf input (symbolAt input) (gapAt input) false ([symbolOf "true", symbolOf "false", symbolOf "null", symbolOf "string",
      symbolOf "number", symbolOf "object", symbolOf "array"].foldr .cons .nil) i j ns := by
    simpa only [jsonExprOf, valueExpr, choiceOf, exprOf] using h
  rcases h with h | h | h | h | h | h | h | h
  · exact at_true.1 h
  · exact at_false.1 h
  · exact at_null.1 h
  · obtain ⟨rfl, t, h1, h2⟩ := at_string.1 h
    refine json_value ?_ ⟨t, h1, .string h2⟩
    rw [nodeValue, if_neg (by decide), if_neg (by decide), if_neg (by decide), if_pos rfl, h1.source]
  · exact at_number.1 h
  · exact at_object.1 h
  · exact at_array.1 h
  · exact h.elim

theorem json_tree_fits : TreeFits jsonDoc input (symbolAt input) (gapAt input) where
  nil := ⟨rfl, [], .nil, fun _ h => nomatch h⟩
  cons {d i m j us ns} hd hws hw hs := by
    simp only [jsonDoc, List.mem_cons, List.not_mem_nil, or_false] at hd
    rcases hd with rfl | rfl | rfl | rfl | rfl | rfl | rfl | rfl | rfl | rfl | rfl
    · obtain ⟨rfl, w, h1, h2⟩ := hw
      obtain ⟨rfl, t, h3, c, h4, rfl⟩ := at_whitespace.1 hs
      exact ⟨rfl, _, h1.append h3, jsonSpace_append h2 fun x hx => by cases List.mem_singleton.1 hx; exact h4⟩
    all_goals cases hws
  root {d i a b j us ns vs} hd hr hw ht hw' := by
    simp only [jsonDoc, List.mem_cons, List.not_mem_nil, or_false] at hd
    rcases hd with rfl | rfl | rfl | rfl | rfl | rfl | rfl | rfl | rfl | rfl | rfl
    case inr.inr.inr.inr.inr.inr.inr.inr.inr.inr =>
      obtain ⟨rfl, w, h1, h2⟩ := hw
      obtain ⟨rfl, w', h3, h4⟩ := hw'
      obtain ⟨n, v, rfl, h5, t, h6, h7⟩ := at_expression.1 (show symbolAt input (runes "expression") a b ns from ht)
      exact at_json.2 ⟨_, v, rfl, by simp [treeValue, nodeOnly, h5], _, (h1.append h6).append h3, w, t, w', h2, h7, h4, rfl⟩
    all_goals exact absurd hr (by decide +kernel)
  shown {d i j ns} hd hr hsh ht := by
    simp only [jsonDoc, List.mem_cons, List.not_mem_nil, or_false] at hd
    rcases hd with rfl | rfl | rfl | rfl | rfl | rfl | rfl | rfl | rfl | rfl | rfl
    · exact absurd hsh.2 (by decide)
    · obtain ⟨-, h⟩ := chars_at' ht
      exact at_true.2 (json_value (by rw [nodeValue, if_pos rfl]) ⟨_, h, .true⟩)
    · obtain ⟨-, h⟩ := chars_at' ht
      exact at_false.2 (json_value (by rw [nodeValue, if_neg (by decide), if_pos rfl]) ⟨_, h, .false⟩)
    · obtain ⟨-, h⟩ := chars_at' ht
      exact at_null.2 (json_value (by rw [nodeValue, if_neg (by decide), if_neg (by decide), if_pos rfl]) ⟨_, h, .null⟩)
    · obtain ⟨rfl, h⟩ := string_at ht
      exact at_string.2 ⟨rfl, h⟩
    · obtain ⟨t, h1, h2⟩ := number_at ht
      refine at_number.2 (json_value ?_ ⟨t, h1, .number h2⟩)
      rw [nodeValue, if_neg (by decide), if_neg (by decide), if_neg (by decide), if_neg (by decide), if_pos rfl, h1.source]
    · exact at_entry.2 (entry_at ht)
    · exact at_object.2 (object_at ht)
    · exact at_array.2 (array_at ht)
    · exact absurd hsh.1 (by decide)
    · exact absurd (by decide +kernel) hr
  hidden {d i j ns} hd hr hsh ht := by
    simp only [jsonDoc, List.mem_cons, List.not_mem_nil, or_false] at hd
    rcases hd with rfl | rfl | rfl | rfl | rfl | rfl | rfl | rfl | rfl | rfl | rfl
    · obtain ⟨h1, h2, c, h3, h4⟩ := ht
      refine at_whitespace.2 ⟨h1, [c], Span.single.2 ⟨h2, h3⟩, c, ?_, rfl⟩
      have : InClass false [32, 8, 12, 10, 13, 9] [] c := h4
      simpa [InClass, example_] using this
    case inr.inr.inr.inr.inr.inr.inr.inr.inr.inl => exact at_expression.2 (expression_at ht)
    all_goals exact absurd ⟨rfl, rfl⟩ hsh

end Treerack
