import Verif.Spec.SpacedDocument

/-
The texts that the definitions of a document stand for, without positions: for a meaning of the symbols and of the whitespace, the
meaning of the expressions.  The definitions stand for the smallest meaning of the symbols that fits.
-/

namespace Treerack
open Spec

/-- The input has the text from `i` to `j`. -/
def Span (input : List Rune) (i j : Nat) (t : List Rune) : Prop := j = i + t.length ∧ (input.drop i).take t.length = t

theorem Span.nil {input : List Rune} {i : Nat} : Span input i i [] := ⟨rfl, rfl⟩

theorem Span.append {input : List Rune} {i m j : Nat} {t u : List Rune} (h1 : Span input i m t) (h2 : Span input m j u) :
    Span input i j (t ++ u) := by
  obtain ⟨rfl, h1⟩ := h1
  obtain ⟨rfl, h2⟩ := h2
  refine ⟨by simp [Nat.add_assoc], ?_⟩
  rw [List.length_append, List.take_add, h1, List.drop_drop, h2]

theorem Span.split {input : List Rune} {i j : Nat} {t u : List Rune} (h : Span input i j (t ++ u)) :
    ∃ m, Span input i m t ∧ Span input m j u := by
  obtain ⟨rfl, h⟩ := h
  refine ⟨i + t.length, ⟨rfl, ?_⟩, by simp [Nat.add_assoc], ?_⟩
  · rw [List.length_append, List.take_add] at h
    have hlen := congrArg List.length h
    simp only [List.length_append, List.length_take, List.length_drop] at hlen
    refine (List.append_inj h ?_).1
    simp only [List.length_take, List.length_drop]
    omega
  · rw [List.length_append, List.take_add, List.drop_drop] at h
    have hlen := congrArg List.length h
    simp only [List.length_append, List.length_take, List.length_drop] at hlen
    refine (List.append_inj h ?_).2
    simp only [List.length_take, List.length_drop]
    omega

theorem Span.nil_iff {input : List Rune} {i j : Nat} : Span input i j [] ↔ i = j := ⟨fun h => h.1.symm, fun h => h ▸ .nil⟩

theorem Span.single {input : List Rune} {i j : Nat} {c : Rune} : Span input i j [c] ↔ j = i + 1 ∧ input[i]? = some c := by
  simp only [Span, List.length_singleton]
  refine and_congr_right fun _ => ?_
  have : input[i]? = (input.drop i)[0]? := by simp
  rw [this]
  cases input.drop i with
  | nil => simp
  | cons a l => simp

theorem Span.all {input : List Rune} : Span input 0 input.length input := ⟨by simp, by simp⟩

theorem Span.all_iff {input t : List Rune} : Span input 0 input.length t ↔ t = input := by
  constructor
  · rintro ⟨h1, h2⟩
    rw [← h2]
    simp only [List.drop_zero]
    rw [show t.length = input.length by omega, List.take_length]
  · rintro rfl; exact .all

/-- The input has one of the texts from `i` to `j`. -/
def HasText (input : List Rune) (P : List Rune → Prop) (i j : Nat) : Prop := ∃ t, Span input i j t ∧ P t

/-! ### The meaning of expressions -/

def timesText (P : List Rune → Prop) : Nat → List Rune → Prop
  | 0, t => t = []
  | k + 1, t => ∃ u v, timesText P k u ∧ P v ∧ t = u ++ v

def occText (P Sp : List Rune → Prop) (first : Bool) : Nat → List Rune → Prop
  | 0, t => t = []
  | k + 1, t => (first = true ∧ k = 0 ∧ P t) ∨
      ((first = true → 0 < k) ∧ ∃ u w v, occText P Sp first k u ∧ Sp w ∧ P v ∧ t = u ++ w ++ v)

mutual
def exprText (S : Name → List Rune → Prop) (Sp : List Rune → Prop) (tight inner : Bool) : DExpr → List Rune → Prop
  | .any, t => ∃ c, t = [c]
  | .class_ neg cs rs, t => ∃ c, InClass neg cs rs c ∧ t = [c]
  | .chars cs, t => t = cs
  | .symbol m, t => S m t
  | .seq items, t => if tight then tightText S Sp inner items t else looseText S Sp inner true items t
  | .choice os, t => optionText S Sp inner os t
def tightText (S : Name → List Rune → Prop) (Sp : List Rune → Prop) (inner : Bool) : DItems → List Rune → Prop
  | .nil, t => t = []
  | .cons e q rest, t => ∃ k u v, timesText (exprText S Sp inner inner e) k u ∧ allowed q k ∧ tightText S Sp inner rest v ∧ t = u ++ v
def looseText (S : Name → List Rune → Prop) (Sp : List Rune → Prop) (inner : Bool) (first : Bool) : DItems → List Rune → Prop
  | .nil, t => t = []
  | .cons e q rest, t =>
    (∃ k u v, occText (exprText S Sp inner inner e) Sp first k u ∧ allowed q k ∧ looseText S Sp inner false rest v ∧ t = u ++ v) ∨
    (first = false ∧ allowed q 0 ∧ allowed q 1 ∧ ¬ allowed q 2 ∧ ∃ w v, Sp w ∧ looseText S Sp inner false rest v ∧ t = w ++ v)
def optionText (S : Name → List Rune → Prop) (Sp : List Rune → Prop) (inner : Bool) : DOptions → List Rune → Prop
  | .nil, _ => False
  | .cons e rest, t => exprText S Sp inner inner e t ∨ optionText S Sp inner rest t
end

/-- The meaning of the symbols and of the whitespace fits to the definitions. -/
structure Fits (doc : Document) (S : Name → List Rune → Prop) (Sp : List Rune → Prop) : Prop where
  def_ : ∀ {d t}, d ∈ doc → ¬ IsRoot doc d →
    exprText S Sp (d.flags.noWhitespace || d.flags.whitespace) d.flags.noWhitespace d.expr t → S d.name t
  root : ∀ {d w t w'}, d ∈ doc → IsRoot doc d → Sp w →
    exprText S Sp (d.flags.noWhitespace || d.flags.whitespace) d.flags.noWhitespace d.expr t → Sp w' → S d.name (w ++ t ++ w')
  nil : Sp []
  cons : ∀ {d t w}, d ∈ doc → d.flags.whitespace = true → Sp w → S d.name t → Sp (w ++ t)

section
variable {doc : Document} {input : List Rune} {S : Name → List Rune → Prop} {Sp : List Rune → Prop} (F : Fits doc S Sp)
include F

/-! ### The definitions stand for no other texts -/

mutual

theorem defWs_text : ∀ {d : DDef} {i j : Nat}, DefWs doc input d i j → d ∈ doc ∧ HasText input (S d.name) i j
  | _, _, _, .def_ h1 h2 h3 => by
    obtain ⟨t, g1, g2⟩ := meansWs_text h3
    exact ⟨h1, t, g1, F.def_ h1 h2 g2⟩
  | _, _, _, .root h1 h2 h3 h4 h5 => by
    obtain ⟨w, g1, g2⟩ := gapWs_text h3
    obtain ⟨t, g3, g4⟩ := meansWs_text h4
    obtain ⟨w', g5, g6⟩ := gapWs_text h5
    exact ⟨h1, w ++ t ++ w', (g1.append g3).append g5, F.root h1 h2 g2 g4 g6⟩

theorem meansWs_text : ∀ {tight inner : Bool} {e : DExpr} {i j : Nat}, MeansWs doc input tight inner e i j →
    HasText input (exprText S Sp tight inner e) i j
  | _, _, _, _, _, .any h => ⟨_, Span.single.2 ⟨rfl, h⟩, _, rfl⟩
  | _, _, _, _, _, .class_ h1 h2 => ⟨_, Span.single.2 ⟨rfl, h1⟩, _, h2, rfl⟩
  | _, _, _, _, _, .chars h => ⟨_, ⟨rfl, h⟩, rfl⟩
  | _, _, _, _, _, .symbol h => (defWs_text h).2
  | _, _, _, _, _, .tight h => by
    obtain ⟨t, g1, g2⟩ := tightWs_text h
    exact ⟨t, g1, by simpa only [exprText, if_true] using g2⟩
  | _, _, _, _, _, .loose h => by
    obtain ⟨t, g1, g2⟩ := looseWs_text h
    exact ⟨t, g1, by simpa only [exprText, Bool.false_eq_true, if_false] using g2⟩
  | _, _, _, _, _, .choice h => by
    obtain ⟨t, g1, g2⟩ := optionsWs_text h
    exact ⟨t, g1, by simpa only [exprText] using g2⟩

theorem gapWs_text : ∀ {i j : Nat}, GapWs doc input i j → HasText input Sp i j
  | _, _, .nil => ⟨[], .nil, F.nil⟩
  | _, _, .cons h1 h2 h3 => by
    obtain ⟨w, g1, g2⟩ := gapWs_text h1
    obtain ⟨hd, t, g3, g4⟩ := defWs_text h3
    exact ⟨w ++ t, g1.append g3, F.cons hd h2 g2 g4⟩

theorem tightWs_text : ∀ {inner : Bool} {items : DItems} {i j : Nat}, TightWs doc input inner items i j →
    HasText input (tightText S Sp inner items) i j
  | _, _, _, _, .nil => ⟨[], .nil, rfl⟩
  | _, _, _, _, .cons h1 h2 h3 => by
    obtain ⟨t, g1, g2⟩ := timesWs_text h1
    obtain ⟨u, g3, g4⟩ := tightWs_text h3
    exact ⟨t ++ u, g1.append g3, _, t, u, g2, h2, g4, rfl⟩

theorem timesWs_text : ∀ {inner : Bool} {e : DExpr} {k i j : Nat}, TimesWs doc input inner e k i j →
    HasText input (timesText (exprText S Sp inner inner e) k) i j
  | _, _, _, _, _, .zero => ⟨[], .nil, rfl⟩
  | _, _, _, _, _, .succ h1 h2 => by
    obtain ⟨t, g1, g2⟩ := timesWs_text h1
    obtain ⟨u, g3, g4⟩ := meansWs_text h2
    exact ⟨t ++ u, g1.append g3, t, u, g2, g4, rfl⟩

theorem looseWs_text : ∀ {inner first : Bool} {items : DItems} {i j : Nat}, LooseWs doc input inner first items i j →
    HasText input (looseText S Sp inner first items) i j
  | _, _, _, _, _, .nil => ⟨[], .nil, rfl⟩
  | _, _, _, _, _, .cons h1 h2 h3 => by
    obtain ⟨t, g1, g2⟩ := occWs_text h1
    obtain ⟨u, g3, g4⟩ := looseWs_text h3
    exact ⟨t ++ u, g1.append g3, .inl ⟨_, t, u, g2, h2, g4, rfl⟩⟩
  | _, _, _, _, _, .absent h1 h2 h3 h4 h5 => by
    obtain ⟨t, g1, g2⟩ := gapWs_text h4
    obtain ⟨u, g3, g4⟩ := looseWs_text h5
    exact ⟨t ++ u, g1.append g3, .inr ⟨rfl, h1, h2, h3, t, u, g2, g4, rfl⟩⟩

theorem occWs_text : ∀ {inner first : Bool} {e : DExpr} {k i j : Nat}, OccWs doc input inner first e k i j →
    HasText input (occText (exprText S Sp inner inner e) Sp first k) i j
  | _, _, _, _, _, _, .zero => ⟨[], .nil, rfl⟩
  | _, _, _, _, _, _, .first h => by
    obtain ⟨t, g1, g2⟩ := meansWs_text h
    exact ⟨t, g1, .inl ⟨rfl, rfl, g2⟩⟩
  | _, _, _, _, _, _, .succ h1 h2 h3 h4 => by
    obtain ⟨t, g1, g2⟩ := occWs_text h1
    obtain ⟨w, g3, g4⟩ := gapWs_text h3
    obtain ⟨u, g5, g6⟩ := meansWs_text h4
    exact ⟨t ++ w ++ u, (g1.append g3).append g5, .inr ⟨h2, t, w, u, g2, g4, g6, rfl⟩⟩

theorem optionsWs_text : ∀ {inner : Bool} {os : DOptions} {i j : Nat}, OptionsWs doc input inner os i j →
    HasText input (optionText S Sp inner os) i j
  | _, _, _, _, .here h => by
    obtain ⟨t, g1, g2⟩ := meansWs_text h
    exact ⟨t, g1, .inl g2⟩
  | _, _, _, _, .there h => by
    obtain ⟨t, g1, g2⟩ := optionsWs_text h
    exact ⟨t, g1, .inr g2⟩

end

end

/-! ### The definitions stand for these texts -/

/-- The symbol stands for the text, wherever it is. -/
def SymbolText (doc : Document) (m : Name) (t : List Rune) : Prop :=
  ∀ {input i j}, Span input i j t → ∃ d, d.name = m ∧ DefWs doc input d i j

/-- The text is whitespace, wherever it is. -/
def GapText (doc : Document) (t : List Rune) : Prop := ∀ {input i j}, Span input i j t → GapWs doc input i j

section
variable {doc : Document} {input : List Rune}

theorem timesText_means {inner : Bool} {e : DExpr} {P : List Rune → Prop}
    (h : ∀ {t i j}, Span input i j t → P t → MeansWs doc input inner inner e i j) :
    ∀ {k : Nat} {t : List Rune} {i j : Nat}, Span input i j t → timesText P k t → TimesWs doc input inner e k i j
  | 0, _, _, _, hs, ht => by cases ht; cases Span.nil_iff.1 hs; exact .zero
  | k + 1, _, _, _, hs, ⟨u, v, h1, h2, h3⟩ => by
    subst h3
    obtain ⟨m, g1, g2⟩ := hs.split
    exact .succ (timesText_means h g1 h1) (h g2 h2)

theorem occText_means {inner first : Bool} {e : DExpr} {P : List Rune → Prop}
    (h : ∀ {t i j}, Span input i j t → P t → MeansWs doc input inner inner e i j) :
    ∀ {k : Nat} {t : List Rune} {i j : Nat}, Span input i j t → occText P (GapText doc) first k t → OccWs doc input inner first e k i j
  | 0, _, _, _, hs, ht => by cases ht; cases Span.nil_iff.1 hs; exact .zero
  | k + 1, _, _, _, hs, .inl ⟨h1, h2, h3⟩ => by
    subst h1 h2
    exact .first (h hs h3)
  | k + 1, _, _, _, hs, .inr ⟨h0, u, w, v, h1, h2, h3, h4⟩ => by
    subst h4
    obtain ⟨m, g1, g3⟩ := hs.split
    obtain ⟨l, g1, g2⟩ := g1.split
    exact .succ (occText_means h g1 h1) h0 (h2 g2) (h g3 h3)

mutual

theorem exprText_means : ∀ (e : DExpr) {tight inner : Bool} {t : List Rune} {i j : Nat}, Span input i j t →
    exprText (SymbolText doc) (GapText doc) tight inner e t → MeansWs doc input tight inner e i j
  | .any, _, _, _, _, _, hs, ⟨c, h⟩ => by
    subst h
    obtain ⟨rfl, h⟩ := Span.single.1 hs
    exact .any h
  | .class_ .., _, _, _, _, _, hs, ⟨c, h1, h⟩ => by
    subst h
    obtain ⟨rfl, h⟩ := Span.single.1 hs
    exact .class_ h h1
  | .chars _, _, _, _, _, _, hs, h => by
    simp only [exprText] at h
    subst h
    obtain ⟨rfl, h⟩ := hs
    exact .chars h
  | .symbol _, _, _, _, _, _, hs, h => by
    obtain ⟨d, rfl, g⟩ := h hs
    exact .symbol g
  | .seq items, tight, _, _, _, _, hs, h => by
    simp only [exprText] at h
    cases tight with
    | true => exact .tight (tightText_means items hs (by simpa using h))
    | false => exact .loose (looseText_means items hs (by simpa using h))
  | .choice os, _, _, _, _, _, hs, h => .choice (optionText_means os hs (by simpa only [exprText] using h))

theorem tightText_means : ∀ (items : DItems) {inner : Bool} {t : List Rune} {i j : Nat}, Span input i j t →
    tightText (SymbolText doc) (GapText doc) inner items t → TightWs doc input inner items i j
  | .nil, _, _, _, _, hs, h => by cases h; cases Span.nil_iff.1 hs; exact .nil
  | .cons e q rest, _, _, _, _, hs, ⟨k, u, v, h1, h2, h3, h4⟩ => by
    subst h4
    obtain ⟨m, g1, g2⟩ := hs.split
    exact .cons (timesText_means (fun hs ht => exprText_means e hs ht) g1 h1) h2 (tightText_means rest g2 h3)

theorem looseText_means : ∀ (items : DItems) {inner first : Bool} {t : List Rune} {i j : Nat}, Span input i j t →
    looseText (SymbolText doc) (GapText doc) inner first items t → LooseWs doc input inner first items i j
  | .nil, _, _, _, _, _, hs, h => by cases h; cases Span.nil_iff.1 hs; exact .nil
  | .cons e q rest, _, _, _, _, _, hs, .inl ⟨k, u, v, h1, h2, h3, h4⟩ => by
    subst h4
    obtain ⟨m, g1, g2⟩ := hs.split
    exact .cons (occText_means (fun hs ht => exprText_means e hs ht) g1 h1) h2 (looseText_means rest g2 h3)
  | .cons e q rest, _, _, _, _, _, hs, .inr ⟨h0, h1, h2, h3, w, v, h4, h5, h6⟩ => by
    subst h0 h6
    obtain ⟨m, g1, g2⟩ := hs.split
    exact .absent h1 h2 h3 (h4 g1) (looseText_means rest g2 h5)

theorem optionText_means : ∀ (os : DOptions) {inner : Bool} {t : List Rune} {i j : Nat}, Span input i j t →
    optionText (SymbolText doc) (GapText doc) inner os t → OptionsWs doc input inner os i j
  | .nil, _, _, _, _, _, h => by cases h
  | .cons e rest, _, _, _, _, hs, h => by
    rcases h with h | h
    · exact .here (exprText_means e hs h)
    · exact .there (optionText_means rest hs h)

end

/-- What the definitions stand for, fits to the definitions. -/
theorem symbolText_fits (hu : ∀ d ∈ doc, ∀ d' ∈ doc, d'.name = d.name → d' = d) : Fits doc (SymbolText doc) (GapText doc) where
  def_ h1 h2 h3 := fun hs => ⟨_, rfl, .def_ h1 h2 (exprText_means _ hs h3)⟩
  root h1 h2 h3 h4 h5 := fun hs => by
    obtain ⟨m, g1, g3⟩ := hs.split
    obtain ⟨l, g1, g2⟩ := g1.split
    exact ⟨_, rfl, .root h1 h2 (h3 g1) (exprText_means _ g2 h4) (h5 g3)⟩
  nil := fun hs => by cases Span.nil_iff.1 hs; exact .nil
  cons h1 h2 h3 h4 := fun hs => by
    obtain ⟨m, g1, g2⟩ := hs.split
    obtain ⟨d', k1, k2⟩ := h4 g2
    have : d' ∈ doc := by cases k2 <;> assumption
    cases hu _ h1 _ this k1
    exact .cons (h3 g1) h2 k2

end

end Treerack
