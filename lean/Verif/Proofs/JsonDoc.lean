import Verif.Model.JsonText
import Verif.Spec.JsonGrammar
import Verif.Proofs.DocTexts

/-
The document in examples/json.treerack, and the texts that it stands for.
-/

namespace Treerack
open Spec

deriving instance DecidableEq for DExpr, DItems, DOptions
deriving instance DecidableEq for DDef

/-! ### The document -/

def seqOf (items : List (DExpr × Option Quantifier)) : DExpr := .seq (items.foldr (fun x r => .cons x.1 x.2 r) .nil)

def choiceOf (options : List DExpr) : DExpr := .choice (options.foldr .cons .nil)

def charsOf (s : String) : DExpr := .chars (runes s)

def symbolOf (s : String) : DExpr := .symbol (runes s)

def digitClass : DExpr := .class_ false [] [(48, 57)]

def stringExpr : DExpr := seqOf [
  (charsOf "\"", none),
  (choiceOf [.class_ true [92, 34, 8, 12, 10, 13, 9] [],
    seqOf [(charsOf "\\", none), (choiceOf [.class_ false [34, 92, 47, 98, 102, 110, 114, 116] [],
      seqOf [(charsOf "u", none), (.class_ false [] [(48, 57), (97, 102)], some (.exactly 4))]], none)]], some .zeroOrMore),
  (charsOf "\"", none)]

def numberExpr : DExpr := seqOf [
  (charsOf "-", some .zeroOrOne),
  (choiceOf [charsOf "0", seqOf [(.class_ false [] [(49, 57)], none), (digitClass, some .zeroOrMore)]], none),
  (seqOf [(charsOf ".", none), (digitClass, some .oneOrMore)], some .zeroOrOne),
  (seqOf [(.class_ false [101, 69] [], none), (.class_ false [43, 45] [], some .zeroOrOne), (digitClass, some .oneOrMore)],
    some .zeroOrOne)]

def entryExpr : DExpr := seqOf [(symbolOf "string", none), (charsOf ":", none), (symbolOf "expression", none)]

/-- `l (x ("," x)*)? r` -/
def listExpr (l x r : String) : DExpr := seqOf [(charsOf l, none),
  (seqOf [(symbolOf x, none), (seqOf [(charsOf ",", none), (symbolOf x, none)], some .zeroOrMore)], some .zeroOrOne),
  (charsOf r, none)]

def valueExpr : DExpr := choiceOf [symbolOf "true", symbolOf "false", symbolOf "null", symbolOf "string", symbolOf "number",
  symbolOf "object", symbolOf "array"]

/-- The document in examples/json.treerack. -/
def jsonDoc : Document := [
  ⟨runes "whitespace", { whitespace := true }, .class_ false [32, 8, 12, 10, 13, 9] []⟩,
  ⟨runes "true", {}, charsOf "true"⟩,
  ⟨runes "false", {}, charsOf "false"⟩,
  ⟨runes "null", {}, charsOf "null"⟩,
  ⟨runes "string", { noWhitespace := true }, stringExpr⟩,
  ⟨runes "number", { noWhitespace := true }, numberExpr⟩,
  ⟨runes "entry", {}, entryExpr⟩,
  ⟨runes "object", {}, listExpr "{" "entry" "}"⟩,
  ⟨runes "array", {}, listExpr "[" "expression" "]"⟩,
  ⟨runes "expression", { alias := true }, valueExpr⟩,
  ⟨runes "json", { root := true }, symbolOf "expression"⟩]

/-! ### Repetitions -/

section
variable {P Sp C : List Rune → Prop} {R : Rune → Prop} {t : List Rune}

/-- The allowed numbers of occurrences. -/
def rep (q : Option Quantifier) (P : List Rune → Prop) (t : List Rune) : Prop := ∃ k, timesText P k t ∧ allowed q k

theorem rep_one : rep none P t ↔ P t := by
  constructor
  · rintro ⟨k, h1, h2⟩
    cases (show k = 1 from h2)
    obtain ⟨u, v, rfl, h3, rfl⟩ := h1
    exact h3
  · exact fun h => ⟨1, ⟨[], t, rfl, h, rfl⟩, rfl⟩

theorem rep_optional : rep (some .zeroOrOne) P t ↔ t = [] ∨ P t := by
  constructor
  · rintro ⟨k, h1, h2⟩
    have h2 : k ≤ 1 := h2
    match k, h2 with
    | 0, _ => exact .inl h1
    | 1, _ =>
      obtain ⟨u, v, rfl, h3, rfl⟩ := h1
      exact .inr h3
  · rintro (rfl | h)
    · exact ⟨0, rfl, show 0 ≤ 1 by decide⟩
    · exact ⟨1, ⟨[], t, rfl, h, rfl⟩, show 1 ≤ 1 by decide⟩

theorem times_class (h : ∀ u, P u ↔ ∃ c, R c ∧ u = [c]) : ∀ {k : Nat} {t : List Rune}, timesText P k t ↔ t.length = k ∧ ∀ c ∈ t, R c
  | 0, t => by
    constructor
    · intro h; cases (show t = [] from h); exact ⟨rfl, by simp⟩
    · rintro ⟨h, -⟩; exact List.length_eq_zero_iff.1 h
  | k + 1, t => by
    constructor
    · rintro ⟨u, v, h1, h2, rfl⟩
      obtain ⟨c, hc, rfl⟩ := (h v).1 h2
      obtain ⟨h3, h4⟩ := (times_class h).1 h1
      refine ⟨by simp [h3], fun x hx => ?_⟩
      rcases List.mem_append.1 hx with hx | hx
      · exact h4 x hx
      · cases List.mem_singleton.1 hx; exact hc
    · rintro ⟨h1, h2⟩
      have hne : t ≠ [] := by rintro rfl; cases h1
      refine ⟨t.dropLast, [t.getLast hne], (times_class h).2 ⟨by simp [h1], fun c hc => h2 c (List.dropLast_subset _ hc)⟩,
        (h _).2 ⟨_, h2 _ (List.getLast_mem hne), rfl⟩, (List.dropLast_concat_getLast hne).symm⟩

theorem rep_many (h : ∀ u, P u ↔ ∃ c, R c ∧ u = [c]) : rep (some .zeroOrMore) P t ↔ ∀ c ∈ t, R c :=
  ⟨fun ⟨_, h1, _⟩ => ((times_class h).1 h1).2, fun h1 => ⟨t.length, (times_class h).2 ⟨rfl, h1⟩, trivial⟩⟩

theorem rep_some (h : ∀ u, P u ↔ ∃ c, R c ∧ u = [c]) : rep (some .oneOrMore) P t ↔ t ≠ [] ∧ ∀ c ∈ t, R c := by
  constructor
  · rintro ⟨k, h1, h2⟩
    have h2 : 1 ≤ k := h2
    obtain ⟨h3, h4⟩ := (times_class h).1 h1
    exact ⟨by rintro rfl; simp at h3; omega, h4⟩
  · rintro ⟨h1, h2⟩
    exact ⟨t.length, (times_class h).2 ⟨rfl, h2⟩, show 1 ≤ t.length from List.length_pos_iff.2 h1⟩

theorem rep_four (h : ∀ u, P u ↔ ∃ c, R c ∧ u = [c]) :
    rep (some (.exactly 4)) P t ↔ ∃ a b c d, R a ∧ R b ∧ R c ∧ R d ∧ t = [a, b, c, d] := by
  constructor
  · rintro ⟨k, h1, h2⟩
    cases (show k = 4 from h2)
    obtain ⟨h3, h4⟩ := (times_class h).1 h1
    match t, h3 with
    | [a, b, c, d], _ => exact ⟨a, b, c, d, h4 _ (by simp), h4 _ (by simp), h4 _ (by simp), h4 _ (by simp), rfl⟩
  · rintro ⟨a, b, c, d, h1, h2, h3, h4, rfl⟩
    exact ⟨4, (times_class h).2 ⟨rfl, by simp [h1, h2, h3, h4]⟩, rfl⟩

/-- The allowed numbers of occurrences, with whitespace. -/
def srep (first : Bool) (q : Option Quantifier) (P Sp : List Rune → Prop) (t : List Rune) : Prop :=
  ∃ k, occText P Sp first k t ∧ allowed q k

theorem srep_first : srep true none P Sp t ↔ P t := by
  constructor
  · rintro ⟨k, h1, h2⟩
    cases (show k = 1 from h2)
    rcases h1 with ⟨-, -, h⟩ | ⟨h, -⟩
    · exact h
    · exact absurd (h rfl) (Nat.lt_irrefl _)
  · exact fun h => ⟨1, .inl ⟨rfl, rfl, h⟩, rfl⟩

theorem srep_one : srep false none P Sp t ↔ ∃ w u, Sp w ∧ P u ∧ t = w ++ u := by
  constructor
  · rintro ⟨k, h1, h2⟩
    cases (show k = 1 from h2)
    rcases h1 with ⟨h, -⟩ | ⟨-, u, w, v, rfl, h1, h2, rfl⟩
    · cases h
    · exact ⟨w, v, h1, h2, rfl⟩
  · rintro ⟨w, u, h1, h2, rfl⟩
    exact ⟨1, .inr ⟨by simp, [], w, u, rfl, h1, h2, rfl⟩, rfl⟩

theorem srep_optional : srep false (some .zeroOrOne) P Sp t ↔ t = [] ∨ ∃ w u, Sp w ∧ P u ∧ t = w ++ u := by
  constructor
  · rintro ⟨k, h1, h2⟩
    have h2 : k ≤ 1 := h2
    match k, h2 with
    | 0, _ => exact .inl h1
    | 1, _ => exact .inr (srep_one.1 ⟨1, h1, rfl⟩)
  · rintro (rfl | h)
    · exact ⟨0, rfl, show 0 ≤ 1 by decide⟩
    · obtain ⟨w, u, h1, h2, rfl⟩ := h
      exact ⟨1, .inr ⟨by simp, [], w, u, rfl, h1, h2, rfl⟩, show 1 ≤ 1 by decide⟩

end

section
variable {S : Name → List Rune → Prop} {Sp : List Rune → Prop} {inner first : Bool} {e : DExpr} {q : Option Quantifier} {rest : DItems}
  {t : List Rune}

theorem tight_cons : tightText S Sp inner (.cons e q rest) t ↔
    ∃ u v, rep q (exprText S Sp inner inner e) u ∧ tightText S Sp inner rest v ∧ t = u ++ v := by
  simp only [tightText, rep]
  exact ⟨fun ⟨k, u, v, h1, h2, h3, h4⟩ => ⟨u, v, ⟨k, h1, h2⟩, h3, h4⟩, fun ⟨u, v, ⟨k, h1, h2⟩, h3, h4⟩ => ⟨k, u, v, h1, h2, h3, h4⟩⟩

theorem loose_cons : looseText S Sp inner first (.cons e q rest) t ↔
    (∃ u v, srep first q (exprText S Sp inner inner e) Sp u ∧ looseText S Sp inner false rest v ∧ t = u ++ v) ∨
    (first = false ∧ allowed q 0 ∧ allowed q 1 ∧ ¬ allowed q 2 ∧ ∃ w v, Sp w ∧ looseText S Sp inner false rest v ∧ t = w ++ v) := by
  simp only [looseText, srep]
  exact or_congr_left ⟨fun ⟨k, u, v, h1, h2, h3, h4⟩ => ⟨u, v, ⟨k, h1, h2⟩, h3, h4⟩,
    fun ⟨u, v, ⟨k, h1, h2⟩, h3, h4⟩ => ⟨k, u, v, h1, h2, h3, h4⟩⟩

/-- Items that cannot be omitted, or repeated. -/
theorem loose_one : looseText S Sp inner false (.cons e none rest) t ↔
    ∃ w u v, Sp w ∧ exprText S Sp inner inner e u ∧ looseText S Sp inner false rest v ∧ t = w ++ u ++ v := by
  rw [loose_cons]
  constructor
  · rintro (⟨u, v, h1, h2, rfl⟩ | ⟨-, h, -⟩)
    · obtain ⟨w, x, h3, h4, rfl⟩ := srep_one.1 h1
      exact ⟨w, x, v, h3, h4, h2, rfl⟩
    · cases (show 0 = 1 from h)
  · rintro ⟨w, u, v, h1, h2, h3, rfl⟩
    exact .inl ⟨w ++ u, v, srep_one.2 ⟨w, u, h1, h2, rfl⟩, h3, rfl⟩

theorem loose_first : looseText S Sp inner true (.cons e none rest) t ↔
    ∃ u v, exprText S Sp inner inner e u ∧ looseText S Sp inner false rest v ∧ t = u ++ v := by
  rw [loose_cons]
  simp only [srep_first, Bool.true_eq_false, false_and, or_false]

theorem loose_nil : looseText S Sp inner first .nil t ↔ t = [] := by simp only [looseText]
theorem tight_nil : tightText S Sp inner .nil t ↔ t = [] := by simp only [tightText]
theorem text_chars {tight : Bool} {s : String} : exprText S Sp tight inner (charsOf s) t ↔ t = runes s := by
  simp only [charsOf, exprText]
theorem text_symbol {tight : Bool} {s : String} : exprText S Sp tight inner (symbolOf s) t ↔ S (runes s) t := by
  simp only [symbolOf, exprText]
theorem text_class {tight neg : Bool} {cs : List Rune} {rs : List (Rune × Rune)} :
    exprText S Sp tight inner (.class_ neg cs rs) t ↔ ∃ c, InClass neg cs rs c ∧ t = [c] := by
  simp only [exprText]
theorem text_choice {tight : Bool} {os : DOptions} : exprText S Sp tight inner (.choice os) t ↔ optionText S Sp inner os t := by
  simp only [exprText]
theorem text_tight {items : List (DExpr × Option Quantifier)} : exprText S Sp true inner (seqOf items) t ↔
    tightText S Sp inner (items.foldr (fun x r => .cons x.1 x.2 r) .nil) t := by
  simp only [seqOf, exprText, if_true]
theorem text_loose {items : List (DExpr × Option Quantifier)} : exprText S Sp false inner (seqOf items) t ↔
    looseText S Sp inner true (items.foldr (fun x r => .cons x.1 x.2 r) .nil) t := by
  simp only [seqOf, exprText, Bool.false_eq_true, if_false]

theorem text_digit {tight : Bool} (u : List Rune) : exprText S Sp tight inner digitClass u ↔ ∃ c, JsonText.Digit c ∧ u = [c] := by
  simp only [digitClass, text_class, InClass, JsonText.Digit, List.mem_singleton, exists_eq_left, List.not_mem_nil, false_or, iff_true]

/-! ### Numbers -/

theorem number_text : exprText S Sp true true numberExpr t ↔ JsonText.Number t := by
  have c19 : ∀ c, InClass false [] [(49, 57)] c ↔ 49 ≤ c ∧ c ≤ 57 := fun c => by simp [InClass]
  have cE : ∀ c, InClass false [101, 69] [] c ↔ c = 101 ∨ c = 69 := fun c => by simp [InClass]
  have cS : ∀ c, InClass false [43, 45] [] c ↔ c = 43 ∨ c = 45 := fun c => by simp [InClass]
  have r1 : runes "-" = [45] := by decide
  have r2 : runes "0" = [48] := by decide
  have r3 : runes "." = [46] := by decide
  simp only [numberExpr, text_tight, List.foldr, tight_cons, rep_one, rep_optional, text_chars, choiceOf, exprText, optionText,
    or_false, tight_nil, rep_many text_digit, rep_some text_digit, c19, cE, cS, r1, r2, r3]
  constructor
  · rintro ⟨m, v1, h1, ⟨n, v2, h2, ⟨f, v3, h3, ⟨e, v4, h4, rfl, rfl⟩, rfl⟩, rfl⟩, rfl⟩
    refine ⟨m, n, f, e, h1, ?_, ?_, ?_, by simp⟩
    · rcases h2 with h2 | ⟨_, _, ⟨d, ⟨g1, g2⟩, rfl⟩, ⟨ds, _, g3, rfl, rfl⟩, rfl⟩
      · exact .inl h2
      · exact .inr ⟨d, ds, g1, g2, g3, by simp⟩
    · rcases h3 with h3 | ⟨_, _, rfl, ⟨ds, _, g3, rfl, rfl⟩, rfl⟩
      · exact .inl h3
      · exact .inr ⟨ds, g3, by simp⟩
    · rcases h4 with h4 | ⟨_, _, ⟨x, g1, rfl⟩, ⟨s, _, g2, ⟨ds, _, g3, rfl, rfl⟩, rfl⟩, rfl⟩
      · exact .inl h4
      · refine .inr ⟨x, s, ds, g1, ?_, g3, by simp⟩
        rcases g2 with g2 | ⟨_, rfl | rfl, rfl⟩
        · exact .inl g2
        · exact .inr (.inl rfl)
        · exact .inr (.inr rfl)
  · rintro ⟨m, n, f, e, h1, h2, h3, h4, rfl⟩
    refine ⟨m, _, h1, ⟨n, _, ?_, ⟨f, _, ?_, ⟨e, _, ?_, rfl, rfl⟩, rfl⟩, rfl⟩, by simp⟩
    · rcases h2 with h2 | ⟨d, ds, g1, g2, g3, rfl⟩
      · exact .inl h2
      · exact .inr ⟨_, _, ⟨d, ⟨g1, g2⟩, rfl⟩, ⟨ds, _, g3, rfl, rfl⟩, by simp⟩
    · rcases h3 with h3 | ⟨ds, g3, rfl⟩
      · exact .inl h3
      · exact .inr ⟨_, _, rfl, ⟨ds, _, g3, rfl, rfl⟩, by simp⟩
    · rcases h4 with h4 | ⟨x, s, ds, g1, g2, g3, rfl⟩
      · exact .inl h4
      · refine .inr ⟨_, _, ⟨x, g1, rfl⟩, ⟨s, _, ?_, ⟨ds, _, g3, rfl, rfl⟩, rfl⟩, by simp⟩
        rcases g2 with g2 | rfl | rfl
        · exact .inl g2
        · exact .inr ⟨_, .inl rfl, rfl⟩
        · exact .inr ⟨_, .inr rfl, rfl⟩

/-! ### Strings -/

/-- One character of a string, or an escape. -/
def StringChar (t : List Rune) : Prop := (∃ c, JsonText.example_.plain c ∧ t = [c]) ∨
  (∃ c ∈ runes "\"\\/bfnrt", t = [0x5C, c]) ∨
  ∃ a b c d, JsonText.example_.hex a ∧ JsonText.example_.hex b ∧ JsonText.example_.hex c ∧ JsonText.example_.hex d ∧
    t = [0x5C, 0x75, a, b, c, d]

theorem chars_iff : JsonText.Chars JsonText.example_ t ↔ ∃ k, timesText StringChar k t := by
  have front : ∀ {k u v}, StringChar u → timesText StringChar k v → timesText StringChar (k + 1) (u ++ v) := by
    intro k
    induction k with
    | zero =>
      intro u v h1 h2
      cases (show v = [] from h2)
      exact ⟨[], u, rfl, h1, by simp⟩
    | succ k ih =>
      rintro u v h1 ⟨x, y, h2, h3, rfl⟩
      exact ⟨u ++ x, y, ih h1 h2, h3, by simp⟩
  have back : ∀ {u v}, JsonText.Chars JsonText.example_ u → StringChar v → JsonText.Chars JsonText.example_ (u ++ v) := by
    intro u v h hv
    induction h with
    | nil =>
      rcases hv with ⟨c, h, rfl⟩ | ⟨c, h, rfl⟩ | ⟨a, b, c, d, h1, h2, h3, h4, rfl⟩
      · exact .plain h .nil
      · exact .escape h .nil
      · exact .unicode h1 h2 h3 h4 .nil
    | plain h _ ih => exact .plain h ih
    | escape h _ ih => exact .escape h ih
    | unicode h1 h2 h3 h4 _ ih => exact .unicode h1 h2 h3 h4 ih
  constructor
  · intro h
    induction h with
    | nil => exact ⟨0, rfl⟩
    | plain h _ ih => exact ⟨_, front (.inl ⟨_, h, rfl⟩) ih.choose_spec⟩
    | escape h _ ih => exact ⟨_, front (.inr (.inl ⟨_, h, rfl⟩)) ih.choose_spec⟩
    | unicode h1 h2 h3 h4 _ ih => exact ⟨_, front (.inr (.inr ⟨_, _, _, _, h1, h2, h3, h4, rfl⟩)) ih.choose_spec⟩
  · rintro ⟨k, h⟩
    induction k generalizing t with
    | zero => cases (show t = [] from h); exact .nil
    | succ k ih =>
      obtain ⟨u, v, h1, h2, rfl⟩ := h
      exact back (ih h1) h2

theorem times_congr {P Q : List Rune → Prop} (h : ∀ t, P t ↔ Q t) : ∀ {k : Nat} {t : List Rune}, timesText P k t ↔ timesText Q k t
  | 0, _ => .rfl
  | k + 1, _ => by simp only [timesText, times_congr h, h]

theorem string_text : exprText S Sp true true stringExpr t ↔ JsonText.String JsonText.example_ t := by
  have cP : ∀ c, InClass true [92, 34, 8, 12, 10, 13, 9] [] c ↔ JsonText.example_.plain c := fun c => by
    simp [InClass, JsonText.example_]
  have cQ : ∀ c, InClass false [34, 92, 47, 98, 102, 110, 114, 116] [] c ↔ c ∈ runes "\"\\/bfnrt" := fun c => by
    rw [show runes "\"\\/bfnrt" = [34, 92, 47, 98, 102, 110, 114, 116] by decide]
    simp [InClass]
  have cH : ∀ c, InClass false [] [(48, 57), (97, 102)] c ↔ JsonText.example_.hex c := fun c => by
    simp [InClass, JsonText.example_]
  have r1 : runes "\"" = [34] := by decide
  have r2 : runes "\\" = [92] := by decide
  have r3 : runes "u" = [117] := by decide
  have hch : ∀ t, exprText S Sp true true (choiceOf [.class_ true [92, 34, 8, 12, 10, 13, 9] [],
      seqOf [(charsOf "\\", none), (choiceOf [.class_ false [34, 92, 47, 98, 102, 110, 114, 116] [],
        seqOf [(charsOf "u", none), (.class_ false [] [(48, 57), (97, 102)], some (.exactly 4))]], none)]]) t ↔ StringChar t := by
    intro t
    have hx : ∀ u, exprText S Sp true true (.class_ false [] [(48, 57), (97, 102)]) u ↔ ∃ c, JsonText.example_.hex c ∧ u = [c] := by
      simp only [text_class, cH, implies_true]
    simp only [choiceOf, text_tight, List.foldr, tight_cons, rep_one, text_chars, text_choice, text_class, optionText, or_false,
      tight_nil, rep_four hx, cP, cQ, r2, r3, StringChar]
    refine or_congr_right ?_
    constructor
    · rintro ⟨_, _, rfl, ⟨u, _, h, rfl, rfl⟩, rfl⟩
      rcases h with ⟨c, h, rfl⟩ | ⟨_, _, rfl, ⟨_, _, ⟨a, b, c, d, h1, h2, h3, h4, rfl⟩, rfl, rfl⟩, rfl⟩
      · exact .inl ⟨c, h, by simp⟩
      · exact .inr ⟨a, b, c, d, h1, h2, h3, h4, by simp⟩
    · rintro (⟨c, h, rfl⟩ | ⟨a, b, c, d, h1, h2, h3, h4, rfl⟩)
      · exact ⟨_, _, rfl, ⟨[c], _, .inl ⟨c, h, rfl⟩, rfl, rfl⟩, by simp⟩
      · exact ⟨_, _, rfl, ⟨[117, a, b, c, d], _, .inr ⟨_, _, rfl, ⟨_, _, ⟨a, b, c, d, h1, h2, h3, h4, rfl⟩, rfl, rfl⟩, by simp⟩,
          rfl, rfl⟩, by simp⟩
  have hrep : ∀ u, rep (some .zeroOrMore) (exprText S Sp true true (choiceOf [.class_ true [92, 34, 8, 12, 10, 13, 9] [],
      seqOf [(charsOf "\\", none), (choiceOf [.class_ false [34, 92, 47, 98, 102, 110, 114, 116] [],
        seqOf [(charsOf "u", none), (.class_ false [] [(48, 57), (97, 102)], some (.exactly 4))]], none)]])) u ↔
        JsonText.Chars JsonText.example_ u := by
    intro u
    rw [chars_iff]
    exact ⟨fun ⟨k, h, _⟩ => ⟨k, (times_congr hch).1 h⟩, fun ⟨k, h⟩ => ⟨k, (times_congr hch).2 h, trivial⟩⟩
  rw [stringExpr, text_tight]
  simp only [List.foldr, tight_cons, rep_one, text_chars, hrep, tight_nil, r1]
  constructor
  · rintro ⟨_, _, rfl, ⟨cs, _, h, ⟨_, _, rfl, rfl, rfl⟩, rfl⟩, rfl⟩
    exact ⟨cs, h, by simp⟩
  · rintro ⟨cs, h, rfl⟩
    exact ⟨_, _, rfl, ⟨cs, _, h, ⟨_, _, rfl, rfl, rfl⟩, rfl⟩, by simp⟩

/-! ### Members and lists -/

theorem entry_text : exprText S Sp false false entryExpr t ↔
    ∃ s w w' v, S (runes "string") s ∧ Sp w ∧ Sp w' ∧ S (runes "expression") v ∧ t = s ++ w ++ runes ":" ++ w' ++ v := by
  rw [entryExpr, text_loose]
  simp only [List.foldr, loose_first, loose_one, text_symbol, text_chars, loose_nil]
  constructor
  · rintro ⟨s, _, h1, ⟨w, _, _, h2, rfl, ⟨w', v, _, h3, h4, rfl, rfl⟩, rfl⟩, rfl⟩
    exact ⟨s, w, w', v, h1, h2, h3, h4, by simp⟩
  · rintro ⟨s, w, w', v, h1, h2, h3, h4, rfl⟩
    exact ⟨s, _, h1, ⟨w, _, _, h2, rfl, ⟨w', v, _, h3, h4, rfl, rfl⟩, rfl⟩, by simp⟩

/-- Texts with commas between them. -/
inductive Listed (P Sp : List Rune → Prop) : List Rune → Prop
  | one {t : List Rune} : P t → Listed P Sp t
  | more {t u w w' : List Rune} : Listed P Sp t → Sp w → Sp w' → P u → Listed P Sp (t ++ w ++ runes "," ++ w' ++ u)

theorem listed_text {x : String} : exprText S Sp false false
    (seqOf [(symbolOf x, none), (seqOf [(charsOf ",", none), (symbolOf x, none)], some .zeroOrMore)]) t ↔ Listed (S (runes x)) Sp t := by
  have hin : ∀ t, exprText S Sp false false (seqOf [(charsOf ",", none), (symbolOf x, none)]) t ↔
      ∃ w' u, Sp w' ∧ S (runes x) u ∧ t = runes "," ++ w' ++ u := by
    intro t
    rw [text_loose]
    simp only [List.foldr, loose_first, loose_one, text_symbol, text_chars, loose_nil]
    constructor
    · rintro ⟨_, _, rfl, ⟨w', u, _, h1, h2, rfl, rfl⟩, rfl⟩
      exact ⟨w', u, h1, h2, by simp⟩
    · rintro ⟨w', u, h1, h2, rfl⟩
      exact ⟨_, _, rfl, ⟨w', u, _, h1, h2, rfl, rfl⟩, by simp⟩
  rw [text_loose]
  simp only [List.foldr, loose_first]
  simp only [loose_cons (q := some .zeroOrMore), text_symbol, loose_nil]
  constructor
  · rintro ⟨u, v, h1, h2, rfl⟩
    rcases h2 with ⟨v, _, ⟨k, h2, -⟩, rfl, rfl⟩ | ⟨-, -, -, h, -⟩
    · rw [List.append_nil]
      induction k generalizing v with
      | zero => cases (show v = [] from h2); rw [List.append_nil]; exact .one h1
      | succ k ih =>
        rcases h2 with ⟨h, -⟩ | ⟨-, a, w, b, h3, h4, h5, rfl⟩
        · cases h
        · obtain ⟨w', c, h6, h7, rfl⟩ := (hin b).1 h5
          have := Listed.more (ih a h3) h4 h6 h7
          simpa using this
    · exact absurd trivial h
  · intro h
    induction h with
    | one h => exact ⟨_, [], h, .inl ⟨[], [], ⟨0, rfl, trivial⟩, rfl, rfl⟩, by simp⟩
    | @more t u w w' _ h2 h3 h4 ih =>
      obtain ⟨a, b, g1, g2, rfl⟩ := ih
      rcases g2 with ⟨v, _, ⟨k, g2, -⟩, rfl, rfl⟩ | ⟨-, -, -, h, -⟩
      · refine ⟨a, v ++ w ++ (runes "," ++ w' ++ u), g1, .inl ⟨_, [], ⟨k + 1, .inr ⟨by simp, v, w, _, g2, h2, (hin _).2
          ⟨w', u, h3, h4, rfl⟩, rfl⟩, trivial⟩, rfl, by simp⟩, by simp⟩
      · exact absurd trivial h

theorem list_text {l x r : String} (ha : ∀ {t u}, Sp t → Sp u → Sp (t ++ u)) :
    exprText S Sp false false (listExpr l x r) t ↔ (∃ w, Sp w ∧ t = runes l ++ w ++ runes r) ∨
      ∃ w u w', Sp w ∧ Listed (S (runes x)) Sp u ∧ Sp w' ∧ t = runes l ++ w ++ u ++ w' ++ runes r := by
  rw [listExpr, text_loose]
  simp only [List.foldr, loose_first]
  simp only [loose_cons (q := some .zeroOrOne), loose_one, text_chars, loose_nil, srep_optional, listed_text]
  constructor
  · rintro ⟨_, v, rfl, h, rfl⟩
    rcases h with ⟨u, _, h1, ⟨w', _, _, h2, rfl, rfl, rfl⟩, rfl⟩ | ⟨-, -, -, -, w, _, h1, ⟨w', _, _, h2, rfl, rfl, rfl⟩, rfl⟩
    · rcases h1 with rfl | ⟨w, u, h3, h4, rfl⟩
      · exact .inl ⟨w', h2, by simp⟩
      · exact .inr ⟨w, u, w', h3, h4, h2, by simp⟩
    · exact .inl ⟨w ++ w', ha h1 h2, by simp⟩
  · rintro (⟨w, h, rfl⟩ | ⟨w, u, w', h1, h2, h3, rfl⟩)
    · exact ⟨_, _, rfl, .inl ⟨[], _, .inl rfl, ⟨w, _, _, h, rfl, rfl, rfl⟩, rfl⟩, by simp⟩
    · exact ⟨_, _, rfl, .inl ⟨w ++ u, _, .inr ⟨w, u, h1, h2, rfl⟩, ⟨w', _, _, h3, rfl, rfl, rfl⟩, rfl⟩, by simp⟩

theorem expression_text : exprText S Sp false false valueExpr t ↔ S (runes "true") t ∨ S (runes "false") t ∨
    S (runes "null") t ∨ S (runes "string") t ∨ S (runes "number") t ∨ S (runes "object") t ∨ S (runes "array") t := by
  simp only [valueExpr, choiceOf, exprText, List.foldr, optionText, text_symbol, or_false]

end

/-! ### The meaning of the symbols -/

instance {doc : Document} {d : DDef} : Decidable (IsRoot doc d) := inferInstanceAs (Decidable (_ = _))

/-- The texts of the definitions. -/
def jsonMeaning : Nat → List Rune → Prop
  | 0, t => ∃ c, JsonText.example_.space c ∧ t = [c]
  | 1, t => t = runes "true"
  | 2, t => t = runes "false"
  | 3, t => t = runes "null"
  | 4, t => JsonText.String JsonText.example_ t
  | 5, t => JsonText.Number t
  | 6, t => JsonText.Member JsonText.example_ t
  | 7, t => JsonText.Value JsonText.example_ t
  | 8, t => JsonText.Value JsonText.example_ t
  | 9, t => JsonText.Value JsonText.example_ t
  | 10, t => JsonText.Text JsonText.example_ t
  | _, _ => True

def jsonSymbol (n : Name) (t : List Rune) : Prop := ∀ k, (jsonDoc.map DDef.name).idxOf? n = some k → jsonMeaning k t

theorem jsonSymbol_iff {n : Name} {k : Nat} {t : List Rune} (h : (jsonDoc.map DDef.name).idxOf? n = some k) :
    jsonSymbol n t ↔ jsonMeaning k t :=
  ⟨fun g => g k h, fun g k' h' => by rw [h] at h'; cases h'; exact g⟩

abbrev jsonSpace : List Rune → Prop := JsonText.Space JsonText.example_

theorem jsonSpace_append {t u : List Rune} (h1 : jsonSpace t) (h2 : jsonSpace u) : jsonSpace (t ++ u) :=
  fun c hc => (List.mem_append.1 hc).elim (h1 c) (h2 c)

theorem space_class {S : Name → List Rune → Prop} {Sp : List Rune → Prop} {inner : Bool} {t : List Rune} :
    exprText S Sp true inner (.class_ false [32, 8, 12, 10, 13, 9] []) t ↔ ∃ c, JsonText.example_.space c ∧ t = [c] := by
  have : ∀ c, InClass false [32, 8, 12, 10, 13, 9] [] c ↔ JsonText.example_.space c := fun c => by
    simp [InClass, JsonText.example_]
  rw [text_class]
  simp only [this]

theorem listed_members {P : List Rune → Prop} (h : ∀ {t}, P t → JsonText.Member JsonText.example_ t) {t : List Rune}
    (hl : Listed P jsonSpace t) : JsonText.Members JsonText.example_ t := by
  induction hl with
  | one h1 => exact .one (h h1)
  | more _ h2 h3 h4 ih => exact .more ih h2 h3 (h h4)

theorem listed_values {P : List Rune → Prop} (h : ∀ {t}, P t → JsonText.Value JsonText.example_ t) {t : List Rune}
    (hl : Listed P jsonSpace t) : JsonText.Values JsonText.example_ t := by
  induction hl with
  | one h1 => exact .one (h h1)
  | more _ h2 h3 h4 ih => exact .more ih h2 h3 (h h4)

section
variable {t : List Rune}
theorem js_true : jsonSymbol (runes "true") t ↔ t = runes "true" := jsonSymbol_iff (k := 1) (by decide +kernel)
theorem js_false : jsonSymbol (runes "false") t ↔ t = runes "false" := jsonSymbol_iff (k := 2) (by decide +kernel)
theorem js_null : jsonSymbol (runes "null") t ↔ t = runes "null" := jsonSymbol_iff (k := 3) (by decide +kernel)
theorem js_string : jsonSymbol (runes "string") t ↔ JsonText.String JsonText.example_ t := jsonSymbol_iff (k := 4) (by decide +kernel)
theorem js_number : jsonSymbol (runes "number") t ↔ JsonText.Number t := jsonSymbol_iff (k := 5) (by decide +kernel)
theorem js_entry : jsonSymbol (runes "entry") t ↔ JsonText.Member JsonText.example_ t := jsonSymbol_iff (k := 6) (by decide +kernel)
theorem js_object : jsonSymbol (runes "object") t ↔ JsonText.Value JsonText.example_ t := jsonSymbol_iff (k := 7) (by decide +kernel)
theorem js_array : jsonSymbol (runes "array") t ↔ JsonText.Value JsonText.example_ t := jsonSymbol_iff (k := 8) (by decide +kernel)
theorem js_expression : jsonSymbol (runes "expression") t ↔ JsonText.Value JsonText.example_ t :=
  jsonSymbol_iff (k := 9) (by decide +kernel)
theorem js_json : jsonSymbol (runes "json") t ↔ JsonText.Text JsonText.example_ t := jsonSymbol_iff (k := 10) (by decide +kernel)
theorem js_whitespace : jsonSymbol (runes "whitespace") t ↔ ∃ c, JsonText.example_.space c ∧ t = [c] :=
  jsonSymbol_iff (k := 0) (by decide +kernel)
end

theorem json_fits : Fits jsonDoc jsonSymbol jsonSpace where
  nil := fun _ h => nomatch h
  cons {d t w} hd hws hw hs := by
    simp only [jsonDoc, List.mem_cons, List.not_mem_nil, or_false] at hd
    rcases hd with rfl | rfl | rfl | rfl | rfl | rfl | rfl | rfl | rfl | rfl | rfl
    · obtain ⟨c, hc, rfl⟩ := js_whitespace.1 hs
      exact jsonSpace_append hw (fun x hx => by cases List.mem_singleton.1 hx; exact hc)
    all_goals cases hws
  root {d w t w'} hd hr hw ht hw' := by
    simp only [jsonDoc, List.mem_cons, List.not_mem_nil, or_false] at hd
    rcases hd with rfl | rfl | rfl | rfl | rfl | rfl | rfl | rfl | rfl | rfl | rfl
    case inr.inr.inr.inr.inr.inr.inr.inr.inr.inr =>
      exact js_json.2 ⟨w, t, w', hw, js_expression.1 (text_symbol.1 ht), hw', rfl⟩
    all_goals exact absurd hr (by decide +kernel)
  def_ {d t} hd hr ht := by
    simp only [jsonDoc, List.mem_cons, List.not_mem_nil, or_false] at hd
    rcases hd with rfl | rfl | rfl | rfl | rfl | rfl | rfl | rfl | rfl | rfl | rfl
    · exact js_whitespace.2 (space_class.1 ht)
    · exact js_true.2 (text_chars.1 ht)
    · exact js_false.2 (text_chars.1 ht)
    · exact js_null.2 (text_chars.1 ht)
    · exact js_string.2 (string_text.1 ht)
    · exact js_number.2 (number_text.1 ht)
    · obtain ⟨s, w, w', v, h1, h2, h3, h4, rfl⟩ := entry_text.1 ht
      exact js_entry.2 (.mk (js_string.1 h1) h2 h3 (js_expression.1 h4))
    · rcases (list_text jsonSpace_append).1 ht with ⟨w, h1, rfl⟩ | ⟨w, u, w', h1, h2, h3, rfl⟩
      · exact js_object.2 (.emptyObject h1)
      · exact js_object.2 (.object h1 (listed_members js_entry.1 h2) h3)
    · rcases (list_text jsonSpace_append).1 ht with ⟨w, h1, rfl⟩ | ⟨w, u, w', h1, h2, h3, rfl⟩
      · exact js_array.2 (.emptyArray h1)
      · exact js_array.2 (.array h1 (listed_values js_expression.1 h2) h3)
    · rcases expression_text.1 ht with h | h | h | h | h | h | h
      · cases js_true.1 h; exact js_expression.2 .true
      · cases js_false.1 h; exact js_expression.2 .false
      · cases js_null.1 h; exact js_expression.2 .null
      · exact js_expression.2 (.string (js_string.1 h))
      · exact js_expression.2 (.number (js_number.1 h))
      · exact js_expression.2 (js_object.1 h)
      · exact js_expression.2 (js_array.1 h)
    · exact absurd (by decide +kernel) hr

/-! ### The other way -/

theorem gap_trans {doc : Document} {input : List Rune} {a b : Nat} (h : GapWs doc input a b) :
    ∀ {c : Nat}, GapWs doc input b c → GapWs doc input a c
  | _, .nil => h
  | _, .cons g w d => .cons (gap_trans h g) w d

theorem gapText_append {doc : Document} {t u : List Rune} (h1 : GapText doc t) (h2 : GapText doc u) : GapText doc (t ++ u) := by
  intro input i j hs
  obtain ⟨m, g1, g2⟩ := hs.split
  exact gap_trans (h1 g1) (h2 g2)

theorem json_unique : ∀ d ∈ jsonDoc, ∀ d' ∈ jsonDoc, d'.name = d.name → d' = d := by decide +kernel

theorem json_back : Fits jsonDoc (SymbolText jsonDoc) (GapText jsonDoc) := symbolText_fits json_unique

/-- A definition, by its position. -/
theorem json_def {k : Nat} {d : DDef} {t : List Rune} (h : jsonDoc[k]? = some d) (hr : ¬ IsRoot jsonDoc d)
    (ht : exprText (SymbolText jsonDoc) (GapText jsonDoc) (d.flags.noWhitespace || d.flags.whitespace) d.flags.noWhitespace d.expr t) :
    SymbolText jsonDoc d.name t :=
  json_back.def_ (List.mem_of_getElem? h) hr ht

theorem space_gap {t : List Rune} (h : jsonSpace t) : GapText jsonDoc t := by
  induction t with
  | nil => exact json_back.nil
  | cons c t ih =>
    have h1 : SymbolText jsonDoc (runes "whitespace") [c] := json_def (k := 0) rfl (by decide +kernel)
      (space_class.2 ⟨c, h c (List.mem_cons_self ..), rfl⟩)
    show GapText jsonDoc ([c] ++ t)
    exact gapText_append (t := [c]) (json_back.cons (d := ⟨runes "whitespace", { whitespace := true }, _⟩) (List.mem_of_getElem? (i := 0) rfl) rfl json_back.nil h1)
      (ih fun x hx => h x (List.mem_cons_of_mem _ hx))

theorem string_symbol {t : List Rune} (h : JsonText.String JsonText.example_ t) : SymbolText jsonDoc (runes "string") t :=
  json_def (k := 4) rfl (by decide +kernel) (string_text.2 h)

theorem object_symbol {t : List Rune} (h : (∃ w, GapText jsonDoc w ∧ t = runes "{" ++ w ++ runes "}") ∨
    ∃ w u w', GapText jsonDoc w ∧ Listed (SymbolText jsonDoc (runes "entry")) (GapText jsonDoc) u ∧ GapText jsonDoc w' ∧
      t = runes "{" ++ w ++ u ++ w' ++ runes "}") : SymbolText jsonDoc (runes "object") t :=
  json_def (k := 7) rfl (by decide +kernel) ((list_text gapText_append).2 h)

theorem array_symbol {t : List Rune} (h : (∃ w, GapText jsonDoc w ∧ t = runes "[" ++ w ++ runes "]") ∨
    ∃ w u w', GapText jsonDoc w ∧ Listed (SymbolText jsonDoc (runes "expression")) (GapText jsonDoc) u ∧ GapText jsonDoc w' ∧
      t = runes "[" ++ w ++ u ++ w' ++ runes "]") : SymbolText jsonDoc (runes "array") t :=
  json_def (k := 8) rfl (by decide +kernel) ((list_text gapText_append).2 h)

theorem expression_symbol {t : List Rune} (h : SymbolText jsonDoc (runes "true") t ∨ SymbolText jsonDoc (runes "false") t ∨
    SymbolText jsonDoc (runes "null") t ∨ SymbolText jsonDoc (runes "string") t ∨ SymbolText jsonDoc (runes "number") t ∨
    SymbolText jsonDoc (runes "object") t ∨ SymbolText jsonDoc (runes "array") t) : SymbolText jsonDoc (runes "expression") t :=
  json_def (k := 9) rfl (by decide +kernel) (expression_text.2 h)

mutual

theorem value_symbol : ∀ {t : List Rune}, JsonText.Value JsonText.example_ t → SymbolText jsonDoc (runes "expression") t
  | _, .true => expression_symbol (.inl (json_def (k := 1) rfl (by decide +kernel) (text_chars.2 rfl)))
  | _, .false => expression_symbol (.inr (.inl (json_def (k := 2) rfl (by decide +kernel) (text_chars.2 rfl))))
  | _, .null => expression_symbol (.inr (.inr (.inl (json_def (k := 3) rfl (by decide +kernel) (text_chars.2 rfl)))))
  | _, .string h => expression_symbol (.inr (.inr (.inr (.inl (string_symbol h)))))
  | _, .number h => expression_symbol (.inr (.inr (.inr (.inr (.inl
      (json_def (k := 5) rfl (by decide +kernel) (number_text.2 h)))))))
  | _, .emptyObject h => expression_symbol (.inr (.inr (.inr (.inr (.inr (.inl (object_symbol (.inl ⟨_, space_gap h, rfl⟩))))))))
  | _, .object h1 h2 h3 => expression_symbol (.inr (.inr (.inr (.inr (.inr (.inl (object_symbol (.inr
      ⟨_, _, _, space_gap h1, members_listed h2, space_gap h3, rfl⟩))))))))
  | _, .emptyArray h => expression_symbol (.inr (.inr (.inr (.inr (.inr (.inr (array_symbol (.inl ⟨_, space_gap h, rfl⟩))))))))
  | _, .array h1 h2 h3 => expression_symbol (.inr (.inr (.inr (.inr (.inr (.inr (array_symbol (.inr
      ⟨_, _, _, space_gap h1, values_listed h2, space_gap h3, rfl⟩))))))))

theorem member_symbol : ∀ {t : List Rune}, JsonText.Member JsonText.example_ t → SymbolText jsonDoc (runes "entry") t
  | _, .mk h1 h2 h3 h4 => json_def (k := 6) rfl (by decide +kernel)
      (entry_text.2 ⟨_, _, _, _, string_symbol h1, space_gap h2, space_gap h3, value_symbol h4, rfl⟩)

theorem members_listed : ∀ {t : List Rune}, JsonText.Members JsonText.example_ t →
    Listed (SymbolText jsonDoc (runes "entry")) (GapText jsonDoc) t
  | _, .one h => .one (member_symbol h)
  | _, .more h1 h2 h3 h4 => .more (members_listed h1) (space_gap h2) (space_gap h3) (member_symbol h4)

theorem values_listed : ∀ {t : List Rune}, JsonText.Values JsonText.example_ t →
    Listed (SymbolText jsonDoc (runes "expression")) (GapText jsonDoc) t
  | _, .one h => .one (value_symbol h)
  | _, .more h1 h2 h3 h4 => .more (values_listed h1) (space_gap h2) (space_gap h3) (value_symbol h4)

end

/-- What the document stands for is JSON. -/
theorem json_means {d : DDef} {input : List Rune} (hd : docRoot jsonDoc = some d) :
    DefWs jsonDoc input d 0 input.length ↔ JsonText.Text JsonText.example_ input := by
  have hroot : docRoot jsonDoc = some ⟨runes "json", { root := true }, symbolOf "expression"⟩ := by decide +kernel
  rw [hroot] at hd
  cases hd
  constructor
  · intro h
    obtain ⟨-, t, h1, h2⟩ := defWs_text json_fits h
    cases Span.all_iff.1 h1
    exact js_json.1 h2
  · rintro ⟨w, v, w', h1, h2, h3, rfl⟩
    have hx : SymbolText jsonDoc (runes "expression") v := value_symbol h2
    have hv : exprText (SymbolText jsonDoc) (GapText jsonDoc) false false (symbolOf "expression") v := by rw [text_symbol]; exact hx
    obtain ⟨d, h4, h5⟩ := json_back.root (d := ⟨runes "json", { root := true }, symbolOf "expression"⟩) (List.mem_of_getElem? (i := 10) rfl)
      (by decide +kernel) (space_gap h1) @hv (space_gap h3) .all
    have : d ∈ jsonDoc := by cases h5 <;> assumption
    cases json_unique _ (List.mem_of_getElem? (i := 10) rfl) _ this h4
    exact h5

end Treerack
