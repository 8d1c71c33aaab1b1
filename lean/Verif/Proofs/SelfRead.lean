import Verif.Proofs.SelfInvert

/-
A text that is matched by the parsers of syntax documents is a notation of a document.
-/

namespace Treerack
open Spec

namespace SelfG

variable {input : List Rune} {i j k : Nat} {s t r : List Rune} {c : Rune} {p q : Ptr}

/-! ### Characters, symbols, numbers -/

theorem M.quoteChar (h : M input 83 i j) : ∃ c t, Span input i j t ∧ WrittenChar quoteSpecial c t := by
  obtain ⟨o, ho, h⟩ := h.choice g83
  simp only [List.mem_cons, List.not_mem_nil, or_false] at ho
  rcases ho with rfl | rfl
  · obtain ⟨c, h1, h2, rfl⟩ := h.lit g77 g76
    refine ⟨c, [c], Span.one h1, .plain ?_⟩
    have := (matchChar_iff ..).1 h2
    simpa [InClass, quoteSpecial] using this
  · obtain ⟨k, h1, h2⟩ := (h.seq g82).one
    obtain ⟨l, h3, h4⟩ := h2.one
    obtain rfl := h4.nil
    obtain ⟨c, h5, -, rfl⟩ := h3.lit g81 g80
    exact ⟨_, _, (h1.theSpan g79 g78).trans (Span.one h5), .escaped (denotes_unescapeChar c)⟩

theorem M.classChar (h : M input 66 i j) : ∃ c t, Span input i j t ∧ WrittenChar classSpecial c t := by
  obtain ⟨o, ho, h⟩ := h.choice g66
  simp only [List.mem_cons, List.not_mem_nil, or_false] at ho
  rcases ho with rfl | rfl
  · obtain ⟨c, h1, h2, rfl⟩ := h.lit g60 g59
    refine ⟨c, [c], Span.one h1, .plain ?_⟩
    have := (matchChar_iff ..).1 h2
    simpa [InClass, classSpecial] using this
  · obtain ⟨k, h1, h2⟩ := (h.seq g65).one
    obtain ⟨l, h3, h4⟩ := h2.one
    obtain rfl := h4.nil
    obtain ⟨c, h5, -, rfl⟩ := h3.lit g64 g63
    exact ⟨_, _, (h1.theSpan g62 g61).trans (Span.one h5), .escaped (denotes_unescapeChar c)⟩

theorem St.quoteChars (h : St input 83 i j) : i ≤ input.length → ∃ cs t, Span input i j t ∧ WrittenChars cs t := by
  induction h with
  | stop => exact fun hi => ⟨[], [], .refl hi, .nil⟩
  | step h _ ih =>
    intro _
    obtain ⟨cs, t, h1, h2⟩ := ih (h.lt (by decide)).2
    obtain ⟨c, u, h3, h4⟩ := h.quoteChar
    exact ⟨_, _, h3.trans h1, .cons h4 h2⟩

theorem St.members (h : St input 72 i j) : i ≤ input.length → ∃ cs rs t, Span input i j t ∧ WrittenMembers cs rs t := by
  induction h with
  | stop => exact fun hi => ⟨[], [], [], .refl hi, .nil⟩
  | step h _ ih =>
    intro _
    obtain ⟨cs, rs, t, h1, h2⟩ := ih (h.lt (by decide)).2
    obtain ⟨o, ho, h⟩ := h.choice g72
    simp only [List.mem_cons, List.not_mem_nil, or_false] at ho
    rcases ho with rfl | rfl
    · obtain ⟨c, u, h3, h4⟩ := h.classChar
      exact ⟨_, _, _, h3.trans h1, .char h4 h2⟩
    · obtain ⟨k, h3, h4⟩ := (h.seq g69).one
      obtain ⟨l, h5, h6⟩ := h4.one
      obtain ⟨m, h7, h8⟩ := h6.one
      obtain rfl := h8.nil
      obtain ⟨a, u, h9, h10⟩ := h3.classChar
      obtain ⟨b, v, h11, h12⟩ := h7.classChar
      refine ⟨_, _, u ++ 45 :: v ++ t, ?_, .range h10 h12 h2⟩
      have := ((h9.trans (h5.theSpan g68 g67)).trans h11).trans h1
      simpa using this

theorem matchChar_symbol (c : Rune) : matchChar [92, 32, 10, 9, 8, 12, 13, 11, 47, 46, 91, 93, 34, 123, 125, 94, 43, 42, 63, 124, 40, 41, 58, 61, 59] [] true c =
    isSymbolChar c := by
  have e : (runes "\\ \n\t\x08\x0c\r\x0b/.[]\"{}^+*?|():=;") =
    [92, 32, 10, 9, 8, 12, 13, 11, 47, 46, 91, 93, 34, 123, 125, 94, 43, 42, 63, 124, 40, 41, 58, 61, 59] := by decide
  rw [isSymbolChar, e]
  rw [Bool.eq_iff_iff, matchChar_iff]
  simp [InClass]

theorem St.symbolChars (h : St input 91 i j) : i ≤ input.length → ∃ t, Span input i j t ∧ ∀ c ∈ t, isSymbolChar c = true := by
  induction h with
  | stop => exact fun hi => ⟨[], .refl hi, by simp⟩
  | step h _ ih =>
    intro _
    obtain ⟨t, h1, h2⟩ := ih (h.lt (by decide)).2
    obtain ⟨c, h3, h4, rfl⟩ := h.lit g91 g90
    rw [matchChar_symbol] at h4
    exact ⟨c :: t, .cons h3 h1, fun x hx => (List.mem_cons.1 hx).elim (fun e => e ▸ h4) (h2 x)⟩

/-- A symbol, and what follows it. -/
theorem M.symbol (h : M input 92 i j) :
    ∃ t, Span input i j t ∧ WrittenSymbol t ∧ ∀ c, input[j]? = some c → isSymbolChar c = false := by
  obtain ⟨k, l, h1, h2, h3⟩ := (h.seq g92).plus (by decide)
  obtain rfl := h3.nil
  obtain ⟨c, h4, h5, rfl⟩ := h1.lit g91 g90
  rw [matchChar_symbol] at h5
  obtain ⟨t, h6, h7⟩ := St.symbolChars h2 (h1.lt (by decide)).2
  refine ⟨c :: t, .cons h4 h6, ⟨by simp, fun x hx => (List.mem_cons.1 hx).elim (fun e => e ▸ h5) (h7 x)⟩, ?_⟩
  intro d hd
  by_cases hs : isSymbolChar d = true
  · obtain ⟨s, hat⟩ := at_head hd
    exact absurd (h2.end_.unique (symbolChar hat hs)) (by simp)
  · simpa using hs

theorem St.digits (h : St input 99 i j) : i ≤ input.length → ∃ t, Span input i j t ∧ ∀ c ∈ t, 48 ≤ c ∧ c ≤ 57 := by
  induction h with
  | stop => exact fun hi => ⟨[], .refl hi, by simp⟩
  | step h _ ih =>
    intro _
    obtain ⟨t, h1, h2⟩ := ih (h.lt (by decide)).2
    obtain ⟨c, h3, h4, rfl⟩ := h.lit g99 g98
    have h4 := (matchChar_iff ..).1 h4
    exact ⟨c :: t, .cons h3 h1, fun x hx => (List.mem_cons.1 hx).elim (fun e => e ▸ by simpa [InClass] using h4) (h2 x)⟩

theorem M.number (h : M input 100 i j) : ∃ v t, Span input i j t ∧ WrittenNumber v t := by
  obtain ⟨k, l, h1, h2, h3⟩ := (h.seq g100).plus (by decide)
  obtain rfl := h3.nil
  obtain ⟨c, h4, h5, rfl⟩ := h1.lit g99 g98
  have h5 := (matchChar_iff ..).1 h5
  obtain ⟨t, h6, h7⟩ := St.digits h2 (h1.lt (by decide)).2
  exact ⟨_, c :: t, .cons h4 h6, by simp, fun x hx => (List.mem_cons.1 hx).elim (fun e => e ▸ by simpa [InClass] using h5) (h7 x), rfl⟩

theorem M.numberIn {n : Name} {al : Bool} (h : M input p i j) (hg : selfEnv.grammar p = some ⟨n, al, .seq [(100, 1, 1)]⟩) :
    ∃ v t, Span input i j t ∧ WrittenNumber v t := by
  obtain ⟨k, h1, h2⟩ := (h.seq hg).one
  obtain rfl := h2.nil
  exact h1.number

/-! ### Quantifiers -/

/-- The layout in front of a further item. -/
theorem IM.inside {items : List (Ptr × Int × Int)} (h : IM input ((194, 0, -1) :: (p, 1, 1) :: items) i j) (ho : ordinary p = true) :
    ∃ g k l, Span input i k g ∧ Layout g ∧ M input p k l ∧ IM input items l j := by
  obtain ⟨k, h1, h2⟩ := h.star (by decide)
  obtain ⟨l, h3, h4⟩ := h2.one
  obtain ⟨g, h5, h6⟩ := St.inside h1 (Nat.lt_of_lt_of_le (h3.lt ho).1 (h3.lt ho).2)
  exact ⟨g, k, l, h5, h6, h3, h4⟩

/-- An optional item between layout. -/
theorem IM.insideMaybe {items : List (Ptr × Int × Int)} (h : IM input ((194, 0, -1) :: (q, 0, 1) :: (194, 0, -1) :: (p, 1, 1) :: items) i j)
    (ho : ordinary p = true) (hq : ordinary q = true) :
    (∃ g k l, Span input i k g ∧ Layout g ∧ M input p k l ∧ IM input items l j) ∨
    ∃ g a b g' k l, Span input i a g ∧ Layout g ∧ M input q a b ∧ Span input b k g' ∧ Layout g' ∧ M input p k l ∧ IM input items l j := by
  obtain ⟨a, h1, h2⟩ := h.star (by decide)
  rcases h2.maybe with h2 | ⟨b, h3, h4⟩
  · obtain ⟨g', k, l, h3, h4, h5, h6⟩ := h2.inside ho
    obtain ⟨g, h7, h8⟩ := St.inside h1 (by have := h3.ge; have := h5.lt ho; omega)
    exact .inl ⟨_, k, l, h7.trans h3, layout_append h8 h4, h5, h6⟩
  · obtain ⟨g', k, l, h5, h6, h7, h8⟩ := h4.inside ho
    obtain ⟨g, h9, h10⟩ := St.inside h1 (by have := h3.lt hq; omega)
    exact .inr ⟨g, a, b, g', k, l, h9, h10, h3, h5, h6, h7, h8⟩

theorem M.quantifier (h : M input 122 i j) : ∃ q t, Span input i j t ∧ WrittenQuantifier q t ∧ ∃ u c, t = u ++ [c] ∧ isSymbolChar c = false := by
  obtain ⟨o, ho, h⟩ := h.choice g122
  simp only [List.mem_cons, List.not_mem_nil, or_false] at ho
  rcases ho with rfl | rfl | rfl | rfl | rfl
  · obtain ⟨a, h1, h2⟩ := (h.seq g106).one
    obtain ⟨g, b, c, h3, h4, h5, h6⟩ := h2.inside (by decide)
    obtain ⟨g', d, e, h7, h8, h9, h10⟩ := h6.inside (by decide)
    obtain rfl := h10.nil
    obtain ⟨v, t, h11, h12⟩ := h5.numberIn g101
    refine ⟨_, _, ?_, .exactly h4 h12 h8, _, 125, rfl, by decide⟩
    exact ((((h1.theSpan g103 g102).trans h3).trans h11).trans h7).trans (h9.theSpan g105 g104)
  · obtain ⟨a, h1, h2⟩ := (h.seq g115).one
    have s1 := h1.theSpan g110 g109
    rcases h2.insideMaybe (by decide) (by decide) with ⟨g, k, l, h3, h4, h5, h6⟩ | ⟨g, x, y, g', k, l, h3, h4, hx, h3', h4', h5, h6⟩
    · have s2 := h5.theSpan g112 g111
      rcases h6.insideMaybe (by decide) (by decide) with ⟨g1, k1, l1, h7, h8, h9, h10⟩ | ⟨g1, x1, y1, g1', k1, l1, h7, h8, hx1, h7', h8', h9, h10⟩
      · obtain rfl := h10.nil
        refine ⟨_, _, ?_, .unbounded h4 h8, _, 125, rfl, by decide⟩
        have := (((s1.trans h3).trans s2).trans h7).trans (h9.theSpan g114 g113)
        simpa using this
      · obtain rfl := h10.nil
        obtain ⟨v, t, h11, h12⟩ := hx1.numberIn g108
        refine ⟨_, _, ?_, .atMost h4 h8 h12 h8', _, 125, rfl, by decide⟩
        have := (((((s1.trans h3).trans s2).trans h7).trans h11).trans h7').trans (h9.theSpan g114 g113)
        simpa using this
    · obtain ⟨w, u, h13, h14⟩ := hx.numberIn g107
      have s2 := h5.theSpan g112 g111
      rcases h6.insideMaybe (by decide) (by decide) with ⟨g1, k1, l1, h7, h8, h9, h10⟩ | ⟨g1, x1, y1, g1', k1, l1, h7, h8, hx1, h7', h8', h9, h10⟩
      · obtain rfl := h10.nil
        refine ⟨_, _, ?_, .atLeast h4 h14 h4' h8, _, 125, rfl, by decide⟩
        have := (((((s1.trans h3).trans h13).trans h3').trans s2).trans h7).trans (h9.theSpan g114 g113)
        simpa using this
      · obtain rfl := h10.nil
        obtain ⟨v, t, h11, h12⟩ := hx1.numberIn g108
        refine ⟨_, _, ?_, .between h4 h14 h4' h8 h12 h8', _, 125, rfl, by decide⟩
        have := (((((((s1.trans h3).trans h13).trans h3').trans s2).trans h7).trans h11).trans h7').trans (h9.theSpan g114 g113)
        simpa using this
  · exact ⟨_, _, h.theSpan g117 g116, .oneOrMore, [], 43, rfl, by decide⟩
  · exact ⟨_, _, h.theSpan g119 g118, .zeroOrMore, [], 42, rfl, by decide⟩
  · exact ⟨_, _, h.theSpan g121 g120, .zeroOrOne, [], 63, rfl, by decide⟩

/-! ### Expressions -/

/-- All expressions behind the position are notations. -/
def Below (input : List Rune) (a : Nat) : Prop := ∀ i j, a < i → M input 133 i j → ∃ e t, Span input i j t ∧ WrittenExpr e t

/-- The text cannot be continued to a longer symbol. -/
def Apart' (input : List Rune) (j : Nat) (t : List Rune) : Prop :=
  ∀ c, t.getLast? = some c → isSymbolChar c = true → ∀ d, input[j]? = some d → isSymbolChar d = false

theorem apart_last {t : List Rune} (h : isSymbolChar c = false) : Apart' input j (t ++ [c]) := by
  intro d hd hs
  rw [List.getLast?_concat] at hd
  cases hd
  rw [h] at hs
  cases hs

theorem M.primary (hb : Below input k) (hi : k ≤ i) (h : M input p i j) (hp : p = 89 ∨ p = 92 ∨ p = 97) :
    ∃ e t, Span input i j t ∧ WrittenPrimary e t ∧ Apart' input j t := by
  rcases hp with rfl | rfl | rfl
  · obtain ⟨o, ho, h⟩ := h.choice g89
    simp only [List.mem_cons, List.not_mem_nil, or_false] at ho
    rcases ho with rfl | rfl | rfl
    · exact ⟨_, _, h.theSpan g56 g55, .any, apart_last (t := []) (by decide)⟩
    · obtain ⟨a, h1, h2⟩ := (h.seq g75).one
      have hle := (h1.lt (by decide)).2
      rcases h2.maybe with h2 | ⟨b, h3, h4⟩
      · obtain ⟨c, h3, h4⟩ := h2.star (by decide)
        obtain ⟨d, h5, h6⟩ := h4.one
        obtain rfl := h6.nil
        obtain ⟨cs, rs, t, h7, h8⟩ := St.members h3 hle
        exact ⟨_, _, ((h1.theSpan g71 g70).trans h7).trans (h5.theSpan g74 g73), .class_ h8, apart_last (by decide)⟩
      · obtain ⟨c, h5, h6⟩ := h4.star (by decide)
        obtain ⟨d, h7, h8⟩ := h6.one
        obtain rfl := h8.nil
        obtain ⟨cs, rs, t, h9, h10⟩ := St.members h5 (h3.lt (by decide)).2
        exact ⟨_, _, (((h1.theSpan g71 g70).trans (h3.theSpan g58 g57)).trans h9).trans (h7.theSpan g74 g73), .classNot h10, apart_last (by decide)⟩
    · obtain ⟨a, h1, h2⟩ := (h.seq g88).one
      obtain ⟨c, h3, h4⟩ := h2.star (by decide)
      obtain ⟨d, h5, h6⟩ := h4.one
      obtain rfl := h6.nil
      obtain ⟨cs, t, h7, h8⟩ := St.quoteChars h3 (h1.lt (by decide)).2
      exact ⟨_, _, ((h1.theSpan g85 g84).trans h7).trans (h5.theSpan g87 g86), .chars h8, apart_last (by decide)⟩
  · obtain ⟨t, h1, h2, h3⟩ := h.symbol
    exact ⟨_, t, h1, .symbol h2, fun _ _ _ => h3⟩
  · obtain ⟨a, h1, h2⟩ := (h.seq g97).one
    obtain ⟨g, b, c, h3, h4, h5, h6⟩ := h2.inside (by decide)
    obtain ⟨g', d, e, h7, h8, h9, h10⟩ := h6.inside (by decide)
    obtain rfl := h10.nil
    have := (h1.lt (by decide)).1
    obtain ⟨e, t, h11, h12⟩ := hb b c (by have := h3.ge; omega) h5
    exact ⟨_, _, ((((h1.theSpan g94 g93).trans h3).trans h11).trans h7).trans (h9.theSpan g96 g95), .group h4 h12 h8, apart_last (by decide)⟩

theorem M.item (hb : Below input k) (hi : k ≤ i) (h : M input 124 i j) :
    ∃ e q t, Span input i j t ∧ WrittenItem e q t ∧ Apart' input j t := by
  obtain ⟨a, h1, h2⟩ := (h.seq g124).one
  obtain ⟨o, ho, h1⟩ := h1.choice g123
  obtain ⟨e, t, h3, h4, h5⟩ := h1.primary hb hi (by simpa using ho)
  rcases h2.maybe with h2 | ⟨b, h6, h7⟩
  · obtain rfl := h2.nil
    exact ⟨e, none, t, h3, .once h4, h5⟩
  · obtain rfl := h7.nil
    obtain ⟨q, u, h8, h9, v, c, rfl, h10⟩ := h6.quantifier
    refine ⟨e, some q, _, h3.trans h8, .many h4 h9, ?_⟩
    rw [← List.append_assoc]
    exact apart_last h10

theorem St.items (hb : Below input k) (h : St input 125 i j) : ∀ {a : Nat} {e : DExpr} {q : Option Quantifier} {t : List Rune},
    k ≤ a → Span input a i t → WrittenItem e q t → Apart' input i t → ∃ items u, Span input a j u ∧ WrittenItems items u := by
  induction h with
  | stop => exact fun _ h1 h2 _ => ⟨_, _, h1, .one h2⟩
  | @step i l j h _ ih =>
    intro a e q t hka h1 h2 h3
    obtain ⟨g, b, c, h4, h5, h6, h7⟩ := (h.seq g125).inside (by decide)
    obtain rfl := h7.nil
    have hkb : k ≤ b := by have := h1.ge; have := h4.ge; omega
    obtain ⟨e', q', t', h8, h9, h10⟩ := h6.item hb hkb
    obtain ⟨items, u, h11, h12⟩ := ih hkb h8 h9 h10
    refine ⟨_, _, (h1.trans h4).trans h11, .cons h2 h5 h12 ?_⟩
    rintro rfl ⟨⟨x, hx, hxs⟩, y, hy, hys⟩
    have hib : i = b := by have := h4.len; simpa using this
    subst hib
    cases u with
    | nil => cases hy
    | cons z u =>
      obtain rfl : z = y := by simpa using hy
      rw [h3 x hx hxs z h11.head] at hys
      cases hys

/-- A sequence with one item without a quantifier is the item itself. -/
theorem items_option {items : DItems} {t : List Rune} (h : WrittenItems items t) : ∃ e, WrittenOption e t := by
  match items, h with
  | _, .one (e := e) (q := none) (.once h) => exact ⟨e, .primary h⟩
  | .cons e (some q) .nil, h => exact ⟨_, .seq h trivial⟩
  | .cons e q (.cons e' q' r), h => exact ⟨_, .seq h trivial⟩

theorem M.sequence (hb : Below input k) (hi : k ≤ i) (h : M input 126 i j) : ∃ e t, Span input i j t ∧ WrittenOption e t := by
  obtain ⟨a, h1, h2⟩ := (h.seq g126).one
  obtain ⟨b, h3, h4⟩ := h2.star (by decide)
  obtain rfl := h4.nil
  obtain ⟨e, q, t, h5, h6, h7⟩ := h1.item hb hi
  obtain ⟨items, u, h8, h9⟩ := St.items hb h3 hi h5 h6 h7
  obtain ⟨e, h10⟩ := items_option h9
  exact ⟨e, u, h8, h10⟩

theorem M.option (hb : Below input k) (hi : k ≤ i) (h : M input p i j) (hp : p = 89 ∨ p = 92 ∨ p = 97 ∨ p = 126) :
    ∃ e t, Span input i j t ∧ WrittenOption e t := by
  have prim : p = 89 ∨ p = 92 ∨ p = 97 → ∃ e t, Span input i j t ∧ WrittenOption e t := fun hp => by
    obtain ⟨e, t, h1, h2, -⟩ := h.primary hb hi hp
    exact ⟨e, t, h1, .primary h2⟩
  rcases hp with hp | hp | hp | rfl
  · exact prim (.inl hp)
  · exact prim (.inr (.inl hp))
  · exact prim (.inr (.inr hp))
  · exact h.sequence hb hi

theorem M.option127 (hb : Below input k) (hi : k ≤ i) (h : M input 127 i j) : ∃ e t, Span input i j t ∧ WrittenOption e t := by
  obtain ⟨o, ho, h⟩ := h.choice g127
  exact h.option hb hi (by simpa using ho)

/-- The options behind the first one. -/
theorem St.options (hb : Below input k) (h : St input 131 i j) : ∀ {a : Nat}, k ≤ a → M input 130 a i →
    ∃ os g u, Span input a j (124 :: g ++ u) ∧ Layout g ∧ WrittenOptions os u := by
  have first : ∀ {a i}, k ≤ a → M input 130 a i → ∃ e g t, Span input a i (124 :: g ++ t) ∧ Layout g ∧ WrittenOption e t := by
    intro a i hka h
    obtain ⟨b, h1, h2⟩ := (h.seq g130).one
    obtain ⟨g, c, d, h3, h4, h5, h6⟩ := h2.inside (by decide)
    obtain rfl := h6.nil
    have hkc : k ≤ c := by have := (h1.lt (by decide)).1; have := h3.ge; omega
    obtain ⟨e, t, h7, h8⟩ := h5.option127 hb hkc
    exact ⟨e, g, t, ((h1.theSpan g129 g128).trans h3).trans h7, h4, h8⟩
  induction h with
  | stop =>
    intro a hka h1
    obtain ⟨e, g, t, h2, h3, h4⟩ := first hka h1
    exact ⟨_, g, t, h2, h3, .one h4⟩
  | @step i l j h _ ih =>
    intro a hka h1
    obtain ⟨e, g, t, h2, h3, h4⟩ := first hka h1
    obtain ⟨g', b, c, h5, h6, h7, h8⟩ := (h.seq g131).inside (by decide)
    obtain rfl := h8.nil
    obtain ⟨os, g1, u, h9, h10, h11⟩ := ih (by have := h2.ge; have := h5.ge; omega) h7
    refine ⟨_, g, t ++ g' ++ 124 :: g1 ++ u, ?_, h3, .cons h4 h6 h10 h11⟩
    have := (h2.trans h5).trans h9
    simpa using this

theorem M.expr (hb : Below input k) (hi : k ≤ i) (h : M input 133 i j) : ∃ e t, Span input i j t ∧ WrittenExpr e t := by
  obtain ⟨o, ho, h⟩ := h.choice g133
  have opt : o = 89 ∨ o = 92 ∨ o = 97 ∨ o = 126 → ∃ e t, Span input i j t ∧ WrittenExpr e t := fun ho => by
    obtain ⟨e, t, h1, h2⟩ := h.option hb hi ho
    exact ⟨e, t, h1, .option h2⟩
  simp only [List.mem_cons, List.not_mem_nil, or_false] at ho
  rcases ho with ho | ho | ho | ho | rfl
  · exact opt (.inl ho)
  · exact opt (.inr (.inl ho))
  · exact opt (.inr (.inr (.inl ho)))
  · exact opt (.inr (.inr (.inr ho)))
  · obtain ⟨a, h1, h2⟩ := (h.seq g132).one
    obtain ⟨g, b, c, h3, h4, h5, h6⟩ := h2.inside (by decide)
    obtain ⟨d, h7, h8⟩ := h6.star (by decide)
    obtain rfl := h8.nil
    obtain ⟨e, t, h9, h10⟩ := h1.option127 hb hi
    obtain ⟨os, g', u, h11, h12, h13⟩ := St.options hb h7 (by have := h9.ge; have := h3.ge; omega) h5
    refine ⟨_, t ++ g ++ 124 :: g' ++ u, ?_, .choice h10 h4 h12 h13⟩
    have := (h9.trans h3).trans h11
    simpa using this

theorem below : ∀ (d k : Nat), input.length - k ≤ d → Below input k
  | 0, k, hd, i, j, hi, h => by have := h.lt (by decide); omega
  | d + 1, k, hd, i, j, hi, h => by
    have := h.lt (by decide)
    exact h.expr (below d i (by omega)) (Nat.le_refl _)

theorem M.expression (h : M input 133 i j) : ∃ e t, Span input i j t ∧ WrittenExpr e t :=
  h.expr (below _ i (Nat.le_refl _)) (Nat.le_refl _)

/-! ### Definitions -/

/-- Characters one after the other. -/
theorem IM.lits : ∀ {l : List (Ptr × Rune)} {i : Nat}, (∀ x ∈ l, selfEnv.grammar x.1 = some ⟨runes "", true, .char false [x.2] []⟩) → i ≤ input.length →
    IM input (l.map fun x => (x.1, 1, 1)) i j → Span input i j (l.map (·.2))
  | [], i, _, hi, h => by obtain rfl := h.nil; exact .refl hi
  | x :: l, i, hx, hi, h => by
    obtain ⟨k, h1, h2⟩ := h.one
    obtain ⟨c, h3, h4, rfl⟩ := h1.char (hx x List.mem_cons_self)
    rw [matchChar_one h4] at h3
    have hb := (Span.one h3).le
    exact .cons h3 (IM.lits (fun y hy => hx y (List.mem_cons_of_mem _ hy)) hb h2)

theorem M.flag (h : M input 170 i j) : ∃ f ∈ flagNames, Span input i j f := by
  have hle : i ≤ input.length := by have := h.lt (by decide); omega
  obtain ⟨o, ho, h⟩ := h.choice g170
  have lits : ∀ {n : Name} {l : List (Ptr × Rune)}, selfEnv.grammar o = some ⟨n, false, .seq (l.map fun x => (x.1, 1, 1))⟩ →
      (∀ x ∈ l, selfEnv.grammar x.1 = some ⟨runes "", true, .char false [x.2] []⟩) → l.map (·.2) ∈ flagNames → ∃ f ∈ flagNames, Span input i j f :=
    fun hg hl hf => ⟨_, hf, IM.lits hl hle (h.seq hg)⟩
  simp only [List.mem_cons, List.not_mem_nil, or_false] at ho
  rcases ho with rfl | rfl | rfl | rfl | rfl | rfl | rfl
  · refine lits (l := [(134, 97), (135, 108), (136, 105), (137, 97), (138, 115)]) g139 ?_ (by decide)
    intro x hx; simp only [List.mem_cons, List.not_mem_nil, or_false] at hx
    rcases hx with rfl | rfl | rfl | rfl | rfl <;> rfl
  · refine lits (l := [(140, 119), (141, 115)]) g142 ?_ (by decide)
    intro x hx; simp only [List.mem_cons, List.not_mem_nil, or_false] at hx
    rcases hx with rfl | rfl <;> rfl
  · refine lits (l := [(143, 110), (144, 111), (145, 119), (146, 115)]) g147 ?_ (by decide)
    intro x hx; simp only [List.mem_cons, List.not_mem_nil, or_false] at hx
    rcases hx with rfl | rfl | rfl | rfl <;> rfl
  · refine lits (l := [(148, 107), (149, 119)]) g150 ?_ (by decide)
    intro x hx; simp only [List.mem_cons, List.not_mem_nil, or_false] at hx
    rcases hx with rfl | rfl <;> rfl
  · refine lits (l := [(151, 110), (152, 111), (153, 107), (154, 119)]) g155 ?_ (by decide)
    intro x hx; simp only [List.mem_cons, List.not_mem_nil, or_false] at hx
    rcases hx with rfl | rfl | rfl | rfl <;> rfl
  · refine lits (l := [(156, 102), (157, 97), (158, 105), (159, 108), (160, 112), (161, 97), (162, 115), (163, 115)]) g164 ?_ (by decide)
    intro x hx; simp only [List.mem_cons, List.not_mem_nil, or_false] at hx
    rcases hx with rfl | rfl | rfl | rfl | rfl | rfl | rfl | rfl <;> rfl
  · refine lits (l := [(165, 114), (166, 111), (167, 111), (168, 116)]) g169 ?_ (by decide)
    intro x hx; simp only [List.mem_cons, List.not_mem_nil, or_false] at hx
    rcases hx with rfl | rfl | rfl | rfl <;> rfl

theorem St.flags (h : St input 173 i j) : i ≤ input.length →
    ∃ fs : List Name, (∀ f ∈ fs, f ∈ flagNames) ∧ Span input i j (fs.flatMap fun f => 58 :: f) := by
  induction h with
  | stop => exact fun hi => ⟨[], by simp, .refl hi⟩
  | step h _ ih =>
    intro _
    obtain ⟨fs, h1, h2⟩ := ih (h.lt (by decide)).2
    obtain ⟨a, h3, h4⟩ := (h.seq g173).one
    obtain ⟨b, h5, h6⟩ := h4.one
    obtain rfl := h6.nil
    obtain ⟨f, h7, h8⟩ := h5.flag
    refine ⟨f :: fs, fun x hx => (List.mem_cons.1 hx).elim (fun e => e ▸ h7) (h1 x), ?_⟩
    rw [List.flatMap_cons]
    exact ((h3.theSpan g172 g171).trans h8).trans h2

theorem M.definition (h : M input 177 i j) : ∃ d t, Span input i j t ∧ WrittenDefinition d t := by
  obtain ⟨a, h1, h2⟩ := (h.seq g177).one
  obtain ⟨g, b, c, h3, h4, h5, h6⟩ := h2.inside (by decide)
  obtain ⟨g', d, e, h7, h8, h9, h10⟩ := h6.inside (by decide)
  obtain rfl := h10.nil
  obtain ⟨x, h11, h12⟩ := (h1.seq g174).one
  obtain ⟨y, h13, h14⟩ := h12.star (by decide)
  obtain rfl := h14.nil
  obtain ⟨n, h15, h16, -⟩ := h11.symbol
  obtain ⟨fs, h17, h18⟩ := St.flags h13 h15.le
  obtain ⟨e, t, h19, h20⟩ := h9.expression
  refine ⟨_, _, ?_, .mk h16 h17 h4 h8 h20⟩
  have := ((((h15.trans h18).trans h3).trans (h5.theSpan g176 g175)).trans h7).trans h19
  simpa using this

/-! ### Documents -/

theorem between_append {a b : Nat} {t u : List Rune} (h : Between a t) (h' : Between b u) : Between (a + b) (t ++ u) := by
  induction h with
  | layout hg =>
    rw [Nat.zero_add]
    cases h' with
    | layout hg' => exact .layout (layout_append hg hg')
    | semicolon hg' h => have := Between.semicolon (layout_append hg hg') h; simpa using this
  | @semicolon k g t hg _ ih =>
    have := Between.semicolon hg ih
    rw [Nat.add_right_comm]
    simpa using this

/-- Whitespace, comments and semicolons, possibly at the end of the document. -/
def Tail (input : List Rune) (a i j : Nat) : Prop :=
  ∃ t e, Span input i j (t ++ e) ∧ Between a t ∧ LastComment e ∧ (e ≠ [] → j = input.length)

theorem Tail.refl (h : i ≤ input.length) : Tail input 0 i i := ⟨[], [], .refl h, .layout .nil, .none, fun h => absurd rfl h⟩

theorem Tail.trans {a b : Nat} (h : Tail input a i j) (h' : Tail input b j k) : Tail input (a + b) i k := by
  obtain ⟨t, e, h1, h2, h3, h4⟩ := h
  obtain ⟨t', e', h1', h2', h3', h4'⟩ := h'
  by_cases he : e = []
  · subst he
    refine ⟨t ++ t', e', ?_, between_append h2 h2', h3', h4'⟩
    have := h1.trans h1'
    simpa using this
  · have hj := h4 he
    have hk : j = k := by have := h1'.ge; have := h1'.le; omega
    subst hk
    have hs := h1'.same
    simp only [List.append_eq_nil_iff] at hs
    obtain ⟨rfl, rfl⟩ := hs
    have hb : b = 0 := by
      generalize hx : ([] : List Rune) = x at h2'
      cases h2' with
      | layout => rfl
      | semicolon => simp at hx
    subst hb
    exact ⟨t, e, h1, h2, h3, h4⟩

theorem Tail.ge {a : Nat} (h : Tail input a i j) : i ≤ j ∧ j ≤ input.length := by
  obtain ⟨t, e, h1, -⟩ := h
  exact ⟨h1.ge, h1.le⟩

theorem Tail.between {a : Nat} (h : Tail input a i j) (hj : j < input.length) : ∃ t, Span input i j t ∧ Between a t := by
  obtain ⟨t, e, h1, h2, h3, h4⟩ := h
  have : e = [] := Classical.byContradiction fun he => by have := h4 he; omega
  subst this
  exact ⟨t, by simpa using h1, h2⟩

theorem St.tail (h : St input 194 i j) (hi : i ≤ input.length) : Tail input 0 i j := by
  obtain ⟨g, e, h1, h2, h3, h4⟩ := St.layout h hi
  exact ⟨g, e, h1, .layout h2, h3, h4⟩

theorem M.semi {n m : Name} {al al' : Bool} (h : M input p i j)
    (hg : selfEnv.grammar p = some ⟨n, al, .seq [(q, 1, 1)]⟩) (hq : selfEnv.grammar q = some ⟨m, al', .char false [59] []⟩) : Tail input 1 i j :=
  ⟨[59], [], h.theSpan hg hq, .semicolon (g := []) .nil (.layout .nil), .none, fun h => absurd rfl h⟩

/-- Layout and a semicolon, any number of times. -/
theorem St.semis {x : Ptr} {n m l : Name} {al al' al'' : Bool} (hx : selfEnv.grammar p = some ⟨l, al'', .seq [(194, 0, -1), (x, 1, 1)]⟩)
    (hg : selfEnv.grammar x = some ⟨n, al, .seq [(q, 1, 1)]⟩) (hq : selfEnv.grammar q = some ⟨m, al', .char false [59] []⟩)
    (hop : ordinary p = true)
    (h : St input p i j) : i ≤ input.length → ∃ a, Tail input a i j := by
  induction h with
  | stop => exact fun hi => ⟨0, .refl hi⟩
  | step h _ ih =>
    intro hi
    obtain ⟨a, h1⟩ := ih (h.lt hop).2
    obtain ⟨b, h2, h3⟩ := (h.seq hx).star (by decide)
    obtain ⟨c, h4, h5⟩ := h3.one
    obtain rfl := h5.nil
    exact ⟨_, ((St.tail h2 hi).trans (h4.semi hg hq)).trans h1⟩

/-- A further definition, with the semicolons in front of it. -/
theorem M.next (h : M input 181 i j) (hi : i ≤ input.length) : ∃ a b, Tail input (a + 1) i b ∧ M input 177 b j := by
  obtain ⟨a, h1, h2⟩ := (h.seq g181).one
  obtain ⟨b, h3, h4⟩ := h2.star (by decide)
  obtain ⟨c, h5, h6⟩ := h4.star (by decide)
  obtain ⟨d, h7, h8⟩ := h6.one
  obtain rfl := h8.nil
  have t1 := h1.semi g179 g178
  obtain ⟨n, t2⟩ := St.semis g180 g179 g178 (by decide) h3 t1.ge.2
  have := (t1.trans t2).trans (St.tail h5 t2.ge.2)
  exact ⟨n, c, by rw [Nat.add_comm]; exact this, h7⟩

/-- Definitions with semicolons between them. -/
inductive Defs (input : List Rune) : Nat → Nat → Prop
  | one {i j : Nat} : M input 177 i j → Defs input i j
  | cons {i j k l a : Nat} : M input 177 i k → Tail input (a + 1) k l → Defs input l j → Defs input i j

theorem St.defs (h : St input 182 i j) : ∀ {a : Nat}, M input 177 a i → Defs input a j := by
  induction h with
  | stop => exact fun h => .one h
  | step h _ ih =>
    intro a h1
    obtain ⟨b, h2, h3⟩ := (h.seq g182).star (by decide)
    obtain ⟨c, h4, h5⟩ := h3.one
    obtain rfl := h5.nil
    have t1 := St.tail h2 (h1.lt (by decide)).2
    obtain ⟨n, d, t2, h6⟩ := h4.next t1.ge.2
    have := t1.trans t2
    rw [Nat.zero_add] at this
    exact .cons h1 this (ih h6)

theorem M.definitions (h : M input 184 i j) : Defs input i j := by
  obtain ⟨a, h1, h2⟩ := (h.seq g184).one
  rcases h2.maybe with h2 | ⟨b, h3, h4⟩
  · obtain rfl := h2.nil
    exact .one h1
  · obtain rfl := h4.nil
    obtain ⟨c, h5, h6⟩ := (h3.seq g183).star (by decide)
    obtain ⟨d, h7, h8⟩ := h6.one
    obtain ⟨e, h9, h10⟩ := h8.star (by decide)
    obtain rfl := h10.nil
    have t1 := St.tail h5 (h1.lt (by decide)).2
    obtain ⟨n, x, t2, h11⟩ := h7.next t1.ge.2
    have := t1.trans t2
    rw [Nat.zero_add] at this
    exact .cons h1 this (St.defs h9 h11)

theorem Defs.start (h : Defs input i j) : i < input.length := by
  cases h with
  | one h => have := h.lt (by decide); omega
  | cons h => have := h.lt (by decide); omega

theorem Defs.written (h : Defs input i j) : ∃ doc t, Span input i j t ∧ WrittenDefinitions doc t := by
  induction h with
  | one h =>
    obtain ⟨d, t, h1, h2⟩ := h.definition
    exact ⟨_, t, h1, .one h2⟩
  | cons h h1 h2 ih =>
    obtain ⟨d, t, h3, h4⟩ := h.definition
    obtain ⟨doc, u, h5, h6⟩ := ih
    obtain ⟨s, h7, h8⟩ := h1.between h2.start
    exact ⟨_, _, (h3.trans h7).trans h5, .cons h4 h8 h6⟩

/-- The semicolons behind the definitions. -/
theorem M.trailing (h : M input 192 i j) (hi : i ≤ input.length) : ∃ a, Tail input a i j := by
  obtain ⟨a, h1, h2⟩ := (h.seq g192).star (by decide)
  obtain ⟨b, h3, h4⟩ := h2.one
  obtain ⟨c, h5, h6⟩ := h4.star (by decide)
  obtain rfl := h6.nil
  have t := (St.tail h1 hi).trans (h3.semi g188 g187)
  obtain ⟨n, t2⟩ := St.semis g191 g188 g187 (by decide) h5 t.ge.2
  exact ⟨_, t.trans t2⟩

/-- The semicolons in front of the definitions. -/
theorem M.leading (h : M input 190 i j) : ∃ a, Tail input a i j := by
  obtain ⟨a, h1, h2⟩ := (h.seq g190).one
  obtain ⟨c, h3, h4⟩ := h2.star (by decide)
  obtain rfl := h4.nil
  have t := h1.semi g186 g185
  obtain ⟨n, t2⟩ := St.semis g189 g186 g185 (by decide) h3 t.ge.2
  exact ⟨_, t.trans t2⟩

/-- A text that is accepted is a notation of a document. -/
theorem M.document (h : M input 196 0 input.length) : ∃ doc, WrittenDocument doc input := by
  obtain ⟨a, h1, h2⟩ := (h.seq g196).star (by decide)
  obtain ⟨b, h3, h4⟩ := h2.one
  obtain ⟨c, h5, h6⟩ := h4.star (by decide)
  obtain rfl := h6.nil
  have t1 := St.tail h1 (Nat.zero_le _)
  -- semicolons and layout
  have lead : ∃ n c, Tail input n 0 c ∧ IM input [(184, 0, 1), (192, 0, 1)] c b := by
    rcases (h3.seq g195).maybe with h7 | ⟨d, h7, h8⟩
    · obtain ⟨c, h8, h9⟩ := h7.star (by decide)
      exact ⟨_, c, t1.trans (St.tail h8 t1.ge.2), h9⟩
    · obtain ⟨c, h9, h10⟩ := h8.star (by decide)
      obtain ⟨n, t2⟩ := h7.leading
      exact ⟨_, c, (t1.trans t2).trans (St.tail h9 t2.ge.2), h10⟩
  obtain ⟨n, c, t2, h7⟩ := lead
  -- the rest behind the definitions
  have rest : ∀ {d}, IM input [(192, 0, 1)] d b → d ≤ input.length → ∃ m, Tail input m d input.length := by
    intro d h hd
    rcases h.maybe with h | ⟨e, h8, h9⟩
    · obtain rfl := h.nil
      exact ⟨_, St.tail h5 hd⟩
    · obtain rfl := h9.nil
      obtain ⟨m, t3⟩ := h8.trailing hd
      exact ⟨_, t3.trans (St.tail h5 t3.ge.2)⟩
  rcases h7.maybe with h7 | ⟨d, h8, h9⟩
  · obtain ⟨m, t3⟩ := rest h7 t2.ge.2
    obtain ⟨t, e, h10, h11, h12, -⟩ := t2.trans t3
    rw [← h10.all]
    exact ⟨[], .empty h11 h12⟩
  · have hd := h8.definitions
    obtain ⟨doc, u, h10, h11⟩ := hd.written
    obtain ⟨t, h12, h13⟩ := t2.between hd.start
    obtain ⟨m, t3⟩ := rest h9 h10.le
    obtain ⟨t', e, h14, h15, h16, -⟩ := t3
    have := (h12.trans h10).trans h14
    rw [← List.append_assoc] at this
    rw [← this.all]
    exact ⟨doc, .definitions h13 h11 h15 h16⟩

end SelfG
end Treerack
