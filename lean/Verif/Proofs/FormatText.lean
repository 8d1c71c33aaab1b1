import Verif.Proofs.Alike
import Verif.Proofs.WsCalls
import Verif.Proofs.GoLex
import Verif.Model.Format

/-
The texts of characters, classes and quantifiers made by `format` are notations.
-/

namespace Treerack
open Spec

theorem escapeChar_banned {c : Rune} (h : c ∈ charClassBanned) : ∃ x, escapeChar charClassEscape c = [92, x] ∧ Denotes x c := by
  have : c = 92 ∨ c = 91 ∨ c = 93 ∨ c = 94 ∨ c = 45 ∨ c = 8 ∨ c = 12 ∨ c = 10 ∨ c = 13 ∨ c = 9 ∨ c = 11 := by
    simpa [charClassBanned, runes] using h
  rcases this with rfl | rfl | rfl | rfl | rfl | rfl | rfl | rfl | rfl | rfl | rfl <;>
    exact ⟨_, rfl, by simp [Denotes, controls]⟩

theorem classEsc_cons (c : Rune) (cs : List Rune) : classEsc (c :: cs) = classEsc [c] ++ classEsc cs := by
  simp [classEsc, escape]

theorem classEsc_char {special : List Rune} {c : Rune} (h : c ∉ charClassBanned → c ∉ special) : WrittenChar special c (classEsc [c]) := by
  by_cases hb : c ∈ charClassBanned
  · obtain ⟨x, h1, h2⟩ := escapeChar_banned hb
    have : classEsc [c] = [92, x] := by
      simp [classEsc, escape, runesContain, hb, h1]
    rw [this]
    exact .escaped h2
  · have : classEsc [c] = [c] := by
      simp [classEsc, escape, runesContain, hb]
    rw [this]
    exact .plain (h hb)

theorem banned_class {c : Rune} (h : c ∉ charClassBanned) : c ∉ classSpecial := by
  intro hc
  apply h
  have : ∀ x ∈ classSpecial, x ∈ charClassBanned := by decide
  exact this c hc

theorem classEsc_quoted : ∀ {cs : List Rune}, 34 ∉ cs → WrittenChars cs (classEsc cs)
  | [], _ => .nil
  | c :: cs, h => by
    rw [classEsc_cons]
    refine .cons (classEsc_char fun hb hc => ?_) (classEsc_quoted fun hc => h (List.mem_cons_of_mem _ hc))
    simp only [quoteSpecial, List.mem_cons, List.not_mem_nil, or_false] at hc
    rcases hc with rfl | rfl
    · exact hb (by decide)
    · exact h (List.mem_cons_self ..)

theorem classEsc_members : ∀ (cs : List Rune) (rs : List (Rune × Rune)),
    WrittenMembers cs rs (classEsc cs ++ rs.flatMap fun r => classEsc [r.1] ++ runes "-" ++ classEsc [r.2])
  | c :: cs, rs => by
    rw [classEsc_cons, List.append_assoc]
    exact .char (classEsc_char banned_class) (classEsc_members cs rs)
  | [], [] => .nil
  | [], r :: rs => by
    have h := WrittenMembers.range (classEsc_char (c := r.1) banned_class) (classEsc_char (c := r.2) banned_class) (classEsc_members [] rs)
    have : classEsc [] = [] := rfl
    rw [this, List.nil_append] at h ⊢
    rw [List.flatMap_cons]
    simpa [runes] using h

theorem formatChar_written {b : Bool} (neg : Bool) (cs : List Rune) (rs : List (Rune × Rune)) :
    ∃ e, WrittenPrimary e (formatChar neg cs rs) ∧ Alike b e (.class_ neg cs rs) ∧ DExpr.NotSeq e := by
  unfold formatChar
  split
  · rename_i h
    simp only [Bool.and_eq_true, List.isEmpty_iff] at h
    obtain ⟨⟨rfl, rfl⟩, rfl⟩ := h
    exact ⟨.any, .any, .any, trivial⟩
  · refine ⟨.class_ neg cs rs, ?_, .refl _, trivial⟩
    have h := classEsc_members cs rs
    cases neg with
    | false =>
      have := WrittenPrimary.class_ h
      simpa [runes] using this
    | true =>
      have := WrittenPrimary.classNot h
      simpa [runes] using this

theorem itoa_written (n : Nat) : WrittenNumber n (itoa n) :=
  ⟨itoa_ne_nil n, fun _ h => itoa_digit h, (decimal_itoa n).symm⟩

/-! ### Quantifiers -/

theorem normalize_positive (name : Name) (n m : Nat) (h : 1 ≤ m) :
    normalizeItemRange { name := name, min := n, max := m } = { name := name, min := n, max := m } := by
  unfold normalizeItemRange
  have h1 : ((m : Int) == 0) = false := by simp; omega
  have h2 : ¬ (m : Int) ≤ 0 := by omega
  simp only [h1, Bool.and_false, Bool.false_eq_true, if_false]
  split
  · rename_i h3
    have : n = 0 := by omega
    subst this
    simp [h2]
  · simp [h2]

theorem normalize_open (name : Name) (n : Nat) :
    normalizeItemRange { name := name, min := n, max := -1 } = { name := name, min := n, max := -1 } := by
  unfold normalizeItemRange
  simp only [Int.reduceNeg, Int.reduceBEq, Bool.and_false, Bool.false_eq_true, if_false]
  split
  · rename_i h3
    have : n = 0 := by omega
    subst this
    simp
  · simp

theorem format_once (name : Name) : Syntax.formatQuantifier { name := name, min := 1, max := 1 } = [] := rfl

theorem format_exactly (name : Name) (n : Nat) (h : 2 ≤ n) :
    Syntax.formatQuantifier { name := name, min := n, max := n } = 123 :: itoa n ++ [125] := by
  unfold Syntax.formatQuantifier
  have h1 : ((n : Int) == 1) = false := by simp; omega
  have h2 : ((n : Int) == 0) = false := by simp; omega
  have h3 : ¬ (n : Int) < 0 := by omega
  simp [bne, h1, h2, h3, runes]

theorem format_optional (name : Name) : Syntax.formatQuantifier { name := name, min := 0, max := 1 } = [63] := rfl

theorem format_atMost (name : Name) (m : Nat) (h : 2 ≤ m) :
    Syntax.formatQuantifier { name := name, min := 0, max := m } = 123 :: 44 :: itoa m ++ [125] := by
  unfold Syntax.formatQuantifier
  have h1 : ((m : Int) == 1) = false := by simp; omega
  have h2 : ((0 : Int) == m) = false := by simp; omega
  have h3 : ¬ (m : Int) < 0 := by omega
  have h4 : (m : Int) ≥ 0 := by omega
  simp [bne, h1, h2, h3, runes]

theorem format_between (name : Name) (n m : Nat) (h : 1 ≤ n) (h' : n < m) :
    Syntax.formatQuantifier { name := name, min := n, max := m } = 123 :: itoa n ++ 44 :: itoa m ++ [125] := by
  unfold Syntax.formatQuantifier
  have h1 : ((m : Int) == 1) = false := by simp; omega
  have h2 : ((n : Int) == m) = false := by simp; omega
  have h3 : ¬ (m : Int) < 0 := by omega
  have h4 : (m : Int) ≥ 0 := by omega
  have h5 : ((n : Int) == 0) = false := by simp; omega
  have h6 : 0 < n := h
  simp [bne, h1, h2, h3, h5, h6, runes]

theorem format_many (name : Name) : Syntax.formatQuantifier { name := name, min := 0, max := -1 } = [42] := rfl

theorem format_some (name : Name) : Syntax.formatQuantifier { name := name, min := 1, max := -1 } = [43] := rfl

theorem format_atLeast (name : Name) (n : Nat) (h : 2 ≤ n) :
    Syntax.formatQuantifier { name := name, min := n, max := -1 } = 123 :: itoa n ++ [44, 125] := by
  unfold Syntax.formatQuantifier
  have h1 : ((n : Int) == 1) = false := by simp; omega
  have h2 : ((n : Int) == -1) = false := by simp
  have h5 : ((n : Int) == 0) = false := by simp; omega
  have h6 : 0 < n := by omega
  simp [bne, h1, h2, h5, h6, runes]

/-- The text of a quantifier is one with the same meaning; it is empty for exactly one occurrence. -/
theorem formatQuantifier_spec {q : Option Quantifier} (hq : ∀ x, q = some x → x.Sound) (name : Name) :
    (Syntax.formatQuantifier (normalizeItemRange { name := name, min := (Spec.itemRange q).1, max := (Spec.itemRange q).2 }) = [] ∧
      ∀ k, allowed q k ↔ k = 1) ∨
    ∃ q', WrittenQuantifier q'
        (Syntax.formatQuantifier (normalizeItemRange { name := name, min := (Spec.itemRange q).1, max := (Spec.itemRange q).2 })) ∧
      ∀ k, allowed (some q') k ↔ allowed q k := by
  have exactly : ∀ n : Nat, 1 ≤ n → (∀ k, allowed q k ↔ k = n) →
      (Syntax.formatQuantifier (normalizeItemRange { name := name, min := n, max := n }) = [] ∧ ∀ k, allowed q k ↔ k = 1) ∨
      ∃ q', WrittenQuantifier q' (Syntax.formatQuantifier (normalizeItemRange { name := name, min := n, max := n })) ∧
        ∀ k, allowed (some q') k ↔ allowed q k := by
    intro n hn ha
    rw [normalize_positive name n n hn]
    by_cases h1 : n = 1
    · subst h1; exact .inl ⟨rfl, ha⟩
    · right
      rw [format_exactly name n (by omega)]
      have := WrittenQuantifier.exactly (g := []) (g' := []) .nil (itoa_written n) .nil
      exact ⟨.exactly n, by simpa using this, fun k => (ha k).symm⟩
  have atMost : ∀ m : Nat, 1 ≤ m → (∀ k, allowed q k ↔ k ≤ m) →
      ∃ q', WrittenQuantifier q' (Syntax.formatQuantifier (normalizeItemRange { name := name, min := 0, max := m })) ∧
        ∀ k, allowed (some q') k ↔ allowed q k := by
    intro m hm ha
    have := normalize_positive name 0 m hm
    rw [Int.natCast_zero] at this
    rw [this]
    by_cases h1 : m = 1
    · subst h1
      exact ⟨.zeroOrOne, .zeroOrOne, fun k => (ha k).symm⟩
    · rw [format_atMost name m (by omega)]
      have := WrittenQuantifier.atMost (g := []) (g2 := []) (g3 := []) .nil .nil (itoa_written m) .nil
      exact ⟨.atMost m, by simpa using this, fun k => (ha k).symm⟩
  have atLeast : ∀ n : Nat, (∀ k, allowed q k ↔ n ≤ k) →
      ∃ q', WrittenQuantifier q' (Syntax.formatQuantifier (normalizeItemRange { name := name, min := n, max := -1 })) ∧
        ∀ k, allowed (some q') k ↔ allowed q k := by
    intro n ha
    rw [normalize_open]
    by_cases h0 : n = 0
    · subst h0
      exact ⟨.zeroOrMore, .zeroOrMore, fun k => by rw [ha k]; simp [allowed, Quantifier.allows]⟩
    by_cases h1 : n = 1
    · subst h1
      exact ⟨.oneOrMore, .oneOrMore, fun k => (ha k).symm⟩
    · rw [format_atLeast name n (by omega)]
      have := WrittenQuantifier.atLeast (g := []) (g1 := []) (g2 := []) .nil (itoa_written n) .nil .nil
      exact ⟨.atLeast n, by simpa using this, fun k => (ha k).symm⟩
  cases q with
  | none => exact .inl ⟨rfl, fun k => Iff.rfl⟩
  | some q =>
    have hs := hq q rfl
    cases q with
    | exactly n => exact exactly n hs fun k => Iff.rfl
    | between n m =>
      obtain ⟨h1, h2⟩ : 1 ≤ m ∧ n ≤ m := hs
      by_cases h3 : n = m
      · subst h3
        exact exactly n h1 fun k => by simp only [allowed, Quantifier.allows]; omega
      · by_cases h4 : n = 0
        · subst h4
          exact .inr (atMost m h1 fun k => by simp [allowed, Quantifier.allows])
        · right
          refine ⟨.between n m, ?_, fun k => Iff.rfl⟩
          show WrittenQuantifier (.between n m) (Syntax.formatQuantifier (normalizeItemRange { name := name, min := n, max := m }))
          rw [normalize_positive name n m h1, format_between name n m (by omega) (by omega)]
          have := WrittenQuantifier.between (g := []) (g1 := []) (g2 := []) (g3 := []) .nil (itoa_written n) .nil .nil (itoa_written m) .nil
          simpa using this
    | atLeast n => exact .inr (atLeast n fun k => Iff.rfl)
    | atMost m => exact .inr (atMost m hs fun k => Iff.rfl)
    | unbounded => exact .inr (atLeast 0 fun k => by simp [allowed, Quantifier.allows])
    | oneOrMore => exact .inr (atLeast 1 fun k => Iff.rfl)
    | zeroOrMore => exact .inr (atLeast 0 fun k => by simp [allowed, Quantifier.allows])
    | zeroOrOne => exact .inr (atMost 1 (by decide) fun k => Iff.rfl)

end Treerack
