import Verif.Model.Print
import Verif.Spec.GoText
import Verif.Proofs.WsCalls

/-
The tokens of the generated text.
-/

namespace Treerack
open Spec

/-! ### Numbers -/

theorem digitChar_toNat {n : Nat} (h : n < 10) : (Nat.digitChar n).toNat = 48 + n := by
  have : ∀ m < 10, (Nat.digitChar m).toNat = 48 + m := by decide
  exact this n h

theorem itoa_rec (n : Nat) : itoa n = if n < 10 then [48 + n] else itoa (n / 10) ++ [48 + n % 10] := by
  unfold itoa
  rw [Nat.toDigits_eq_if (by decide)]
  split
  · rename_i h
    simp [digitChar_toNat h]
  · simp [digitChar_toNat (Nat.mod_lt n (by decide : 0 < 10))]

theorem itoa_ne_nil (n : Nat) : itoa n ≠ [] := by
  unfold itoa
  simp [Nat.toDigits_ne_nil]

theorem decimal_snoc (t : List Rune) (c : Rune) : decimal (t ++ [c]) = decimal t * 10 + (c - 48) := by
  simp [decimal]

theorem decimal_itoa (n : Nat) : decimal (itoa n) = n := by
  induction n using Nat.strongRecOn with
  | ind n ih =>
    rw [itoa_rec]
    split
    · simp only [decimal, List.foldl_cons, List.foldl_nil]; omega
    · rw [decimal_snoc, ih _ (by omega)]; omega

theorem itoa_head (n : Nat) : n < 10 ∨ (itoa n).head? ≠ some 48 := by
  induction n using Nat.strongRecOn with
  | ind n ih =>
    by_cases h : n < 10
    · exact Or.inl h
    · right
      rw [itoa_rec, if_neg h]
      have hne := itoa_ne_nil (n / 10)
      cases hi : itoa (n / 10) with
      | nil => exact absurd hi hne
      | cons c t =>
        rw [List.cons_append, List.head?_cons]
        rcases ih (n / 10) (by omega) with h1 | h1
        · rw [itoa_rec, if_pos h1] at hi
          cases hi
          intro hc
          have hc' : (48 + n / 10 : Nat) = 48 := Option.some.inj hc
          omega
        · rw [hi, List.head?_cons] at h1
          exact h1

theorem isDigit_iff {c : Nat} : isDigit c = true ↔ 48 ≤ c ∧ c ≤ 57 := by simp [isDigit]

theorem itoa_digits (n : Nat) : ∀ c ∈ itoa n, isDigit c = true := fun _ h => isDigit_iff.2 (itoa_digit h)

theorem isDecimal_itoa (n : Nat) : isDecimal (itoa n) = true := by
  unfold isDecimal
  rw [Bool.and_eq_true, Bool.and_eq_true]
  refine ⟨⟨by simpa using itoa_ne_nil n, by simpa using itoa_digits n⟩, ?_⟩
  rcases itoa_head n with h | h
  · rw [itoa_rec, if_pos h]; rfl
  · simp [h]

/-! ### Runs of the tokenizer -/

def lexRun : LexState → List Rune → Option (List Tok × LexState)
  | st, [] => some ([], st)
  | st, c :: cs => (lexStep st c).bind fun x => (lexRun x.2 cs).map fun y => (x.1 ++ y.1, y.2)

theorem lexRun_append : ∀ (a b : List Rune) (st : LexState), lexRun st (a ++ b) =
    (lexRun st a).bind fun x => (lexRun x.2 b).map fun y => (x.1 ++ y.1, y.2)
  | [], b, st => by simp [lexRun]
  | c :: a, b, st => by
    simp only [List.cons_append, lexRun]
    cases lexStep st c with
    | none => rfl
    | some x =>
      simp only [Option.bind_some]
      rw [lexRun_append a b]
      cases lexRun x.2 a with
      | none => rfl
      | some y =>
        simp only [Option.bind_some, Option.map_some]
        cases lexRun y.2 b <;> simp

theorem lex_of_run : ∀ (t : List Rune) (st : LexState) (ts : List Tok) (b : Bool),
    lexRun st t = some (ts, .between b) → lex st t = some ts
  | [], st, ts, b, h => by
    cases h
    rfl
  | c :: t, st, ts, b, h => by
    simp only [lex]
    simp only [lexRun] at h
    cases hs : lexStep st c with
    | none => rw [hs] at h; cases h
    | some x =>
      rw [hs] at h
      simp only [Option.bind_some] at h ⊢
      obtain ⟨⟨y1, y2⟩, h1, h2⟩ := Option.map_eq_some_iff.1 h
      cases h2
      rw [lex_of_run t x.2 y1 b h1]
      rfl

/-- The text consists of the tokens. -/
def Lexes (b : Bool) (t : List Rune) (ts : List Tok) (b' : Bool) : Prop :=
  lexRun (.between b) t = some (ts, .between b')

theorem Lexes.append {b b' b'' : Bool} {t t' : List Rune} {ts ts' : List Tok} (h : Lexes b t ts b') (h' : Lexes b' t' ts' b'') :
    Lexes b (t ++ t') (ts ++ ts') b'' := by
  unfold Lexes at *
  rw [lexRun_append, h, Option.bind_some, h', Option.map_some]

theorem Lexes.nil {b : Bool} : Lexes b [] [] b := rfl

theorem lexRun_word : ∀ (ds : List Rune) (t : List Rune), (∀ c ∈ ds, isDigit c = true) → lexRun (.word t) ds = some ([], .word (t ++ ds))
  | [], t, _ => by simp [lexRun]
  | c :: ds, t, h => by
    have h1 : lexStep (.word t) c = some ([], .word (t ++ [c])) := by
      simp only [lexStep, h c (by simp), Bool.or_true, if_true]
    rw [lexRun, h1, Option.bind_some, lexRun_word ds _ fun d hd => h d (by simp [hd])]
    simp

theorem lexRun_int : ∀ (ds : List Rune) (t : List Rune), (∀ c ∈ ds, isDigit c = true) → lexRun (.int t) ds = some ([], .int (t ++ ds))
  | [], t, _ => by simp [lexRun]
  | c :: ds, t, h => by
    have h1 : lexStep (.int t) c = some ([], .int (t ++ [c])) := by
      simp only [lexStep, h c (by simp), if_true]
    rw [lexRun, h1, Option.bind_some, lexRun_int ds _ fun d hd => h d (by simp [hd])]
    simp

theorem startToken_digit {b : Bool} {c : Nat} (h : isDigit c = true) : startToken b c = some ([], .int [c]) := by
  have h1 := isDigit_iff.1 h
  have hne : ∀ k : Nat, k < 48 ∨ 57 < k → c ≠ k := fun k hk => by omega
  have hl : isLetter c = false := by
    have h2 : decide (65 ≤ c) = false := decide_eq_false (by omega)
    have h3 : decide (97 ≤ c) = false := decide_eq_false (by omega)
    have h4 : (c == 95) = false := by simpa using hne 95 (by omega)
    simp only [isLetter, h2, h3, h4, Bool.false_and, Bool.or_self]
  unfold startToken
  rw [if_neg (hne 10 (by omega)), if_neg (not_or.2 ⟨hne 32 (by omega), not_or.2 ⟨hne 9 (by omega), hne 13 (by omega)⟩⟩), hl,
    if_neg (by simp), if_pos h]

theorem lexRun_itoa (b : Bool) (n : Nat) : lexRun (.between b) (itoa n) = some ([], .int (itoa n)) := by
  have hd := itoa_digits n
  cases hi : itoa n with
  | nil => exact absurd hi (itoa_ne_nil n)
  | cons c ds =>
    rw [hi] at hd
    rw [lexRun, lexStep, startToken_digit (hd c (by simp)), Option.bind_some, lexRun_int _ _ fun d h => hd d (by simp [h])]
    rfl

theorem lexRun_word_end {t : List Rune} {c : Rune} {cs : List Rune} (h : isLetter c = false) (h' : isDigit c = false) :
    lexRun (.word t) (c :: cs) = (lexRun (.between (t != runes "var" && t != runes "func")) (c :: cs)).map fun y => (.word t :: y.1, y.2) := by
  simp only [lexRun, lexStep, h, h', Bool.or_self, Bool.false_eq_true, if_false]
  cases startToken (t != runes "var" && t != runes "func") c with
  | none => rfl
  | some x =>
    simp only [Option.map_some, Option.bind_some]
    cases lexRun x.2 cs <;> rfl

theorem lexRun_int_end {t : List Rune} {c : Rune} {cs : List Rune} (h : isLetter c = false) (h' : isDigit c = false) (h2 : c ≠ 46)
    (ht : isDecimal t = true) :
    lexRun (.int t) (c :: cs) = (lexRun (.between true) (c :: cs)).map fun y => (.int (decimal t) :: y.1, y.2) := by
  have : (c == 46) = false := by simpa using h2
  simp only [lexRun, lexStep, h, h', this, ht, Bool.or_self, Bool.false_eq_true, if_false, if_true]
  cases startToken true c with
  | none => rfl
  | some x =>
    simp only [Option.map_some, Option.bind_some]
    cases lexRun x.2 cs <;> rfl

/-- A character that ends a number and a word. -/
def Ender (c : Rune) : Prop := isLetter c = false ∧ isDigit c = false ∧ c ≠ 46

instance (c : Rune) : Decidable (Ender c) := by unfold Ender; exact inferInstance

/-- A number in front of a fixed text. -/
theorem Lexes.number {b b' : Bool} {n : Nat} {c : Rune} {cs : List Rune} {ts : List Tok} (hc : Ender c)
    (h : Lexes true (c :: cs) ts b') : Lexes b (itoa n ++ c :: cs) (.int n :: ts) b' := by
  unfold Lexes at *
  rw [lexRun_append, lexRun_itoa, Option.bind_some, lexRun_int_end hc.1 hc.2.1 hc.2.2 (isDecimal_itoa n), h, decimal_itoa]
  rfl

/-- A variable in front of a fixed text. -/
theorem Lexes.variable {b b' : Bool} {n : Nat} {v c : Nat} {cs : List Rune} {ts : List Tok} (hv : isLetter v = true)
    (hc : isLetter c = false ∧ isDigit c = false)
    (h : ∀ e, Lexes e (c :: cs) ts b') : Lexes b (v :: itoa n ++ c :: cs) (.word (v :: itoa n) :: ts) b' := by
  have h0 : startToken b v = some ([], .word [v]) := by
    have hne : ∀ k, isLetter k = false → v ≠ k := by
      rintro k hk rfl
      rw [hv] at hk
      cases hk
    unfold startToken
    rw [if_neg (hne 10 (by decide)), if_neg (not_or.2 ⟨hne 32 (by decide), not_or.2 ⟨hne 9 (by decide), hne 13 (by decide)⟩⟩),
      if_pos hv]
  unfold Lexes at *
  rw [List.cons_append, lexRun, lexStep, h0, Option.bind_some, lexRun_append, lexRun_word _ _ (itoa_digits n), Option.bind_some,
    lexRun_word_end hc.1 hc.2, h]
  rfl

theorem lexRun_str : ∀ (n t : List Rune), Quotable n → lexRun (.str t) n = some ([], .str (t ++ n))
  | [], t, _ => by simp [lexRun]
  | c :: n, t, h => by
    obtain ⟨h1, h2, h3, h4, h5⟩ := h c (by simp)
    have hs : lexStep (.str t) c = some ([], .str (t ++ [c])) := by
      simp [lexStep, h1, h2, h3, h4, h5]
    rw [lexRun, hs, Option.bind_some, lexRun_str n _ fun d hd => h d (by simp [hd])]
    simp

/-- A text between quotes. -/
theorem Lexes.quoted {b b' : Bool} {n : List Rune} {cs : List Rune} {ts : List Tok} (hn : Quotable n)
    (h : Lexes true cs ts b') : Lexes b (34 :: n ++ 34 :: cs) (.str n :: ts) b' := by
  unfold Lexes at *
  have h0 : startToken b 34 = some ([], .str []) := by cases b <;> decide
  have h1 : lexStep (.str n) 34 = some ([.str n], .between true) := rfl
  rw [List.cons_append, lexRun, lexStep, h0, Option.bind_some, lexRun_append, lexRun_str _ _ hn, Option.bind_some, lexRun,
    List.nil_append, h1, Option.bind_some, h]
  rfl

end Treerack
