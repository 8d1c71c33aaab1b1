import Verif.Model.Syntax

/-
The commit types as numbers: the record operations of the model are the bit operations of the Go code.
-/

namespace Treerack

namespace Commit

/-- syntaxhead.go:12-23: `None = 0`, `Alias = 1 << iota` with `iota = 1`, and so on. -/
def ALIAS : Nat := 2
def WHITESPACE : Nat := 4
def NO_WHITESPACE : Nat := 8
def KEYWORD : Nat := 16
def NO_KEYWORD : Nat := 32
def FAIL_PASS : Nat := 64
def ROOT : Nat := 128
def USER_DEFINED : Nat := 256

/-- The Go number of a commit type. -/
def toInt (c : Commit) : Nat :=
  (if c.alias then ALIAS else 0) ||| (if c.whitespace then WHITESPACE else 0) |||
  (if c.noWhitespace then NO_WHITESPACE else 0) ||| (if c.keyword then KEYWORD else 0) |||
  (if c.noKeyword then NO_KEYWORD else 0) ||| (if c.failPass then FAIL_PASS else 0) |||
  (if c.root then ROOT else 0) ||| (if c.userDefined then USER_DEFINED else 0)

/-- The named bits, by their position. -/
def bit (c : Commit) : Nat → Bool
  | 1 => c.alias
  | 2 => c.whitespace
  | 3 => c.noWhitespace
  | 4 => c.keyword
  | 5 => c.noKeyword
  | 6 => c.failPass
  | 7 => c.root
  | 8 => c.userDefined
  | _ => false

theorem testBit_flag (b : Bool) (n k : Nat) :
    (if b then 2 ^ n else 0 : Nat).testBit k = (b && decide (n = k)) := by
  cases b
  · simp
  · simp [Nat.testBit_two_pow]

/-- The bits of the number are the fields of the record. -/
theorem testBit_toInt (c : Commit) (k : Nat) : c.toInt.testBit k = c.bit k := by
  have h1 := testBit_flag c.alias 1 k
  have h2 := testBit_flag c.whitespace 2 k
  have h3 := testBit_flag c.noWhitespace 3 k
  have h4 := testBit_flag c.keyword 4 k
  have h5 := testBit_flag c.noKeyword 5 k
  have h6 := testBit_flag c.failPass 6 k
  have h7 := testBit_flag c.root 7 k
  have h8 := testBit_flag c.userDefined 8 k
  simp only [toInt, ALIAS, WHITESPACE, NO_WHITESPACE, KEYWORD, NO_KEYWORD, FAIL_PASS, ROOT,
    USER_DEFINED, Nat.testBit_or]
  simp only [show (2 : Nat) ^ 1 = 2 from rfl, show (2 : Nat) ^ 2 = 4 from rfl,
    show (2 : Nat) ^ 3 = 8 from rfl, show (2 : Nat) ^ 4 = 16 from rfl,
    show (2 : Nat) ^ 5 = 32 from rfl, show (2 : Nat) ^ 6 = 64 from rfl,
    show (2 : Nat) ^ 7 = 128 from rfl, show (2 : Nat) ^ 8 = 256 from rfl] at h1 h2 h3 h4 h5 h6 h7 h8
  rw [h1, h2, h3, h4, h5, h6, h7, h8]
  match k with
  | 0 => simp [bit]
  | 1 => simp [bit]
  | 2 => simp [bit]
  | 3 => simp [bit]
  | 4 => simp [bit]
  | 5 => simp [bit]
  | 6 => simp [bit]
  | 7 => simp [bit]
  | 8 => simp [bit]
  | k + 9 => simp [bit]

theorem bit_ext {a b : Commit} (h : ∀ k, a.bit k = b.bit k) : a = b := by
  cases a; cases b
  simp only [Commit.mk.injEq]
  exact ⟨h 1, h 2, h 3, h 4, h 5, h 6, h 7, h 8⟩

/-- Different records are different numbers. -/
theorem toInt_injective {a b : Commit} (h : a.toInt = b.toInt) : a = b :=
  bit_ext fun k => by rw [← testBit_toInt, ← testBit_toInt, h]

/-- `a | b` -/
theorem toInt_or (a b : Commit) : (a.or b).toInt = a.toInt ||| b.toInt := by
  apply Nat.eq_of_testBit_eq
  intro k
  rw [Nat.testBit_or, testBit_toInt, testBit_toInt, testBit_toInt]
  match k with
  | 0 | 1 | 2 | 3 | 4 | 5 | 6 | 7 | 8 => rfl
  | k + 9 => rfl

theorem and_two_pow_ne_zero (x n : Nat) : x &&& 2 ^ n ≠ 0 ↔ x.testBit n = true := by
  constructor
  · intro h
    cases hb : x.testBit n with
    | true => rfl
    | false =>
      exfalso
      apply h
      apply Nat.eq_of_testBit_eq
      intro k
      rw [Nat.testBit_and, Nat.testBit_two_pow, Nat.zero_testBit]
      by_cases hk : n = k
      · subst hk; simp [hb]
      · simp [hk]
  · intro h h0
    have := congrArg (Nat.testBit · n) h0
    simp [Nat.testBit_and, h] at this

/-- `ct & flag != 0` for a flag with a single bit. -/
theorem and_flag (c : Commit) (n : Nat) : c.toInt &&& 2 ^ n ≠ 0 ↔ c.bit n = true := by
  rw [and_two_pow_ne_zero, testBit_toInt]

theorem and_alias (c : Commit) : c.toInt &&& ALIAS ≠ 0 ↔ c.alias = true := and_flag c 1
theorem and_whitespace (c : Commit) : c.toInt &&& WHITESPACE ≠ 0 ↔ c.whitespace = true := and_flag c 2
theorem and_noWhitespace (c : Commit) : c.toInt &&& NO_WHITESPACE ≠ 0 ↔ c.noWhitespace = true :=
  and_flag c 3
theorem and_keyword (c : Commit) : c.toInt &&& KEYWORD ≠ 0 ↔ c.keyword = true := and_flag c 4
theorem and_noKeyword (c : Commit) : c.toInt &&& NO_KEYWORD ≠ 0 ↔ c.noKeyword = true := and_flag c 5
theorem and_failPass (c : Commit) : c.toInt &&& FAIL_PASS ≠ 0 ↔ c.failPass = true := and_flag c 6
theorem and_root (c : Commit) : c.toInt &&& ROOT ≠ 0 ↔ c.root = true := and_flag c 7
theorem and_userDefined (c : Commit) : c.toInt &&& USER_DEFINED ≠ 0 ↔ c.userDefined = true :=
  and_flag c 8

/-- `ct | Alias`, `ct | NoWhitespace`, `ct | Root`, `ct | userDefined` -/
theorem or_alias (c : Commit) : ({ c with alias := true } : Commit).toInt = c.toInt ||| ALIAS := by
  rw [show ALIAS = ({ alias := true } : Commit).toInt from rfl, ← toInt_or]
  congr 1; simp [Commit.or]
theorem or_noWhitespace (c : Commit) :
    ({ c with noWhitespace := true } : Commit).toInt = c.toInt ||| NO_WHITESPACE := by
  rw [show NO_WHITESPACE = ({ noWhitespace := true } : Commit).toInt from rfl, ← toInt_or]
  congr 1; simp [Commit.or]
theorem or_root (c : Commit) : ({ c with root := true } : Commit).toInt = c.toInt ||| ROOT := by
  rw [show ROOT = ({ root := true } : Commit).toInt from rfl, ← toInt_or]
  congr 1; simp [Commit.or]
theorem or_userDefined (c : Commit) :
    ({ c with userDefined := true } : Commit).toInt = c.toInt ||| USER_DEFINED := by
  rw [show USER_DEFINED = ({ userDefined := true } : Commit).toInt from rfl, ← toInt_or]
  congr 1; simp [Commit.or]

/-- `ct &^ Root`: the bits of `ct` that are not bits of `Root`. -/
theorem andNot_root (c : Commit) (k : Nat) :
    ({ c with root := false } : Commit).toInt.testBit k = (c.toInt.testBit k && !ROOT.testBit k) := by
  rw [testBit_toInt, testBit_toInt, show ROOT = 2 ^ 7 from rfl, Nat.testBit_two_pow]
  match k with
  | 0 | 1 | 2 | 3 | 4 | 5 | 6 | 8 => simp [bit]
  | 7 => simp [bit]
  | k + 9 => simp [bit]

/-- syntax.go:123-128: the table of incompatible commit types. -/
def excludes : List (Nat × List Nat) :=
  [(ALIAS, [ROOT]), (WHITESPACE, [KEYWORD, NO_KEYWORD, FAIL_PASS, ROOT]), (KEYWORD, [NO_KEYWORD, ROOT]),
   (FAIL_PASS, [ROOT])]

/-- syntax.go:130-148 on the numbers: some commit type of the table is set together with one it
excludes. -/
theorem incompatible_iff (c : Commit) : c.incompatible = true ↔
    ∃ row ∈ excludes, c.toInt &&& row.1 ≠ 0 ∧ ∃ f ∈ row.2, c.toInt &&& f ≠ 0 := by
  simp only [excludes, List.mem_cons, List.not_mem_nil, or_false, exists_eq_or_imp, exists_eq_left,
    and_alias, and_root, and_whitespace, and_keyword, and_noKeyword, and_failPass, Commit.incompatible,
    Bool.or_eq_true, Bool.and_eq_true]
  cases c.alias <;> cases c.root <;> cases c.whitespace <;> cases c.keyword <;> cases c.noKeyword <;>
    cases c.failPass <;> simp

end Commit
end Treerack
