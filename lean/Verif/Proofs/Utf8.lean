import Verif.Model.Reader
import Verif.Spec.Utf8

/-
Decoding UTF-8, and the buffered reader.
-/

namespace Treerack
open Spec

/-! ### Decoding -/

theorem decodeRune_size {b : Nat} {p : List Nat} : 1 ≤ (decodeRune (b :: p)).2 ∧ (decodeRune (b :: p)).2 ≤ (b :: p).length := by
  unfold decodeRune
  repeat' split
  all_goals simp_all
  all_goals omega

/-- All the characters of the bytes. -/
def decodeFuel : Nat → List Nat → List Rune
  | 0, _ => []
  | _ + 1, [] => []
  | n + 1, b :: p => (decodeRune (b :: p)).1 :: decodeFuel n ((b :: p).drop (decodeRune (b :: p)).2)

def decodeAll (bs : List Nat) : List Rune := decodeFuel bs.length bs

theorem decodeFuel_eq : ∀ {n m : Nat} {bs : List Nat}, bs.length ≤ n → bs.length ≤ m → decodeFuel n bs = decodeFuel m bs
  | 0, 0, _, _, _ => rfl
  | 0, _ + 1, [], _, _ => rfl
  | _ + 1, 0, [], _, _ => rfl
  | _ + 1, _ + 1, [], _, _ => rfl
  | n + 1, m + 1, b :: p, h, h' => by
    have hs := decodeRune_size (b := b) (p := p)
    rw [decodeFuel, decodeFuel, decodeFuel_eq (n := n) (m := m)]
    all_goals
      simp only [List.length_drop, List.length_cons] at *
      omega

theorem decodeAll_nil : decodeAll [] = [] := rfl

theorem decodeAll_cons {b : Nat} {p : List Nat} :
    decodeAll (b :: p) = (decodeRune (b :: p)).1 :: decodeAll ((b :: p).drop (decodeRune (b :: p)).2) := by
  have hs := decodeRune_size (b := b) (p := p)
  show decodeFuel (p.length + 1) (b :: p) = _
  rw [decodeFuel, decodeAll, decodeFuel_eq (m := ((b :: p).drop (decodeRune (b :: p)).2).length)]
  · simp only [List.length_drop, List.length_cons] at *
    omega
  · exact Nat.le_refl _

theorem decodeAll_length : ∀ (n : Nat) (bs : List Nat), bs.length ≤ n → (decodeAll bs).length ≤ bs.length
  | _, [], _ => Nat.le_refl _
  | n + 1, b :: p, h => by
    have hs := decodeRune_size (b := b) (p := p)
    have := decodeAll_length n ((b :: p).drop (decodeRune (b :: p)).2) (by
      simp only [List.length_drop, List.length_cons] at *
      omega)
    rw [decodeAll_cons]
    simp only [List.length_drop, List.length_cons] at *
    omega

theorem utf8First_2 {b : Nat} (h : 0xC2 ≤ b ∧ b < 0xE0) : utf8First b = some (2, 0x80, 0xBF) := by
  unfold utf8First
  rw [if_neg (by omega), if_pos (by omega)]

/-- The ranges of the first two bytes of a character of three bytes. -/
def Lead3 (b0 b1 : Nat) : Prop :=
  0xE0 ≤ b0 ∧ b0 ≤ 0xEF ∧ 0x80 ≤ b1 ∧ b1 ≤ 0xBF ∧ (b0 = 0xE0 → 0xA0 ≤ b1) ∧ (b0 = 0xED → b1 ≤ 0x9F)

def Lead4 (b0 b1 : Nat) : Prop :=
  0xF0 ≤ b0 ∧ b0 ≤ 0xF4 ∧ 0x80 ≤ b1 ∧ b1 ≤ 0xBF ∧ (b0 = 0xF0 → 0x90 ≤ b1) ∧ (b0 = 0xF4 → b1 ≤ 0x8F)

theorem utf8First_cases (b : Nat) : utf8First b = none ∧ (b < 0xC2 ∨ 0xF4 < b) ∨
    (∃ lo hi, utf8First b = some (2, lo, hi) ∧ 0xC2 ≤ b ∧ b < 0xE0 ∧ lo = 0x80 ∧ hi = 0xBF) ∨
    (∃ lo hi, utf8First b = some (3, lo, hi) ∧ 0xE0 ≤ b ∧ b ≤ 0xEF ∧ ∀ b1, (lo ≤ b1 ∧ b1 ≤ hi) ↔ Lead3 b b1) ∨
    (∃ lo hi, utf8First b = some (4, lo, hi) ∧ 0xF0 ≤ b ∧ b ≤ 0xF4 ∧ ∀ b1, (lo ≤ b1 ∧ b1 ≤ hi) ↔ Lead4 b b1) := by
  unfold Lead3 Lead4
  generalize hf : utf8First b = f
  unfold utf8First at hf
  repeat' split at hf
  all_goals subst hf
  · exact .inl ⟨rfl, by omega⟩
  · exact .inr (.inl ⟨_, _, rfl, by omega, by omega, rfl, rfl⟩)
  · exact .inr (.inr (.inl ⟨_, _, rfl, by omega, by omega, by omega⟩))
  · exact .inr (.inr (.inl ⟨_, _, rfl, by omega, by omega, by omega⟩))
  · exact .inr (.inr (.inl ⟨_, _, rfl, by omega, by omega, by omega⟩))
  · exact .inr (.inr (.inl ⟨_, _, rfl, by omega, by omega, by omega⟩))
  · exact .inr (.inr (.inr ⟨_, _, rfl, by omega, by omega, by omega⟩))
  · exact .inr (.inr (.inr ⟨_, _, rfl, by omega, by omega, by omega⟩))
  · exact .inr (.inr (.inr ⟨_, _, rfl, by omega, by omega, by omega⟩))
  · exact .inl ⟨rfl, by omega⟩

theorem isCont_iff {b : Nat} : isCont b = true ↔ 0x80 ≤ b ∧ b ≤ 0xBF := by
  simp [isCont]

/-- The well-formed byte sequences, and what they are decoded to. -/
theorem decodeRune_1 {b : Nat} {p : List Nat} (h : b < 0x80) : decodeRune (b :: p) = (b, 1) := by
  simp [decodeRune, h]

theorem decodeRune_2 {b0 b1 : Nat} {p : List Nat} (h0 : 0xC2 ≤ b0 ∧ b0 < 0xE0) (h1 : 0x80 ≤ b1 ∧ b1 ≤ 0xBF) :
    decodeRune (b0 :: b1 :: p) = (b0 % 32 * 64 + b1 % 64, 2) := by
  have hb : ¬ b0 < 128 := by omega
  have hn : ¬ (b1 < 128 ∨ 191 < b1) := by omega
  simp [decodeRune, hb, utf8First_2 h0, hn]

theorem decodeRune_3 {b0 b1 b2 : Nat} {p : List Nat} (h : Lead3 b0 b1) (h2 : 0x80 ≤ b2 ∧ b2 ≤ 0xBF) :
    decodeRune (b0 :: b1 :: b2 :: p) = (b0 % 16 * 4096 + b1 % 64 * 64 + b2 % 64, 3) := by
  have h' := h
  unfold Lead3 at h'
  have hb : ¬ b0 < 128 := by omega
  rcases utf8First_cases b0 with ⟨_, _⟩ | ⟨_, _, _, _, _, _⟩ | ⟨lo, hi, hf, _, _, hl⟩ | ⟨_, _, _, _, _, _⟩
  · omega
  · omega
  · have := (hl b1).2 h
    have hn : ¬ (b1 < lo ∨ hi < b1) := by omega
    simp [decodeRune, hb, hf, hn, isCont_iff.2 h2]
  · omega

theorem decodeRune_4 {b0 b1 b2 b3 : Nat} {p : List Nat} (h : Lead4 b0 b1) (h2 : 0x80 ≤ b2 ∧ b2 ≤ 0xBF) (h3 : 0x80 ≤ b3 ∧ b3 ≤ 0xBF) :
    decodeRune (b0 :: b1 :: b2 :: b3 :: p) = (b0 % 8 * 262144 + b1 % 64 * 4096 + b2 % 64 * 64 + b3 % 64, 4) := by
  have h' := h
  unfold Lead4 at h'
  have hb : ¬ b0 < 128 := by omega
  rcases utf8First_cases b0 with ⟨_, _⟩ | ⟨_, _, _, _, _, _⟩ | ⟨_, _, _, _, _, _⟩ | ⟨lo, hi, hf, _, _, hl⟩
  · omega
  · omega
  · omega
  · have := (hl b1).2 h
    have hn : ¬ (b1 < lo ∨ hi < b1) := by omega
    simp [decodeRune, hb, hf, hn, isCont_iff.2 h2, isCont_iff.2 h3]

/-- All other byte sequences are decoded as one byte of an invalid character. -/
theorem decodeRune_cases (b : Nat) (p : List Nat) : decodeRune (b :: p) = (replacementChar, 1) ∨ b < 0x80 ∨
    (∃ b1 q, p = b1 :: q ∧ (0xC2 ≤ b ∧ b < 0xE0) ∧ 0x80 ≤ b1 ∧ b1 ≤ 0xBF) ∨
    (∃ b1 b2 q, p = b1 :: b2 :: q ∧ Lead3 b b1 ∧ 0x80 ≤ b2 ∧ b2 ≤ 0xBF) ∨
    (∃ b1 b2 b3 q, p = b1 :: b2 :: b3 :: q ∧ Lead4 b b1 ∧ (0x80 ≤ b2 ∧ b2 ≤ 0xBF) ∧ 0x80 ≤ b3 ∧ b3 ≤ 0xBF) := by
  by_cases hb : b < 0x80
  · exact .inr (.inl hb)
  rcases utf8First_cases b with ⟨hf, _⟩ | ⟨lo, hi, hf, h1, h2, rfl, rfl⟩ | ⟨lo, hi, hf, _, _, hl⟩ | ⟨lo, hi, hf, _, _, hl⟩
  · exact .inl (by simp [decodeRune, hb, hf])
  · match p with
    | [] => exact .inl (by simp [decodeRune, hb, hf])
    | b1 :: q =>
      by_cases h : 0x80 ≤ b1 ∧ b1 ≤ 0xBF
      · exact .inr (.inr (.inl ⟨b1, q, rfl, ⟨h1, h2⟩, h⟩))
      · refine .inl ?_
        have : b1 < 128 ∨ 191 < b1 := by omega
        simp [decodeRune, hb, hf, this]
  · match p with
    | [] => exact .inl (by simp [decodeRune, hb, hf])
    | [b1] => exact .inl (by simp [decodeRune, hb, hf])
    | b1 :: b2 :: q =>
      by_cases h : lo ≤ b1 ∧ b1 ≤ hi
      · by_cases h2 : isCont b2 = true
        · exact .inr (.inr (.inr (.inl ⟨b1, b2, q, rfl, (hl b1).1 h, isCont_iff.1 h2⟩)))
        · have : ¬ (b1 < lo ∨ hi < b1) := by omega
          exact .inl (by simp [decodeRune, hb, hf, this, h2])
      · have : b1 < lo ∨ hi < b1 := by omega
        exact .inl (by simp [decodeRune, hb, hf, this])
  · match p with
    | [] => exact .inl (by simp [decodeRune, hb, hf])
    | [b1] => exact .inl (by simp [decodeRune, hb, hf])
    | [b1, b2] => exact .inl (by simp [decodeRune, hb, hf])
    | b1 :: b2 :: b3 :: q =>
      by_cases h : lo ≤ b1 ∧ b1 ≤ hi
      · have hn : ¬ (b1 < lo ∨ hi < b1) := by omega
        by_cases h2 : isCont b2 = true
        · by_cases h3 : isCont b3 = true
          · exact .inr (.inr (.inr (.inr ⟨b1, b2, b3, q, rfl, (hl b1).1 h, isCont_iff.1 h2, isCont_iff.1 h3⟩)))
          · exact .inl (by simp [decodeRune, hb, hf, hn, h2, h3])
        · exact .inl (by simp [decodeRune, hb, hf, hn, h2])
      · have : b1 < lo ∨ hi < b1 := by omega
        exact .inl (by simp [decodeRune, hb, hf, this])

/-- Decoding the bytes of a character. -/
theorem decodeRune_utf8 {c : Nat} (h : Scalar c) (rest : List Nat) :
    decodeRune (utf8 c ++ rest) = (c, (utf8 c).length) := by
  unfold Scalar at h
  unfold utf8
  split
  · exact decodeRune_1 (by omega)
  · split
    · show decodeRune (_ :: _ :: _) = _
      rw [decodeRune_2 (by omega) (by omega)]
      simp
      omega
    · split
      · show decodeRune (_ :: _ :: _ :: _) = _
        rw [decodeRune_3 (by unfold Lead3; omega) (by omega)]
        simp
        omega
      · show decodeRune (_ :: _ :: _ :: _ :: _) = _
        rw [decodeRune_4 (by unfold Lead4; omega) (by omega) (by omega)]
        simp
        omega

/-- What is decoded to a valid character is the UTF-8 of this character. -/
theorem decodeRune_valid {b : Nat} {p : List Nat} (h : (decodeRune (b :: p)).1 ≠ replacementChar) :
    Scalar (decodeRune (b :: p)).1 ∧ b :: p = utf8 (decodeRune (b :: p)).1 ++ (b :: p).drop (decodeRune (b :: p)).2 := by
  rcases decodeRune_cases b p with h1 | h1 | ⟨b1, q, rfl, h0, h1⟩ | ⟨b1, b2, q, rfl, h1, h2⟩ | ⟨b1, b2, b3, q, rfl, h1, h2, h3⟩
  · rw [h1] at h
    exact absurd rfl h
  · rw [decodeRune_1 h1]
    refine ⟨by unfold Scalar; simp only; omega, ?_⟩
    simp only [utf8]
    rw [if_pos (by omega)]
    rfl
  · rw [decodeRune_2 h0 h1]
    refine ⟨by unfold Scalar; simp only; omega, ?_⟩
    simp only [utf8]
    rw [if_neg (by omega), if_pos (by omega)]
    simp
    omega
  · rw [decodeRune_3 h1 h2]
    unfold Lead3 at h1
    refine ⟨by unfold Scalar; simp only; omega, ?_⟩
    simp only [utf8]
    rw [if_neg (by omega), if_neg (by omega), if_pos (by omega)]
    simp
    omega
  · rw [decodeRune_4 h1 h2 h3]
    unfold Lead4 at h1
    refine ⟨by unfold Scalar; simp only; omega, ?_⟩
    simp only [utf8]
    rw [if_neg (by omega), if_neg (by omega), if_neg (by omega)]
    simp
    omega

theorem utf8_cons (c : Nat) : ∃ b p, utf8 c = b :: p := by
  unfold utf8
  repeat' split
  all_goals exact ⟨_, _, rfl⟩

/-- Decoding the UTF-8 of a text results in the text. -/
theorem decodeAll_utf8 : ∀ {text : List Rune}, (∀ c ∈ text, Scalar c) → decodeAll (text.flatMap utf8) = text
  | [], _ => rfl
  | c :: text, h => by
    have h1 := decodeRune_utf8 (h c (List.mem_cons_self ..)) (text.flatMap utf8)
    obtain ⟨b, p, hb⟩ := utf8_cons c
    rw [List.flatMap_cons]
    rw [hb] at h1 ⊢
    rw [List.cons_append] at h1 ⊢
    rw [decodeAll_cons, h1]
    have : (b :: (p ++ text.flatMap utf8)).drop (b :: p).length = text.flatMap utf8 := by
      rw [← List.cons_append, List.drop_left]
    rw [this, decodeAll_utf8 fun c hc => h c (List.mem_cons_of_mem _ hc)]

/-- Bytes that are decoded without an invalid character are the UTF-8 of the result. -/
theorem decodeAll_valid : ∀ (n : Nat) {bs : List Nat}, bs.length ≤ n → replacementChar ∉ decodeAll bs → Utf8 bs (decodeAll bs)
  | _, [], _, _ => ⟨by simp [decodeAll_nil], rfl⟩
  | n + 1, b :: p, hn, h => by
    have hs := decodeRune_size (b := b) (p := p)
    rw [decodeAll_cons] at h ⊢
    simp only [List.mem_cons, not_or] at h
    obtain ⟨h1, h2⟩ := decodeRune_valid fun e => h.1 e.symm
    obtain ⟨h3, h4⟩ := decodeAll_valid n (bs := (b :: p).drop (decodeRune (b :: p)).2) (by
      simp only [List.length_drop, List.length_cons] at *
      omega) h.2
    refine ⟨fun c hc => ?_, ?_⟩
    · rcases List.mem_cons.1 hc with rfl | hc
      · exact h1
      · exact h3 c hc
    · rw [List.flatMap_cons, ← h4]
      exact h2

theorem appendRune_utf8 {c : Nat} (h : Scalar c) : appendRune c = utf8 c := by
  unfold Scalar at h
  unfold appendRune utf8
  by_cases h1 : c < 0x80
  · have : c ≤ 127 := by omega
    simp [h1, this]
  have h1' : ¬ c ≤ 127 := by omega
  by_cases h2 : c < 0x800
  · have : c ≤ 2047 := by omega
    simp [h1, h1', h2, this]
  have h2' : ¬ c ≤ 2047 := by omega
  have h3 : ¬ 1114111 < c := by omega
  have h3' : 55296 ≤ c → 57343 < c := by omega
  by_cases h4 : c < 0x10000
  · have : c ≤ 65535 := by omega
    simp [h1, h1', h2, h2', h3, h4, this]
    omega
  · have : ¬ c ≤ 65535 := by omega
    simp [h1, h1', h2, h2', h3, h4, this]
    omega

/-- A complete character is decoded without looking at the bytes behind it. -/
theorem fullRune_append {p : List Nat} (h : fullRune p = true) (q : List Nat) : decodeRune (p ++ q) = decodeRune p := by
  match p with
  | [] => simp [fullRune] at h
  | b :: p =>
    simp only [fullRune] at h
    rw [List.cons_append]
    by_cases hb : b < 0x80
    · rw [decodeRune_1 hb, decodeRune_1 hb]
    rw [if_neg hb] at h
    rcases utf8First_cases b with ⟨hf, _⟩ | ⟨lo, hi, hf, h1, h2, rfl, rfl⟩ | ⟨lo, hi, hf, _, _, hl⟩ | ⟨lo, hi, hf, _, _, hl⟩
    · simp [decodeRune, hb, hf]
    · match p with
      | [] => simp [hf] at h
      | b1 :: p =>
        have a1 : ¬ p.length + q.length + 1 + 1 < 2 := by omega
        have a2 : ¬ p.length + 1 + 1 < 2 := by omega
        simp [decodeRune, hb, hf]
        rw [if_neg a1, if_neg a2]
    · match p with
      | [] => simp [hf] at h
      | [b1] =>
        simp [hf] at h
        match q with
        | [] => rfl
        | b2 :: q => simp [decodeRune, hb, hf, h]
      | b1 :: b2 :: p =>
        have a1 : ¬ p.length + q.length + 1 + 1 + 1 < 3 := by omega
        have a2 : ¬ p.length + 1 + 1 + 1 < 3 := by omega
        simp [decodeRune, hb, hf]
        rw [if_neg a1, if_neg a2]
    · match p with
      | [] => simp [hf] at h
      | [b1] =>
        simp [hf] at h
        match q with
        | [] => rfl
        | [b2] => simp [decodeRune, hb, hf, h]
        | b2 :: b3 :: q => simp [decodeRune, hb, hf, h]
      | [b1, b2] =>
        simp [hf] at h
        match q with
        | [] => rfl
        | b3 :: q =>
          by_cases hl : b1 < lo ∨ hi < b1
          · simp [decodeRune, hb, hf, hl]
          · have := h.resolve_left hl
            simp [decodeRune, hb, hf, hl, this]
      | b1 :: b2 :: b3 :: p =>
        have a1 : ¬ p.length + q.length + 1 + 1 + 1 + 1 < 4 := by omega
        have a2 : ¬ p.length + 1 + 1 + 1 + 1 < 4 := by omega
        simp [decodeRune, hb, hf]
        rw [if_neg a1, if_neg a2]

/-! ### The buffered reader -/

/-- What the reader is still going to deliver. -/
def Bufio.rest (b : Bufio) : List Nat × Option Nat :=
  match b.err with
  | some e => (b.unread, e)
  | none => (b.unread ++ (delivered 0 b.rd).1, (delivered 0 b.rd).2)

/-- The loop of `fill` keeps what is delivered, and adds a byte or finds the end. -/
theorem fillLoop_rest : ∀ (i k : Nat) (b : Bufio), i + k = 100 → b.err = none → b.unread.length < bufSize →
    (b.fillLoop i).rest = (b.unread ++ (if i = 0 then ([], some 0) else delivered k b.rd).1,
      (if i = 0 then ([], some 0) else delivered k b.rd).2) ∧
    ((b.fillLoop i).err = none → b.unread.length < (b.fillLoop i).unread.length)
  | 0, k, b, _, he, _ => by
    simp [Bufio.fillLoop, Bufio.rest, noProgress]
  | i + 1, k, b, hk, he, hs => by
    rw [Bufio.fillLoop]
    rw [if_neg (by omega)]
    match hr : b.rd with
    | [] => simp [Bufio.rest, delivered]
    | (p, e) :: rd =>
      simp only
      by_cases hp : p.length > bufSize - b.unread.length
      · rw [if_pos hp]
        obtain ⟨x, xs, hx⟩ : ∃ x xs, p.drop (bufSize - b.unread.length) = x :: xs := by
          match hd : p.drop (bufSize - b.unread.length) with
          | [] => have := congrArg List.length hd; simp at this; omega
          | x :: xs => exact ⟨x, xs, rfl⟩
        obtain ⟨y, ys, hy⟩ : ∃ y ys, p = y :: ys := by
          match p with
          | [] => simp at hp
          | y :: ys => exact ⟨y, ys, rfl⟩
        have hl : (p.take (bufSize - b.unread.length)).length = bufSize - b.unread.length := by simp; omega
        have hpt : p.take (bufSize - b.unread.length) ++ x :: xs = p := by rw [← hx, List.take_append_drop]
        refine ⟨?_, fun _ => by simp only [List.length_append, hl]; omega⟩
        simp only [Bufio.rest, he, hx]
        cases e with
        | some e =>
          simp only [delivered, List.append_assoc, hpt]
        | none =>
          rw [hy] at hpt ⊢
          simp only [delivered]
          rw [List.append_assoc, ← List.append_assoc (List.take _ _), hpt]
      · rw [if_neg hp]
        cases e with
        | some e => simp [Bufio.rest, delivered]
        | none =>
          simp only
          match p with
          | [] =>
            simp only [List.length_nil, gt_iff_lt, Nat.lt_irrefl, if_false, List.append_nil]
            obtain ⟨h1, h2⟩ := fillLoop_rest i (k + 1) { b with rd := rd } (by omega) he hs
            refine ⟨?_, h2⟩
            rw [h1, delivered]
            by_cases hi : i = 0
            · rw [if_pos hi, if_pos (by omega)]
            · rw [if_neg hi, if_neg (by omega)]
          | x :: xs =>
            rw [if_pos (by simp)]
            simp [Bufio.rest, he, delivered]

theorem fill_rest {b : Bufio} (he : b.err = none) (hs : b.unread.length < bufSize) :
    b.fill.rest = b.rest ∧ (b.fill.err = none → b.unread.length < b.fill.unread.length) := by
  obtain ⟨h1, h2⟩ := fillLoop_rest 100 0 b rfl he hs
  refine ⟨?_, h2⟩
  rw [Bufio.fill, h1]
  simp [Bufio.rest, he]

theorem fullRune_four {p : List Nat} (h : 4 ≤ p.length) : fullRune p = true := by
  match p, h with
  | b0 :: b1 :: b2 :: b3 :: p, _ =>
    simp only [fullRune]
    split
    · rfl
    · rcases utf8First_cases b0 with ⟨hf, _⟩ | ⟨lo, hi, hf, _⟩ | ⟨lo, hi, hf, _⟩ | ⟨lo, hi, hf, _⟩ <;> simp [hf] <;> omega

/-- After the loop of `ReadRune` there is a complete character, or the end of the input was found. -/
theorem readLoop_done : ∀ (i : Nat) (b : Bufio), 5 ≤ i + b.unread.length →
    (b.readLoop i).rest = b.rest ∧ (fullRune (b.readLoop i).unread = true ∨ (b.readLoop i).err ≠ none)
  | 0, b, hi => by
    rw [Bufio.readLoop]
    exact ⟨rfl, .inl (fullRune_four (by omega))⟩
  | i + 1, b, hi => by
    rw [Bufio.readLoop]
    split
    · rename_i hc
      simp only [Bool.and_eq_true, decide_eq_true_eq, Bool.not_eq_true', Option.isNone_iff_eq_none] at hc
      obtain ⟨⟨⟨h4, hf⟩, he⟩, hs⟩ := hc
      obtain ⟨h1, h2⟩ := fill_rest he hs
      by_cases hfe : b.fill.err = none
      · have := h2 hfe
        obtain ⟨h3, h5⟩ := readLoop_done i b.fill (by omega)
        exact ⟨h3.trans h1, h5⟩
      · have : b.fill.readLoop i = b.fill := by
          cases i with
          | zero => rfl
          | succ i =>
            rw [Bufio.readLoop, if_neg]
            simp [hfe]
        rw [this]
        exact ⟨h1, .inr hfe⟩
    · rename_i hc
      refine ⟨rfl, ?_⟩
      by_cases hf : fullRune b.unread = true
      · exact .inl hf
      · refine .inr fun he => hc ?_
        have : b.unread.length < 4 := Nat.lt_of_not_le fun h => hf (fullRune_four h)
        have hs : b.unread.length < bufSize := by unfold bufSize; omega
        simp [hf, he, this, hs]

/-- `ReadRune` returns the first character of what is delivered, or the end. -/
theorem readRune_rest (b : Bufio) :
    (b.rest.1 = [] → b.readRune.1 = .error b.rest.2) ∧
    (∀ x xs, b.rest.1 = x :: xs → b.readRune.1 = .ok (decodeRune (x :: xs)).1 ∧
      b.readRune.2.rest = ((x :: xs).drop (decodeRune (x :: xs)).2, b.rest.2)) := by
  obtain ⟨h1, h2⟩ := readLoop_done 5 b (by omega)
  rw [← h1]
  unfold Bufio.readRune
  generalize b.readLoop 5 = b at h2
  match hu : b.unread with
  | [] =>
    rw [hu] at h2
    match he : b.err with
    | none => simp [fullRune, he] at h2
    | some e =>
      simp [Bufio.rest, he, hu]
  | u :: us =>
    have hdec : ∀ q, (match b.err with | some _ => q = [] | none => True) → decodeRune (u :: us ++ q) = decodeRune (u :: us) := by
      intro q hq
      rcases h2 with h2 | h2
      · rw [hu] at h2
        exact fullRune_append h2 q
      · match he : b.err with
        | none => exact absurd he h2
        | some e =>
          rw [he] at hq
          rw [hq, List.append_nil]
    have hif : (if u ≥ 0x80 then decodeRune (u :: us) else (u, 1)) = decodeRune (u :: us) := by
      split
      · rfl
      · rw [decodeRune_1 (by omega)]
    have hs := decodeRune_size (b := u) (p := us)
    simp only [hif]
    match he : b.err with
    | some e =>
      simp only [Bufio.rest, he, hu]
      refine ⟨nofun, fun x xs hx => ?_⟩
      rw [← hx]
      exact ⟨by simp only [hif], by simp only [hif]⟩
    | none =>
      simp only [Bufio.rest, he, hu]
      refine ⟨by simp, fun x xs hx => ?_⟩
      rw [← hx, hdec _ (by rw [he]; trivial), List.drop_append_of_le_length hs.2]
      exact ⟨by simp only [hif], by simp only [hif]⟩

/-- The characters that are read are those of the delivered bytes, then comes the end. -/
theorem readRunes_rest : ∀ (n : Nat) (b : Bufio), b.readRunes n =
    ((decodeAll b.rest.1).take n, if (decodeAll b.rest.1).length < n then some b.rest.2 else none)
  | 0, b => by simp [Bufio.readRunes]
  | n + 1, b => by
    rw [Bufio.readRunes]
    obtain ⟨h1, h2⟩ := readRune_rest b
    match hb : b.rest.1 with
    | [] =>
      have h1 := h1 hb
      rw [show b.readRune = (b.readRune.1, b.readRune.2) from rfl, h1]
      simp [decodeAll_nil]
    | x :: xs =>
      obtain ⟨h3, h4⟩ := h2 x xs hb
      rw [show b.readRune = (b.readRune.1, b.readRune.2) from rfl, h3]
      simp only
      rw [readRunes_rest n, h4, decodeAll_cons]
      simp

end Treerack
