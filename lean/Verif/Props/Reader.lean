import Verif.Proofs.Utf8
import Verif.Props.Outcome

/-
C51: the input as bytes, from any reader.

`delivered 0 reads` (Spec/Utf8.lean): the bytes that the calls of `Read` return, and how they end.  `Utf8 bytes text`: RFC 3629.
-/

namespace Treerack
open Spec Samples

variable {s s' : Syntax}

theorem size_delivered : ∀ (k : Nat) (rd : Reads), (delivered k rd).1.length < rd.size
  | _, [] => by simp [delivered, Reads.size]
  | _, (p, some e) :: rd => by
    have := size_delivered 0 rd
    simp [delivered, Reads.size] at *
    omega
  | k, ([], none) :: rd => by
    have := size_delivered (k + 1) rd
    rw [delivered]
    simp [Reads.size] at *
    split
    · simp; omega
    · exact this
  | _, (b :: p, none) :: rd => by
    have := size_delivered 0 rd
    simp [delivered, Reads.size] at *
    omega

/-- Parsing from a reader is parsing the characters of the delivered bytes. -/
theorem parseReader_eq (fuel : Nat) (rd : Reads) :
    s.ParseReader fuel rd = s.Parse fuel (decodeAll (delivered 0 rd).1) (delivered 0 rd).2 := by
  have h1 := decodeAll_length _ (delivered 0 rd).1 (Nat.le_refl _)
  have h2 := size_delivered 0 rd
  unfold Syntax.ParseReader
  rw [readRunes_rest]
  have : ({ rd := rd } : Bufio).rest = delivered 0 rd := by simp [Bufio.rest]
  rw [this, if_pos (by omega), List.take_of_length_le (by omega)]

/-! ### C51 -/

/-- C51: from any reader that delivers the UTF-8 of a text, the text is parsed. -/
theorem C51_text {text : List Rune} {rd : Reads} (h : Utf8 (delivered 0 rd).1 text) (fuel : Nat) :
    s.ParseReader fuel rd = s.Parse fuel text (delivered 0 rd).2 := by
  rw [parseReader_eq, h.2, decodeAll_utf8 h.1]

/-- C51: it does not matter in what parts a reader delivers the same bytes. -/
theorem C51_chunks {rd rd' : Reads} (h : delivered 0 rd = delivered 0 rd') (fuel : Nat) : s.ParseReader fuel rd = s.ParseReader fuel rd' := by
  rw [parseReader_eq, parseReader_eq, h]

/-- C51: a tree is only returned when the delivered bytes are the UTF-8 of a text up to the end of the input. -/
theorem C51_accepted {rd : Reads} {fuel : Nat} {t : Node} (h : History s) (hp : s.ParseReader fuel rd = .ok (s', .node t)) :
    ∃ text, Utf8 (delivered 0 rd).1 text ∧ replacementChar ∉ text ∧ (delivered 0 rd).2 = none ∧ s.Parse fuel text none = .ok (s', .node t) ∧
      t.tokens = text := by
  rw [parseReader_eq] at hp
  obtain ⟨root, -, T⟩ := Parse_outcome h hp
  have h1 := C03_complete h hp
  refine ⟨_, decodeAll_valid _ (Nat.le_refl _) T.valid, T.valid, h1.1, ?_, h1.2.2.2⟩
  rw [h1.1] at hp
  exact hp

/-- C51: the text of a node, as bytes, is the part of the input that the UTF-8 of the characters between its positions takes. -/
theorem C51_nodes {rd : Reads} {fuel : Nat} {t : Node} (h : History s) (hp : s.ParseReader fuel rd = .ok (s', .node t)) {m : Node}
    (hm : Sub m t) : ∃ text before after bytes, Utf8 (delivered 0 rd).1 text ∧ Utf8 before (text.take m.from_) ∧
      Utf8 bytes ((text.drop m.from_).take (m.to - m.from_)) ∧ m.textBytes = .ok bytes ∧ (delivered 0 rd).1 = before ++ bytes ++ after := by
  obtain ⟨text, h1, h2, -, h3, -⟩ := C51_accepted h hp
  obtain ⟨h4, h5, h6, h7⟩ := C40_text h h3 m hm
  have hsub : ∀ c ∈ (text.drop m.from_).take (m.to - m.from_), Scalar c := fun c hc =>
    h1.1 c (List.mem_of_mem_drop (List.mem_of_mem_take hc))
  refine ⟨text, (text.take m.from_).flatMap utf8, (text.drop m.to).flatMap utf8, _, h1,
    ⟨fun c hc => h1.1 c (List.mem_of_mem_take hc), rfl⟩, ⟨hsub, rfl⟩, ?_, ?_⟩
  · rw [Node.textBytes, h7, Res.bind_ok, goString]
    congr 1
    rw [List.flatMap_def, List.flatMap_def, List.map_congr_left fun c hc => appendRune_utf8 (hsub c hc)]
  · rw [h1.2, ← List.flatMap_append, ← List.flatMap_append]
    congr 1
    have : text.take m.from_ ++ (text.drop m.from_).take (m.to - m.from_) = text.take m.to := by
      rw [← List.drop_take]
      have := List.take_append_drop m.from_ (text.take m.to)
      rw [List.take_take, Nat.min_eq_left h5] at this
      exact this
    rw [this, List.take_append_drop]

/-- C51: the text that bytes are the UTF-8 of is determined by the bytes. -/
theorem C51_unique {bytes : List Nat} {text text' : List Rune} (h : Utf8 bytes text) (h' : Utf8 bytes text') : text = text' := by
  rw [← decodeAll_utf8 h.1, ← decodeAll_utf8 h'.1, ← h.2, ← h'.2]

/-! ### Witnesses -/

/-- Any number of any characters. -/
def anyCalls : List Call := [.anyChar (runes "any") { alias := true }, .sequence (runes "text") {} [{ name := runes "any", min := 0, max := -1 }]]

/-- `aé€`, with the bytes of the characters in different parts, and with a call that returns nothing. -/
def split : Reads := [([97, 0xC3], none), ([], none), ([0xA9, 0xE2, 0x82], none), ([0xAC], some none)]

example : delivered 0 split = ([97, 0xC3, 0xA9, 0xE2, 0x82, 0xAC], none) ∧ Utf8 (delivered 0 split).1 [97, 233, 0x20AC] ∧
    History (after anyCalls) ∧ nodes ((after anyCalls).ParseReader 60 split) = some [(0, runes "text", 0, 3)] := by
  refine ⟨rfl, ⟨?_, by decide⟩, after_history (by decide +kernel), by decide +kernel⟩
  intro c hc
  simp only [List.mem_cons, List.not_mem_nil, or_false] at hc
  rcases hc with rfl | rfl | rfl <;> exact .inl (by decide)

/-- The same bytes in one part. -/
example : delivered 0 split = delivered 0 [([97, 0xC3, 0xA9, 0xE2, 0x82, 0xAC], none)] := rfl

/-- An overlong notation of a character, and a surrogate: not the UTF-8 of anything, and not accepted. -/
example : (∀ text, ¬ Utf8 [0xC0, 0x80] text) ∧ (∀ text, ¬ Utf8 [0xED, 0xA0, 0x80] text) ∧
    error ((after anyCalls).ParseReader 60 [([0xC0, 0x80], none)]) = some .invalidUnicode ∧
    error ((after anyCalls).ParseReader 60 [([0xED, 0xA0, 0x80], none)]) = some .invalidUnicode := by
  have key : ∀ bytes, replacementChar ∈ decodeAll bytes → 0xBD ∉ bytes → ∀ text, ¬ Utf8 bytes text := by
    intro bytes h1 h2 text h
    rw [h.2, decodeAll_utf8 h.1] at h1
    exact h2 (h.2 ▸ List.mem_flatMap.2 ⟨_, h1, by decide⟩)
  exact ⟨key _ (by decide) (by decide), key _ (by decide) (by decide), by decide +kernel, by decide +kernel⟩

/-- A hundred calls that return nothing: the reader is given up. -/
example : error ((after anyCalls).ParseReader 60 (([97], none) :: List.replicate 100 ([], none))) = some (.readErr 0) := by decide +kernel

end Treerack
