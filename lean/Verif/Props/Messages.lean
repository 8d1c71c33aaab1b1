import Verif.Model.Messages
import Verif.Proofs.FormatText
import Verif.Props.Outcome

/-
C52: the texts of nodes and of errors tell what they are about.
-/

namespace Treerack
open Spec Samples

variable {s s' : Syntax}

/-! ### C52 -/

/-- C52: the text of a node is its name, its positions as decimal numbers, and its part of the input. -/
theorem C52_node {fuel : Nat} {input : List Rune} {rend : Option Nat} {t : Node} (h : History s)
    (hp : s.Parse fuel input rend = .ok (s', .node t)) {m : Node} (hm : Sub m t) :
    ∃ a b, WrittenNumber m.from_ a ∧ WrittenNumber m.to b ∧
      m.string = .ok (m.name ++ 58 :: a ++ 58 :: b ++ 58 :: (input.drop m.from_).take (m.to - m.from_)) := by
  obtain ⟨-, -, -, h7⟩ := C40_text h hp m hm
  refine ⟨_, _, itoa_written _, itoa_written _, ?_⟩
  rw [Node.string, h7, Res.bind_ok]
  simp [runes]

/-- C52: nodes with the same text have the same name, positions and part of the input; for names without colons. -/
theorem C52_node_distinct {n n' : Node} {x : List Rune} (hn : 58 ∉ n.name) (hn' : 58 ∉ n'.name) (h : n.string = .ok x)
    (h' : n'.string = .ok x) : n.name = n'.name ∧ n.from_ = n'.from_ ∧ n.to = n'.to ∧ n.text = n'.text := by
  unfold Node.string at h h'
  obtain ⟨t, h1, h2⟩ := Res.bind_eq_ok h
  obtain ⟨t', h1', h2'⟩ := Res.bind_eq_ok h'
  have e : n.name ++ 58 :: (itoa n.from_ ++ 58 :: (itoa n.to ++ 58 :: t)) =
      n'.name ++ 58 :: (itoa n'.from_ ++ 58 :: (itoa n'.to ++ 58 :: t')) := by
    have := Res.ok.inj (h2.trans h2'.symm)
    simpa [runes] using this
  obtain ⟨e1, e⟩ := split_colon hn hn' e
  obtain ⟨e2, e⟩ := split_colon (itoa_noColon _) (itoa_noColon _) e
  obtain ⟨e3, e⟩ := split_colon (itoa_noColon _) (itoa_noColon _) e
  exact ⟨e1, itoa_inj e2, itoa_inj e3, by rw [h1, h1', e]⟩

/-- C52: the text of a parse error tells the line and the column, counted from one, and the definition. -/
theorem C52_error {fuel : Nat} {input : List Rune} {rend : Option Nat} {o l c : Nat} {n : Name} (h : History s)
    (hp : s.Parse fuel input rend = .ok (s', .error (.parseError o l c n))) :
    ∃ a b, WrittenNumber (lineOf input o + 1) a ∧ WrittenNumber (columnOf input o + 1) b ∧
      (Err.parseError o l c n).message = some (runes "<input>:" ++ a ++ 58 :: b ++ runes ":parse failed, parsing: " ++ n) := by
  obtain ⟨-, rfl, rfl⟩ := C14_position h hp
  refine ⟨_, _, itoa_written _, itoa_written _, ?_⟩
  simp [Err.message, runes]

/-- C52: parse errors with the same text have the same line, column and definition. -/
theorem C52_error_distinct {o l c o' l' c' : Nat} {n n' : Name}
    (h : (Err.parseError o l c n).message = (Err.parseError o' l' c' n').message) : l = l' ∧ c = c' ∧ n = n' := by
  have e : itoa (l + 1) ++ 58 :: (itoa (c + 1) ++ 58 :: (runes "parse failed, parsing: " ++ n)) =
      itoa (l' + 1) ++ 58 :: (itoa (c' + 1) ++ 58 :: (runes "parse failed, parsing: " ++ n')) := by
    simpa [Err.message, runes] using h
  obtain ⟨e2, e⟩ := split_colon (itoa_noColon _) (itoa_noColon _) e
  obtain ⟨e3, e⟩ := split_colon (itoa_noColon _) (itoa_noColon _) e
  have := itoa_inj e2
  have := itoa_inj e3
  exact ⟨by omega, by omega, List.append_cancel_left e⟩

/-! ### Witnesses -/

example : (Node.mk (runes "word") 2 5 (runes "x foo") []).string = .ok (runes "word:2:5:foo") := rfl

/-- With a colon in a name the texts of different nodes may be the same; names with colons cannot be defined. -/
example : (Node.mk (runes "a") 1 10 (runes "-16:zzzzzz") []).string = .ok (runes "a:1:10:16:zzzzzz") ∧
    (Node.mk (runes "a:1") 10 16 (runes "----------zzzzzz") []).string = .ok (runes "a:1:10:16:zzzzzz") := ⟨rfl, rfl⟩

/-- A parse error in the second line. -/
example : History (after linesCalls) ∧ ∃ s', (after linesCalls).Parse 30 (runes "a\nab") none =
      .ok (s', .error (.parseError 3 1 1 (runes "a"))) ∧
    (Err.parseError 3 1 1 (runes "a")).message = some (runes "<input>:2:2:parse failed, parsing: a") := by
  obtain ⟨s', h⟩ := error_ok (x := (after linesCalls).Parse 30 (runes "a\nab") none) (e := .parseError 3 1 1 (runes "a")) (by decide +kernel)
  exact ⟨after_history (by decide +kernel), s', h, rfl⟩

end Treerack
