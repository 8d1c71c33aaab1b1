import Verif.Model.Format
import Verif.Spec.Escape

/-
C28: escaping is reversible (escape.go).
-/

namespace Treerack
open Spec

theorem runesContain_iff (rs : List Rune) (r : Rune) : runesContain rs r = true ↔ r ∈ rs := by
  simp [runesContain]

theorem denotes_unescapeChar (x : Rune) : Denotes x (unescapeChar x) := by
  unfold unescapeChar Denotes controls
  by_cases h1 : x = 98
  · subst h1; simp
  by_cases h2 : x = 102
  · subst h2; simp
  by_cases h3 : x = 110
  · subst h3; simp
  by_cases h4 : x = 114
  · subst h4; simp
  by_cases h5 : x = 116
  · subst h5; simp
  by_cases h6 : x = 118
  · subst h6; simp
  · simp [h1, h2, h3, h4, h5, h6]

/-- A character behind the escape character stands for one character only. -/
theorem denotes_unique {x c c' : Rune} (h : Denotes x c) (h' : Denotes x c') : c = c' := by
  rcases h with h | ⟨h, rfl⟩ <;> rcases h' with h' | ⟨h', rfl⟩
  · simp only [controls, List.mem_cons, Prod.mk.injEq, List.not_mem_nil, or_false] at h h'
    rcases h with ⟨rfl, rfl⟩ | ⟨rfl, rfl⟩ | ⟨rfl, rfl⟩ | ⟨rfl, rfl⟩ | ⟨rfl, rfl⟩ | ⟨rfl, rfl⟩ <;> exact (by simpa using h' : c' = _).symm
  · exact absurd h (h' _)
  · exact absurd h' (h _)
  · rfl

theorem denotes_iff (x c : Rune) : Denotes x c ↔ unescapeChar x = c :=
  ⟨fun h => denotes_unique (denotes_unescapeChar x) h, fun h => h ▸ denotes_unescapeChar x⟩

mutual
theorem unescapeLoop_sound (esc : Rune) (banned : List Rune) : ∀ (t cs : List Rune),
    unescapeLoop esc banned false t = some cs → Escaped esc banned t cs
  | [], cs, h => by
    simp only [unescapeLoop, Option.some.injEq] at h
    subst h; exact .nil
  | c :: t, cs, h => by
    simp only [unescapeLoop] at h
    by_cases hc : c = esc
    · subst hc
      simp only [beq_self_eq_true, if_true] at h
      exact unescapeLoop_pair c banned t cs h
    · rw [if_neg (by simpa using hc)] at h
      by_cases hb : c ∈ banned
      · rw [if_pos ((runesContain_iff _ _).2 hb)] at h; exact absurd h (by simp)
      · rw [if_neg (by rw [runesContain_iff]; exact hb)] at h
        cases ht : unescapeLoop esc banned false t with
        | none => rw [ht] at h; exact absurd h (by simp)
        | some ds =>
          rw [ht] at h
          simp only [Option.map_some, Option.some.injEq] at h
          subst h
          exact .plain hc hb (unescapeLoop_sound esc banned t ds ht)
theorem unescapeLoop_pair (esc : Rune) (banned : List Rune) : ∀ (t cs : List Rune),
    unescapeLoop esc banned true t = some cs → Escaped esc banned (esc :: t) cs
  | [], cs, h => by simp [unescapeLoop] at h
  | x :: t, cs, h => by
    simp only [unescapeLoop] at h
    cases ht : unescapeLoop esc banned false t with
    | none => rw [ht] at h; exact absurd h (by simp)
    | some ds =>
      rw [ht] at h
      simp only [Option.map_some, Option.some.injEq] at h
      subst h
      exact .pair (denotes_unescapeChar x) (unescapeLoop_sound esc banned t ds ht)
end

theorem unescapeLoop_complete {esc : Rune} {banned t cs : List Rune} (h : Escaped esc banned t cs) :
    unescapeLoop esc banned false t = some cs := by
  induction h with
  | nil => rfl
  | plain hc hb _ ih =>
    simp only [unescapeLoop]
    rw [if_neg (by simpa using hc), if_neg (by rw [runesContain_iff]; exact hb), ih]
    rfl
  | pair hd _ ih =>
    simp only [unescapeLoop, beq_self_eq_true, if_true, ih, Option.map_some, (denotes_iff _ _).1 hd]

/-- **C28**: `unescape` succeeds with the characters `cs` exactly when the text is a well formed
notation of `cs`. -/
theorem C28_unescape (esc : Rune) (banned t cs : List Rune) :
    unescape esc banned t = some cs ↔ Escaped esc banned t cs :=
  ⟨unescapeLoop_sound esc banned t cs, unescapeLoop_complete⟩

theorem escaped_or_malformed (esc : Rune) (banned : List Rune) : ∀ (n : Nat) (t : List Rune),
    t.length ≤ n → (∃ cs, Escaped esc banned t cs) ∨ Malformed esc banned t
  | _, [], _ => .inl ⟨[], .nil⟩
  | 0, _ :: _, h => absurd h (by simp)
  | n + 1, c :: t, h => by
    by_cases hc : c = esc
    · subst hc
      cases t with
      | nil => exact .inr .unfinished
      | cons x t =>
        rcases escaped_or_malformed c banned n t (by simp at h; omega) with ⟨cs, h⟩ | h
        · exact .inl ⟨_, .pair (denotes_unescapeChar x) h⟩
        · exact .inr (.pair h)
    · by_cases hb : c ∈ banned
      · exact .inr (.banned hc hb)
      · rcases escaped_or_malformed esc banned n t (by simpa using h) with ⟨cs, h⟩ | h
        · exact .inl ⟨_, .plain hc hb h⟩
        · exact .inr (.plain hc hb h)

theorem malformed_not_escaped {esc : Rune} {banned t cs : List Rune} (h : Malformed esc banned t)
    (he : Escaped esc banned t cs) : False := by
  induction h generalizing cs with
  | banned hc hb =>
    cases he with
    | plain _ hb' _ => exact hb' hb
    | pair _ _ => exact hc rfl
  | unfinished =>
    cases he with
    | plain hc _ _ => exact hc rfl
  | plain hc hb _ ih =>
    cases he with
    | plain _ _ he => exact ih he
    | pair _ _ => exact hc rfl
  | pair _ ih =>
    cases he with
    | plain hc _ _ => exact hc rfl
    | pair _ he => exact ih he

/-- **C28**: `unescape` fails exactly for the texts with a banned character outside of an escape or
with an unfinished escape. -/
theorem C28_rejected (esc : Rune) (banned t : List Rune) :
    unescape esc banned t = none ↔ Malformed esc banned t := by
  constructor
  · intro h
    rcases escaped_or_malformed esc banned t.length t (Nat.le_refl _) with ⟨cs, he⟩ | hm
    · rw [(C28_unescape _ _ _ _).2 he] at h; exact absurd h (by simp)
    · exact hm
  · intro h
    cases hu : unescape esc banned t with
    | none => rfl
    | some cs => exact (malformed_not_escaped h ((C28_unescape _ _ _ _).1 hu)).elim

/-- The letters that stand for control characters. -/
def letters : List Rune := controls.map Prod.fst

theorem escapeChar_escaped {esc c : Rune} {banned t cs : List Rune} (hl : c ∉ letters)
    (h : Escaped esc banned t cs) : Escaped esc banned (escapeChar esc c ++ t) (c :: cs) := by
  have hx : ∃ x, escapeChar esc c = [esc, x] ∧ Denotes x c := by
    unfold escapeChar
    by_cases h1 : c = 8
    · subst h1; exact ⟨98, by simp, by simp [Denotes, controls]⟩
    by_cases h2 : c = 12
    · subst h2; exact ⟨102, by simp, by simp [Denotes, controls]⟩
    by_cases h3 : c = 10
    · subst h3; exact ⟨110, by simp, by simp [Denotes, controls]⟩
    by_cases h4 : c = 13
    · subst h4; exact ⟨114, by simp, by simp [Denotes, controls]⟩
    by_cases h5 : c = 9
    · subst h5; exact ⟨116, by simp, by simp [Denotes, controls]⟩
    by_cases h6 : c = 11
    · subst h6; exact ⟨118, by simp, by simp [Denotes, controls]⟩
    · refine ⟨c, by simp [h1, h2, h3, h4, h5, h6], .inr ⟨fun d hd => hl ?_, rfl⟩⟩
      exact List.mem_map.2 ⟨_, hd, rfl⟩
  obtain ⟨x, hx, hd⟩ := hx
  rw [hx]
  exact .pair hd h

/-- **C28**: `escape` produces a well formed notation of its argument. -/
theorem C28_escape (esc : Rune) (banned cs : List Rune) (he : esc ∈ banned)
    (hl : ∀ l ∈ letters, l ∉ banned) : Escaped esc banned (escape esc banned cs) cs := by
  induction cs with
  | nil => exact .nil
  | cons c cs ih =>
    rw [escape, List.flatMap_cons]
    by_cases hb : c ∈ banned
    · rw [if_pos ((runesContain_iff _ _).2 hb)]
      exact escapeChar_escaped (fun h => hl c h hb) ih
    · rw [if_neg (by rw [runesContain_iff]; exact hb)]
      exact .plain (fun h => hb (h ▸ he)) hb ih

/-- **C28**: escaping is reversible, exactly when the escape character is one of the escaped characters
and none of the letters used for control characters is. -/
theorem C28_roundtrip (esc : Rune) (banned : List Rune) :
    (∀ cs, unescape esc banned (escape esc banned cs) = some cs) ↔
      esc ∈ banned ∧ ∀ l ∈ letters, l ∉ banned := by
  constructor
  · intro h
    constructor
    · apply Decidable.byContradiction
      intro he
      have := h [esc]
      rw [escape, List.flatMap_cons, if_neg (by rw [runesContain_iff]; exact he)] at this
      simp [unescape, unescapeLoop] at this
    · intro l hl hb
      have := h [l]
      rw [escape, List.flatMap_cons, if_pos ((runesContain_iff _ _).2 hb)] at this
      simp only [letters, controls, List.map_cons, List.map_nil, List.mem_cons, List.not_mem_nil,
        or_false] at hl
      rcases hl with rfl | rfl | rfl | rfl | rfl | rfl <;>
        simp [unescape, unescapeLoop, escapeChar, unescapeChar] at this
  · intro ⟨he, hl⟩ cs
    exact (C28_unescape _ _ _ _).2 (C28_escape esc banned cs he hl)


/-- **C28** for the characters that `format` escapes (chardefine.go:52, sequencedefine.go:217). -/
theorem C28_charClass (cs : List Rune) :
    unescape charClassEscape charClassBanned (escape charClassEscape charClassBanned cs) = some cs :=
  (C28_roundtrip _ _).2 (by decide) cs

/-- Escaping loses no information: different texts have different notations. -/
theorem C28_injective {esc : Rune} {banned cs ds : List Rune} (he : esc ∈ banned)
    (hl : ∀ l ∈ letters, l ∉ banned) (h : escape esc banned cs = escape esc banned ds) : cs = ds :=
  Option.some.inj <|
    ((C28_roundtrip esc banned).2 ⟨he, hl⟩ cs).symm.trans
      (h ▸ (C28_roundtrip esc banned).2 ⟨he, hl⟩ ds)

/-- A non-trivial case: a backslash, a bracket, a new line and a plain letter `n`. -/
example : escape charClassEscape charClassBanned (runes "\\]\nn") = runes "\\\\\\]\\nn" ∧
    unescape charClassEscape charClassBanned (runes "\\\\\\]\\nn") = some (runes "\\]\nn") := by
  decide

/-- The conditions are needed: with `n` among the escaped characters it comes back as a new line. -/
example : unescape 92 (runes "\\n") (escape 92 (runes "\\n") (runes "n")) = some (runes "\n") := by
  decide

example : Malformed 92 (runes "\\]") (runes "a]") := .plain (by decide) (by decide) (.banned (by decide) (by decide))

end Treerack
