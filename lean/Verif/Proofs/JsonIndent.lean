import Verif.Proofs.JsonShow
import Verif.Proofs.JsonUnique
import Verif.Spec.JsonMeaning

/-
json.Indent: the indented text of a JSON value without whitespace is a JSON value.
-/

namespace Treerack
open Spec

/-- No whitespace. -/
abbrev JsonText.compact : JsonText.Flavor := JsonText.spaced fun _ => False

theorem compact_space {w : List Rune} (h : JsonText.Space JsonText.compact w) : w = [] := by
  cases w with
  | nil => rfl
  | cons c w => exact (h c (List.mem_cons_self ..)).elim

/-- The characters with a meaning for json.Indent outside of the strings. -/
def jsonMarks : List Rune := [123, 91, 44, 58, 125, 93, 34]

theorem indent_plain {indent : List Rune} {d : Nat} {rest : List Rune} : ∀ {t : List Rune}, (∀ c ∈ t, c ∉ jsonMarks) →
    indentText indent .out false d (t ++ rest) = t ++ indentText indent .out false d rest
  | [], _ => rfl
  | c :: t, h => by
    have hc := h c (List.mem_cons_self ..)
    simp only [jsonMarks, List.mem_cons, List.not_mem_nil, or_false, not_or] at hc
    rw [List.cons_append, indentText]
    simp [hc.1, hc.2.1, hc.2.2.1, hc.2.2.2.1, hc.2.2.2.2.1, hc.2.2.2.2.2.1, hc.2.2.2.2.2.2,
      indent_plain (indent := indent) (d := d) (rest := rest) (t := t) fun c hc => h c (List.mem_cons_of_mem _ hc)]

theorem indent_inside {indent : List Rune} {need : Bool} {d : Nat} {rest t : List Rune} (h : JsonText.Chars JsonText.compact t) :
    indentText indent .str need d (t ++ 34 :: rest) = t ++ 34 :: indentText indent .out need d rest := by
  have hex : ∀ c : Nat, JsonText.compact.hex c → c ≠ 34 ∧ c ≠ 92 := by
    intro c hc
    have hc : (0x30 ≤ c ∧ c ≤ 0x39) ∨ (0x61 ≤ c ∧ c ≤ 0x66) := hc
    omega
  induction h with
  | nil => rw [List.nil_append, indentText]; simp
  | @plain c t hc _ ih =>
    have : ∀ c : Nat, JsonText.compact.plain c → c ≠ 34 ∧ c ≠ 92 := by
      intro c hc
      have hc : (0x20 ≤ c ∧ c ≤ 0x21) ∨ (0x23 ≤ c ∧ c ≤ 0x5B) ∨ (0x5D ≤ c ∧ c ≤ 0x10FFFF) := hc
      omega
    have := this c hc
    rw [List.cons_append, indentText]
    simp [this.1, this.2, ih]
  | escape _ _ ih =>
    rw [List.cons_append, List.cons_append, indentText, if_neg (by decide), if_pos rfl, indentText, ih]
    rfl
  | unicode h1 h2 h3 h4 _ ih =>
    simp only [List.cons_append]
    rw [indentText, if_neg (by decide), if_pos rfl, indentText, indentText, if_neg (hex _ h1).1, if_neg (hex _ h1).2,
      indentText, if_neg (hex _ h2).1, if_neg (hex _ h2).2, indentText, if_neg (hex _ h3).1, if_neg (hex _ h3).2,
      indentText, if_neg (hex _ h4).1, if_neg (hex _ h4).2, ih]

theorem compact_chars {sp : Rune → Prop} {t : List Rune} (h : JsonText.Chars JsonText.compact t) :
    JsonText.Chars (JsonText.spaced sp) t := by
  induction h with
  | nil => exact .nil
  | plain h _ ih => exact .plain h ih
  | escape h _ ih => exact .escape h ih
  | unicode h1 h2 h3 h4 _ ih => exact .unicode h1 h2 h3 h4 ih

theorem indent_string {indent : List Rune} {d : Nat} {rest t : List Rune} (h : JsonText.String JsonText.compact t) :
    indentText indent .out false d (t ++ rest) = t ++ indentText indent .out false d rest := by
  obtain ⟨cs, hc, rfl⟩ := h
  rw [List.cons_append, indentText]
  simp [indent_inside hc]

theorem number_plain {t : List Rune} (h : JsonText.Number t) : ∀ c ∈ t, c ∉ jsonMarks := by
  have digit : ∀ c : Nat, JsonText.Digit c → c ∉ jsonMarks := by
    intro c hc
    have hc : 0x30 ≤ c ∧ c ≤ 0x39 := hc
    simp only [jsonMarks, List.mem_cons, List.not_mem_nil, or_false]
    omega
  obtain ⟨m, i, f, e, h1, h2, h3, h4, rfl⟩ := h
  intro c hc
  simp only [List.mem_append] at hc
  rcases hc with ((hc | hc) | hc) | hc
  · rcases h1 with rfl | rfl
    · cases hc
    · rw [List.mem_singleton.1 hc]; decide
  · rcases h2 with rfl | ⟨x, ds, hx1, hx2, hds, rfl⟩
    · rw [List.mem_singleton.1 hc]; decide
    · rcases List.mem_cons.1 hc with rfl | hc
      · exact digit _ ⟨Nat.le_of_succ_le hx1, hx2⟩
      · exact digit _ (hds _ hc)
  · rcases h3 with rfl | ⟨ds, hds, rfl⟩
    · cases hc
    · rcases List.mem_cons.1 hc with rfl | hc
      · decide
      · exact digit _ (hds.2 _ hc)
  · rcases h4 with rfl | ⟨x, sg, ds, hx, hs, hds, rfl⟩
    · cases hc
    · rcases List.mem_cons.1 hc with rfl | hc
      · rcases hx with rfl | rfl <;> decide
      · rcases List.mem_append.1 hc with hc | hc
        · rcases hs with rfl | rfl | rfl
          · cases hc
          · rw [List.mem_singleton.1 hc]; decide
          · rw [List.mem_singleton.1 hc]; decide
        · exact digit _ (hds.2 _ hc)

/-- The text begins with a character that is not the end of an object or of an array. -/
def Opened (t : List Rune) : Prop := ∃ c r, t = c :: r ∧ c ≠ 125 ∧ c ≠ 93

theorem Opened.append {t u : List Rune} (h : Opened t) : Opened (t ++ u) := by
  obtain ⟨c, r, rfl, h⟩ := h
  exact ⟨c, r ++ u, rfl, h⟩

theorem opened_string {F : JsonText.Flavor} {t : List Rune} (h : JsonText.String F t) : Opened t := by
  obtain ⟨cs, -, rfl⟩ := h
  exact ⟨34, _, rfl, by decide, by decide⟩

theorem opened_value {F : JsonText.Flavor} {t : List Rune} (h : JsonText.Value F t) : Opened t := by
  cases h with
  | true => exact ⟨_, _, rfl, by decide, by decide⟩
  | false => exact ⟨_, _, rfl, by decide, by decide⟩
  | null => exact ⟨_, _, rfl, by decide, by decide⟩
  | string h => exact opened_string h
  | number h =>
    have hm := number_plain h
    obtain ⟨m, i, f, e, h1, h2, -, -, rfl⟩ := h
    have : m ++ i ++ f ++ e ≠ [] := by
      rcases h2 with rfl | ⟨_, _, _, _, _, rfl⟩ <;> simp
    generalize m ++ i ++ f ++ e = t at *
    cases t with
    | nil => exact absurd rfl this
    | cons c t =>
      have := hm c (List.mem_cons_self ..)
      simp only [jsonMarks, List.mem_cons, List.not_mem_nil, or_false, not_or] at this
      exact ⟨c, t, rfl, this.2.2.2.2.1, this.2.2.2.2.2.1⟩
  | emptyObject h => exact ⟨_, _, rfl, by decide, by decide⟩
  | object _ _ _ => exact ⟨_, _, rfl, by decide, by decide⟩
  | emptyArray h => exact ⟨_, _, rfl, by decide, by decide⟩
  | array _ _ _ => exact ⟨_, _, rfl, by decide, by decide⟩

theorem opened_member {F : JsonText.Flavor} {t : List Rune} (h : JsonText.Member F t) : Opened t := by
  cases h with
  | mk h _ _ _ => exact (((opened_string h).append.append).append).append

theorem opened_members {F : JsonText.Flavor} {t : List Rune} : JsonText.Members F t → Opened t
  | .one h => opened_member h
  | .more h _ _ _ => (((opened_members h).append.append).append).append

theorem opened_values {F : JsonText.Flavor} {t : List Rune} : JsonText.Values F t → Opened t
  | .one h => opened_value h
  | .more h _ _ _ => (((opened_values h).append.append).append).append

/-- After an opening brace or bracket. -/
theorem indent_opened {indent : List Rune} {d : Nat} {t : List Rune} (h : Opened t) :
    indentText indent .out true d t = indentNewline indent (d + 1) ++ indentText indent .out false (d + 1) t := by
  obtain ⟨c, r, rfl, h1, h2⟩ := h
  rw [indentText, indentText]
  simp only [h1, h2, ne_eq, not_false_eq_true, Bool.true_and, Bool.false_and, decide_true, Bool.not_true, Bool.not_false,
    Bool.and_false, if_true, if_false, Bool.and_self, Bool.false_eq_true, List.nil_append, or_self,
    (by simpa using h1 : (c != 125) = true), (by simpa using h2 : (c != 93) = true)]
  repeat' split
  all_goals simp

section
variable {sp : Rune → Prop} {indent : List Rune} (h10 : sp 10) (h32 : sp 32) (hi : ∀ c ∈ indent, sp c)
include h10 h32 hi

omit h32 in
theorem newline_space (d : Nat) : JsonText.Space (JsonText.spaced sp) (indentNewline indent d) := by
  intro c hc
  unfold indentNewline at hc
  rcases List.mem_cons.1 hc with rfl | hc
  · exact h10
  · obtain ⟨l, hl, hc⟩ := List.mem_flatten.1 hc
    rw [(List.mem_replicate.1 hl).2] at hc
    exact hi c hc

mutual

theorem indent_value : ∀ {t : List Rune} {j : JsonText.JValue}, JsonText.ValueOf JsonText.compact t j → ∀ (d : Nat) (rest : List Rune),
    ∃ v, JsonText.ValueOf (JsonText.spaced sp) v j ∧ indentText indent .out false d (t ++ rest) = v ++ indentText indent .out false d rest
  | _, _, .true, _, _ => ⟨_, .true, indent_plain (by decide)⟩
  | _, _, .false, _, _ => ⟨_, .false, indent_plain (by decide)⟩
  | _, _, .null, _, _ => ⟨_, .null, indent_plain (by decide)⟩
  | _, _, .string h, _, _ => ⟨_, .string (by obtain ⟨cs, h, e⟩ := h; exact ⟨cs, compact_chars h, e⟩), indent_string h⟩
  | _, _, .number h, _, _ => ⟨_, .number h, indent_plain (number_plain h)⟩
  | _, _, .emptyObject hw, d, rest => by
    refine ⟨_, .emptyObject (w := []) nofun, ?_⟩
    rw [compact_space hw, show runes "{" = [123] by decide, show runes "}" = [125] by decide]
    simp [indentText]
  | _, _, .emptyArray hw, d, rest => by
    refine ⟨_, .emptyArray (w := []) nofun, ?_⟩
    rw [compact_space hw, show runes "[" = [91] by decide, show runes "]" = [93] by decide]
    simp [indentText]
  | _, _, .object (t := t) hw hm hw', d, rest => by
    obtain ⟨v, hv, e⟩ := indent_members hm (d + 1) (125 :: rest)
    refine ⟨_, .object (newline_space h10 hi (d + 1)) hv (newline_space h10 hi d), ?_⟩
    rw [compact_space hw, compact_space hw', show runes "{" = [123] by decide, show runes "}" = [125] by decide]
    have e1 := indent_opened (indent := indent) (d := d) (opened_members hm.members).append (t := t ++ 125 :: rest)
    have e2 : ([123] ++ [] ++ t ++ [] ++ [125]) ++ rest = 123 :: (t ++ 125 :: rest) := by simp
    have e3 : indentText indent .out false (d + 1) (125 :: rest) = indentNewline indent d ++ 125 :: indentText indent .out false d rest := by
      simp [indentText]
    rw [e2, indentText]
    simp [e1, e, e3]
  | _, _, .array (t := t) hw hm hw', d, rest => by
    obtain ⟨v, hv, e⟩ := indent_values hm (d + 1) (93 :: rest)
    refine ⟨_, .array (newline_space h10 hi (d + 1)) hv (newline_space h10 hi d), ?_⟩
    rw [compact_space hw, compact_space hw', show runes "[" = [91] by decide, show runes "]" = [93] by decide]
    have e1 := indent_opened (indent := indent) (d := d) (opened_values hm.values).append (t := t ++ 93 :: rest)
    have e2 : ([91] ++ [] ++ t ++ [] ++ [93]) ++ rest = 91 :: (t ++ 93 :: rest) := by simp
    have e3 : indentText indent .out false (d + 1) (93 :: rest) = indentNewline indent d ++ 93 :: indentText indent .out false d rest := by
      simp [indentText]
    rw [e2, indentText]
    simp [e1, e, e3]

theorem indent_member : ∀ {t : List Rune} {j : List Rune × JsonText.JValue}, JsonText.MemberOf JsonText.compact t j → ∀ (d : Nat) (rest : List Rune),
    ∃ v, JsonText.MemberOf (JsonText.spaced sp) v j ∧ indentText indent .out false d (t ++ rest) = v ++ indentText indent .out false d rest
  | _, _, .mk (s := s) (t := t) hs hw hw' ht, d, rest => by
    obtain ⟨v, hv, e⟩ := indent_value ht d rest
    refine ⟨_, .mk (w := []) (w' := [32]) (by obtain ⟨cs, h, e⟩ := hs; exact ⟨cs, compact_chars h, e⟩) nofun
      (by intro c hc; rw [List.mem_singleton.1 hc]; exact h32) hv, ?_⟩
    rw [compact_space hw, compact_space hw', show runes ":" = [58] by decide]
    have e2 : (s ++ [] ++ [58] ++ [] ++ t) ++ rest = s ++ 58 :: (t ++ rest) := by simp
    rw [e2, indent_string hs, indentText]
    simp [e]

theorem indent_members : ∀ {t : List Rune} {j : List (List Rune × JsonText.JValue)}, JsonText.MembersOf JsonText.compact t j → ∀ (d : Nat) (rest : List Rune),
    ∃ v, JsonText.MembersOf (JsonText.spaced sp) v j ∧ indentText indent .out false d (t ++ rest) = v ++ indentText indent .out false d rest
  | _, _, .one h, d, rest => by
    obtain ⟨v, hv, e⟩ := indent_member h d rest
    exact ⟨v, .one hv, e⟩
  | _, _, .more (t := t) (u := u) hm hw hw' hu, d, rest => by
    obtain ⟨v, hv, e⟩ := indent_members hm d (44 :: (u ++ rest))
    obtain ⟨v', hv', e'⟩ := indent_member hu d rest
    refine ⟨_, .more (w := []) hv nofun (newline_space h10 hi d) hv', ?_⟩
    rw [compact_space hw, compact_space hw', show runes "," = [44] by decide]
    have e2 : (t ++ [] ++ [44] ++ [] ++ u) ++ rest = t ++ 44 :: (u ++ rest) := by simp
    rw [e2, e, indentText]
    simp [e']

theorem indent_values : ∀ {t : List Rune} {j : List JsonText.JValue}, JsonText.ValuesOf JsonText.compact t j → ∀ (d : Nat) (rest : List Rune),
    ∃ v, JsonText.ValuesOf (JsonText.spaced sp) v j ∧ indentText indent .out false d (t ++ rest) = v ++ indentText indent .out false d rest
  | _, _, .one h, d, rest => by
    obtain ⟨v, hv, e⟩ := indent_value h d rest
    exact ⟨v, .one hv, e⟩
  | _, _, .more (t := t) (u := u) hm hw hw' hu, d, rest => by
    obtain ⟨v, hv, e⟩ := indent_values hm d (44 :: (u ++ rest))
    obtain ⟨v', hv', e'⟩ := indent_value hu d rest
    refine ⟨_, .more (w := []) hv nofun (newline_space h10 hi d) hv', ?_⟩
    rw [compact_space hw, compact_space hw', show runes "," = [44] by decide]
    have e2 : (t ++ [] ++ [44] ++ [] ++ u) ++ rest = t ++ 44 :: (u ++ rest) := by simp
    rw [e2, e, indentText]
    simp [e']

end

end

/-! ### The value of the printed text -/

theorem members_of_cons {F : JsonText.Flavor} {a b : List Rune} {x : List Rune × JsonText.JValue} (h1 : JsonText.MemberOf F a x) :
    ∀ {xs : List (List Rune × JsonText.JValue)}, JsonText.MembersOf F b xs → JsonText.MembersOf F (a ++ 44 :: b) (x :: xs)
  | _, .one h => by
    have := JsonText.MembersOf.more (w := []) (w' := []) (.one h1) nofun nofun h
    simpa [show runes "," = [44] by decide] using this
  | _, .more g1 g2 g3 g4 => by
    have := JsonText.MembersOf.more (members_of_cons h1 g1) g2 g3 g4
    simpa using this

theorem values_of_cons {F : JsonText.Flavor} {a b : List Rune} {x : JsonText.JValue} (h1 : JsonText.ValueOf F a x) :
    ∀ {xs : List JsonText.JValue}, JsonText.ValuesOf F b xs → JsonText.ValuesOf F (a ++ 44 :: b) (x :: xs)
  | _, .one h => by
    have := JsonText.ValuesOf.more (w := []) (w' := []) (.one h1) nofun nofun h
    simpa [show runes "," = [44] by decide] using this
  | _, .more g1 g2 g3 g4 => by
    have := JsonText.ValuesOf.more (values_of_cons h1 g1) g2 g3 g4
    simpa using this

/-- The printed value of a field. -/
theorem jsonField_of {sp : Rune → Prop} {name : String} {v : List Rune} {j : JsonText.JValue}
    (hn : (runes name).flatMap jsonChar = runes name) (hs : SmallJson (runes name))
    (h : JsonText.ValueOf (JsonText.spaced sp) v j) :
    JsonText.MemberOf (JsonText.spaced sp) (jsonField name v) (jsonString (runes name), j) := by
  have := JsonText.MemberOf.mk (w := []) (w' := []) (jsonString_text hs) nofun nofun h
  simpa [jsonField, jsonString, hn, show runes ":" = [58] by decide] using this

theorem meaning_string (s : List Rune) : JsonText.meaning (.string (jsonString s)) = some (.str s) := by
  rw [JsonText.meaning]
  have : (List.drop 1 (jsonString s)).dropLast = s.flatMap jsonChar := by simp [jsonString]
  rw [this, Json.decode_chars]
  rfl

theorem meaning_number (n : Nat) : JsonText.meaning (.number (itoa n)) = some (.num n) := by
  rw [JsonText.meaning, if_pos (isDecimal_itoa n), decimal_itoa]

theorem meaning_member {name : String} {j : JsonText.JValue} {v : Json} (h : JsonText.meaning j = some v) :
    JsonText.meaningMember (jsonString (runes name), j) = some (runes name, v) := by
  rw [JsonText.meaningMember]
  have : (List.drop 1 (jsonString (runes name))).dropLast = (runes name).flatMap jsonChar := by simp [jsonString]
  rw [this, Json.decode_chars, h]
  rfl

mutual

theorem marshal_of {sp : Rune → Prop} : ∀ o : OutNode, SmallJson (outChars o) →
    ∃ j, JsonText.ValueOf (JsonText.spaced sp) (marshal o) j ∧ JsonText.meaning j = some (jsonOf o)
  | .mk name f t text nodes, hs => by
    have hname : SmallJson name := fun x hx => hs x (by rw [outChars]; simp [hx])
    have htext : SmallJson text := fun x hx => hs x (by rw [outChars]; simp [hx])
    have hnodes : SmallJson (outChars.go nodes) := fun x hx => hs x (by rw [outChars]; simp [hx])
    have number : ∀ n, JsonText.ValueOf (JsonText.spaced sp) (itoa n) (.number (itoa n)) :=
      fun n => .number (decimal_number (isDecimal_itoa n))
    have m1 := jsonField_of (sp := sp) (name := "name") (by decide) (by decide) (.string (jsonString_text hname))
    have m2 := jsonField_of (sp := sp) (name := "from") (by decide) (by decide) (number f)
    have m3 := jsonField_of (sp := sp) (name := "to") (by decide) (by decide) (number t)
    have m4 := jsonField_of (sp := sp) (name := "text") (by decide) (by decide) (.string (jsonString_text htext))
    have v1 := meaning_member (name := "name") (meaning_string name)
    have v2 := meaning_member (name := "from") (meaning_number f)
    have v3 := meaning_member (name := "to") (meaning_number t)
    have v4 := meaning_member (name := "text") (meaning_string text)
    have m5 : ∀ {n ns}, nodes = n :: ns → ∃ j,
        JsonText.MemberOf (JsonText.spaced sp) (jsonField "nodes" (91 :: marshal n ++ marshal.go ns)) (jsonString (runes "nodes"), j) ∧
        JsonText.meaning j = some (.arr (jsonOf n :: jsonOf.go ns)) := by
      rintro n ns rfl
      obtain ⟨j, hj, ej⟩ := marshal_of n (fun x hx => hnodes x (by rw [outChars.go]; simp [hx]))
      obtain ⟨u, js, h1, h2, h3⟩ := marshal_of_items ns (fun x hx => hnodes x (by rw [outChars.go]; simp [hx])) hj ej
      refine ⟨.array js, jsonField_of (by decide) (by decide) ?_, by rw [JsonText.meaning, h3]; rfl⟩
      have := JsonText.ValueOf.array (w := []) (w' := []) nofun h1 nofun
      have e : 91 :: marshal n ++ marshal.go ns = 91 :: (marshal n ++ marshal.go ns) := rfl
      rw [e, h2]
      simpa [show runes "[" = [91] by decide, show runes "]" = [93] by decide] using this
    have close : ∀ {m js}, JsonText.MembersOf (JsonText.spaced sp) m js →
        JsonText.ValueOf (JsonText.spaced sp) (123 :: (m ++ [125])) (.object js) := by
      intro m js h
      have := JsonText.ValueOf.object (w := []) (w' := []) nofun h nofun
      simpa [show runes "{" = [123] by decide, show runes "}" = [125] by decide] using this
    rw [marshal.eq_def, jsonOf.eq_def]
    cases nodes with
    | nil =>
      by_cases ht : text = []
      · refine ⟨_, by simpa [ht] using close (members_of_cons m1 (members_of_cons m2 (.one m3))), ?_⟩
        simp [JsonText.meaning, JsonText.meaningMembers, v1, v2, v3, ht]
      · refine ⟨_, by simpa [ht] using close (members_of_cons m1 (members_of_cons m2 (members_of_cons m3 (.one m4)))), ?_⟩
        simp [JsonText.meaning, JsonText.meaningMembers, v1, v2, v3, v4, ht]
    | cons n ns =>
      obtain ⟨j, m5, v5⟩ := m5 rfl
      have v5 := meaning_member (name := "nodes") v5
      by_cases ht : text = []
      · refine ⟨_, by simpa [ht] using close (members_of_cons m1 (members_of_cons m2 (members_of_cons m3 (.one m5)))), ?_⟩
        simp [JsonText.meaning, JsonText.meaningMembers, v1, v2, v3, v5, ht]
      · refine ⟨_, by simpa [ht] using close (members_of_cons m1 (members_of_cons m2 (members_of_cons m3 (members_of_cons m4 (.one m5))))), ?_⟩
        simp [JsonText.meaning, JsonText.meaningMembers, v1, v2, v3, v4, v5, ht]

theorem marshal_of_items {sp : Rune → Prop} : ∀ (ns : List OutNode) {v : List Rune} {j : JsonText.JValue} {x : Json},
    SmallJson (outChars.go ns) → JsonText.ValueOf (JsonText.spaced sp) v j → JsonText.meaning j = some x →
    ∃ u js, JsonText.ValuesOf (JsonText.spaced sp) u js ∧ v ++ marshal.go ns = u ++ [93] ∧
      JsonText.meaningValues js = some (x :: jsonOf.go ns)
  | [], v, j, x, _, hv, hx => ⟨v, _, .one hv, by rw [marshal.go], by simp [JsonText.meaningValues, hx, jsonOf.go]⟩
  | n :: ns, v, j, x, hs, hv, hx => by
    obtain ⟨j', hj, ej⟩ := marshal_of (sp := sp) n (fun x hx => hs x (by rw [outChars.go]; simp [hx]))
    obtain ⟨u, js, h1, h2, h3⟩ := marshal_of_items ns (fun x hx => hs x (by rw [outChars.go]; simp [hx])) hj ej
    refine ⟨_, _, values_of_cons hv h1, ?_, ?_⟩
    · rw [marshal.go, List.cons_append, h2]
      simp
    · simp [JsonText.meaningValues, hx, h3, jsonOf.go]

end

/-- The text printed by show has a JSON value that means the tree. -/
theorem showText_of {pretty : Bool} {indent : List Rune} {o : OutNode} (hi : ∀ c ∈ indent, JsonText.rfc.space c)
    (ho : SmallJson (outChars o)) :
    ∃ j, JsonText.ValueOf JsonText.lowercase (showText pretty indent o) j ∧ JsonText.meaning j = some (jsonOf o) := by
  unfold showText
  split
  · have hi' : ∀ c ∈ (if indent = [] then List.replicate 4 32 else indent), JsonText.rfc.space c := by
      split
      · intro c hc
        rw [(List.mem_replicate.1 hc).2]
        exact .inl rfl
      · exact hi
    obtain ⟨j, hj, ej⟩ := marshal_of (sp := fun _ => False) o ho
    obtain ⟨v, hv, e⟩ := indent_value (sp := JsonText.rfc.space) (.inr (.inr (.inl rfl))) (.inl rfl) hi' hj 0 []
    rw [List.append_nil] at e
    refine ⟨j, ?_, ej⟩
    rw [e]
    simp only [indentText, List.append_nil]
    exact hv
  · exact marshal_of o ho

end Treerack
