import Verif.Proofs.Json
import Verif.Proofs.JsonRead

/-
The texts printed by the show command in the grammar of Spec/JsonGrammar.lean.
-/

namespace Treerack
open Spec

/-! ### The characters of the printed text -/

theorem indent_chars {indent : List Rune} {x : Rune} : ∀ {t : List Rune} {m : IndentMode} {need : Bool} {d : Nat},
    x ∈ indentText indent m need d t → x ∈ t ∨ x ∈ indent ∨ x = 10 ∨ x = 32 := by
  have nl : ∀ {d}, x ∈ indentNewline indent d → x ∈ indent ∨ x = 10 ∨ x = 32 := by
    intro d h
    rcases List.mem_cons.1 h with rfl | h
    · exact .inr (.inl rfl)
    · obtain ⟨l, h1, h2⟩ := List.mem_flatten.1 h
      rw [List.eq_of_mem_replicate h1] at h2
      exact .inl h2
  intro t
  induction t with
  | nil => intro m need d h; cases m <;> simp [indentText] at h
  | cons c cs ih =>
    have ih' : ∀ {m need d}, x ∈ indentText indent m need d cs → x ∈ c :: cs ∨ x ∈ indent ∨ x = 10 ∨ x = 32 :=
      fun h => (ih h).imp_left (List.mem_cons_of_mem _)
    have nl' : ∀ {d}, x ∈ indentNewline indent d → x ∈ c :: cs ∨ x ∈ indent ∨ x = 10 ∨ x = 32 := fun h => .inr (nl h)
    have hd : x = c → x ∈ c :: cs ∨ x ∈ indent ∨ x = 10 ∨ x = 32 := fun h => .inl (by simp [h])
    have pre : ∀ {b : Bool} {d}, x ∈ (if b = true then indentNewline indent d else []) → x ∈ c :: cs ∨ x ∈ indent ∨ x = 10 ∨ x = 32 := by
      intro b d h
      split at h
      · exact nl' h
      · cases h
    intro m need d h
    cases m with
    | str =>
      rcases List.mem_cons.1 h with h | h
      · exact hd h
      · exact ih' h
    | esc =>
      rcases List.mem_cons.1 h with h | h
      · exact hd h
      · exact ih' h
    | out =>
      unfold indentText at h
      simp only at h
      repeat' split at h
      all_goals simp only [List.mem_append, List.mem_cons, List.append_assoc, List.cons_append] at h
      all_goals
        first
        | (rcases h with h | h | h
           · exact nl' h
           · exact hd h
           · exact ih' h)
        | (rcases h with h | h | h | h
           · exact nl' h
           · exact hd h
           · exact nl' h
           · exact ih' h)
        | (rcases h with h | h | h | h
           · exact nl' h
           · exact hd h
           · exact .inr (.inr (.inr h))
           · exact ih' h)
        | (rcases h with h | h | h | h
           · exact nl' h
           · exact nl' h
           · exact hd h
           · exact ih' h)
        | (rcases h with h | h | h
           · cases h
           · exact hd h
           · exact ih' h)
        | (rcases h with h | h | h | h
           · cases h
           · exact hd h
           · exact nl' h
           · exact ih' h)
        | (rcases h with h | h | h | h
           · cases h
           · exact hd h
           · exact .inr (.inr (.inr h))
           · exact ih' h)
        | (rcases h with h | h | h | h
           · cases h
           · exact nl' h
           · exact hd h
           · exact ih' h)

/-! ### The printed tree in one line -/

/-- JSON with lowercase hexadecimal digits, and with the given whitespace. -/
def JsonText.spaced (sp : Rune → Prop) : JsonText.Flavor := { JsonText.lowercase with space := sp }

variable {sp : Rune → Prop}

theorem hexDigit_lower {n : Nat} (h : n < 16) : (JsonText.spaced sp).hex (hexDigit n) := by
  show (0x30 ≤ hexDigit n ∧ hexDigit n ≤ 0x39) ∨ (0x61 ≤ hexDigit n ∧ hexDigit n ≤ 0x66)
  unfold hexDigit
  have : ∀ m : Nat, m = (if n < 10 then 48 + n else 87 + n) → (0x30 ≤ m ∧ m ≤ 0x39) ∨ (0x61 ≤ m ∧ m ≤ 0x66) := by
    intro m hm
    split at hm <;> omega
  exact this _ rfl

theorem chars_append {F : JsonText.Flavor} {a b : List Rune} (ha : JsonText.Chars F a) (hb : JsonText.Chars F b) :
    JsonText.Chars F (a ++ b) := by
  induction ha with
  | nil => exact hb
  | plain h _ ih => exact .plain h ih
  | escape h _ ih => exact .escape h ih
  | unicode h1 h2 h3 h4 _ ih => exact .unicode h1 h2 h3 h4 ih

theorem jsonChar_chars {c : Rune} (hc : c ≤ 0x10FFFF) : JsonText.Chars (JsonText.spaced sp) (jsonChar c) := by
  have zero : (JsonText.spaced sp).hex 48 := .inl ⟨by decide, by decide⟩
  have two : (JsonText.spaced sp).hex 50 := .inl ⟨by decide, by decide⟩
  unfold jsonChar
  split
  · rename_i h
    exact .escape (by rcases h with rfl | rfl <;> decide) .nil
  · rename_i h1
    split
    · exact .escape (by decide) .nil
    · split
      · exact .escape (by decide) .nil
      · split
        · exact .escape (by decide) .nil
        · split
          · rename_i h
            have key : ∀ n : Nat, n < 32 ∨ n = 60 ∨ n = 62 ∨ n = 38 → n / 16 < 16 ∧ n % 16 < 16 := by omega
            exact .unicode zero zero (hexDigit_lower (key c h).1) (hexDigit_lower (key c h).2) .nil
          · rename_i h2
            split
            · exact .unicode two zero two (hexDigit_lower (Nat.mod_lt _ (by decide))) .nil
            · have key : ∀ n : Nat, ¬ (n = 92 ∨ n = 34) → ¬ (n < 32 ∨ n = 60 ∨ n = 62 ∨ n = 38) → n ≤ 0x10FFFF →
                  (0x20 ≤ n ∧ n ≤ 0x21) ∨ (0x23 ≤ n ∧ n ≤ 0x5B) ∨ (0x5D ≤ n ∧ n ≤ 0x10FFFF) := by omega
              exact .plain (key c h1 h2 hc) .nil

theorem jsonString_text {s : List Rune} (hs : SmallJson s) : JsonText.String (JsonText.spaced sp) (jsonString s) := by
  refine ⟨s.flatMap jsonChar, ?_, rfl⟩
  induction s with
  | nil => exact .nil
  | cons c s ih =>
    rw [List.flatMap_cons]
    exact chars_append (jsonChar_chars (hs c (List.mem_cons_self ..))) (ih fun x hx => hs x (List.mem_cons_of_mem _ hx))

theorem jsonField_member {name : String} {v : List Rune} (hn : (runes name).flatMap jsonChar = runes name) (hs : SmallJson (runes name))
    (h : JsonText.Value (JsonText.spaced sp) v) : JsonText.Member (JsonText.spaced sp) (jsonField name v) := by
  have := JsonText.Member.mk (w := []) (w' := []) (jsonString_text hs) nofun nofun h
  simpa [jsonField, jsonString, hn, show runes ":" = [58] by decide] using this

theorem members_pair {a b : List Rune} (ha : JsonText.Member (JsonText.spaced sp) a) (hb : JsonText.Members (JsonText.spaced sp) b) :
    JsonText.Members (JsonText.spaced sp) (a ++ 44 :: b) := by
  have := members_cons (w := []) (w' := []) ha nofun nofun hb
  simpa [show runes "," = [44] by decide] using this

mutual

theorem marshal_value : ∀ o : OutNode, SmallJson (outChars o) → JsonText.Value (JsonText.spaced sp) (marshal o)
  | .mk name f t text nodes, hs => by
    have hname : SmallJson name := fun x hx => hs x (by rw [outChars]; simp [hx])
    have htext : SmallJson text := fun x hx => hs x (by rw [outChars]; simp [hx])
    have hnodes : SmallJson (outChars.go nodes) := fun x hx => hs x (by rw [outChars]; simp [hx])
    have number : ∀ n, JsonText.Value (JsonText.spaced sp) (itoa n) := fun n => .number (decimal_number (isDecimal_itoa n))
    have m1 := jsonField_member (sp := sp) (name := "name") (by decide) (by decide) (.string (jsonString_text hname))
    have m2 := jsonField_member (sp := sp) (name := "from") (by decide) (by decide) (number f)
    have m3 := jsonField_member (sp := sp) (name := "to") (by decide) (by decide) (number t)
    have m4 := jsonField_member (sp := sp) (name := "text") (by decide) (by decide) (.string (jsonString_text htext))
    have m5 : ∀ {n ns}, nodes = n :: ns → JsonText.Member (JsonText.spaced sp) (jsonField "nodes" (91 :: marshal n ++ marshal.go ns)) := by
      rintro n ns rfl
      refine jsonField_member (by decide) (by decide) ?_
      obtain ⟨u, h1, h2⟩ := marshal_items ns (fun x hx => hnodes x (by rw [outChars.go]; simp [hx]))
        (marshal_value n (fun x hx => hnodes x (by rw [outChars.go]; simp [hx])))
      have := JsonText.Value.array (w := []) (w' := []) nofun h1 nofun
      have e : 91 :: marshal n ++ marshal.go ns = 91 :: (marshal n ++ marshal.go ns) := rfl
      rw [e, h2]
      simpa [show runes "[" = [91] by decide, show runes "]" = [93] by decide] using this
    have close : ∀ {m}, JsonText.Members (JsonText.spaced sp) m → JsonText.Value (JsonText.spaced sp) (123 :: (m ++ [125])) := by
      intro m h
      have := JsonText.Value.object (w := []) (w' := []) nofun h nofun
      simpa [show runes "{" = [123] by decide, show runes "}" = [125] by decide] using this
    rw [marshal.eq_def]
    cases nodes with
    | nil =>
      by_cases ht : text = []
      · have := close (members_pair m1 (members_pair m2 (.one m3)))
        simpa [ht] using this
      · have := close (members_pair m1 (members_pair m2 (members_pair m3 (.one m4))))
        simpa [ht] using this
    | cons n ns =>
      by_cases ht : text = []
      · have := close (members_pair m1 (members_pair m2 (members_pair m3 (.one (m5 rfl)))))
        simpa [ht] using this
      · have := close (members_pair m1 (members_pair m2 (members_pair m3 (members_pair m4 (.one (m5 rfl))))))
        simpa [ht] using this

theorem marshal_items : ∀ (ns : List OutNode) {v : List Rune}, SmallJson (outChars.go ns) → JsonText.Value (JsonText.spaced sp) v →
    ∃ u, JsonText.Values (JsonText.spaced sp) u ∧ v ++ marshal.go ns = u ++ [93]
  | [], v, _, hv => ⟨v, .one hv, by rw [marshal.go]⟩
  | n :: ns, v, hs, hv => by
    obtain ⟨u, h1, h2⟩ := marshal_items ns (fun x hx => hs x (by rw [outChars.go]; simp [hx]))
      (marshal_value n (fun x hx => hs x (by rw [outChars.go]; simp [hx])))
    have := values_cons (w := []) (w' := []) hv nofun nofun h1
    refine ⟨_, this, ?_⟩
    rw [marshal.go, List.cons_append, h2]
    simp [show runes "," = [44] by decide]

end

/-! ### The characters of JSON texts -/

theorem small_append {a b : List Rune} (ha : SmallJson a) (hb : SmallJson b) : SmallJson (a ++ b) := fun x hx =>
  (List.mem_append.1 hx).elim (ha x) (hb x)

section
variable {F : JsonText.Flavor} (hs : ∀ c, F.space c → c ≤ 0x10FFFF) (hp : ∀ c, F.plain c → c ≤ 0x10FFFF) (hh : ∀ c, F.hex c → c ≤ 0x10FFFF)
include hp hh

theorem JsonText.chars_small {t : List Rune} (h : JsonText.Chars F t) : SmallJson t := by
  have cons : ∀ {c : Rune} {t : List Rune}, c ≤ 0x10FFFF → SmallJson t → SmallJson (c :: t) := fun h1 h2 x hx => by
    rcases List.mem_cons.1 hx with rfl | hx
    · exact h1
    · exact h2 x hx
  induction h with
  | nil => exact nofun
  | plain h _ ih => exact cons (hp _ h) ih
  | escape h _ ih =>
    refine cons (by decide) (cons ?_ ih)
    exact (show ∀ c ∈ runes "\"\\/bfnrt", c ≤ 0x10FFFF by decide) _ h
  | unicode h1 h2 h3 h4 _ ih =>
    exact cons (by decide) (cons (by decide) (cons (hh _ h1) (cons (hh _ h2) (cons (hh _ h3) (cons (hh _ h4) ih)))))

theorem JsonText.string_small {t : List Rune} : JsonText.String F t → SmallJson t := by
  rintro ⟨cs, h, rfl⟩
  exact small_append (a := [0x22]) (by decide) (small_append (JsonText.chars_small hp hh h) (by decide))

omit hp hh in
theorem JsonText.number_small {t : List Rune} : JsonText.Number t → SmallJson t := by
  have digit : ∀ {ds : List Rune}, (∀ c ∈ ds, JsonText.Digit c) → SmallJson ds := fun h c hc => Nat.le_trans (h c hc).2 (by decide)
  rintro ⟨m, i, f, e, h1, h2, h3, h4, rfl⟩
  refine small_append (small_append (small_append ?_ ?_) ?_) ?_
  · rcases h1 with rfl | rfl <;> decide
  · rcases h2 with rfl | ⟨d, ds, -, h, hd, rfl⟩
    · decide
    · exact small_append (a := [d]) (by intro x hx; rw [List.mem_singleton.1 hx]; exact Nat.le_trans h (by decide)) (digit hd)
  · rcases h3 with rfl | ⟨ds, h, rfl⟩
    · decide
    · exact small_append (a := [0x2E]) (by decide) (digit h.2)
  · rcases h4 with rfl | ⟨e, sign, ds, he, hsg, hd, rfl⟩
    · decide
    · refine small_append (a := [e]) ?_ (small_append ?_ (digit hd.2))
      · rcases he with rfl | rfl <;> decide
      · rcases hsg with rfl | rfl | rfl <;> decide

include hs

mutual
theorem JsonText.value_small : ∀ {t : List Rune}, JsonText.Value F t → SmallJson t
  | _, .true => by decide
  | _, .false => by decide
  | _, .null => by decide
  | _, .string h => JsonText.string_small hp hh h
  | _, .number h => JsonText.number_small h
  | _, .emptyObject h => small_append (small_append (by decide) fun c hc => hs c (h c hc)) (by decide)
  | _, .object h1 h2 h3 => small_append (small_append (small_append (small_append (by decide) fun c hc => hs c (h1 c hc))
      (JsonText.members_small h2)) fun c hc => hs c (h3 c hc)) (by decide)
  | _, .emptyArray h => small_append (small_append (by decide) fun c hc => hs c (h c hc)) (by decide)
  | _, .array h1 h2 h3 => small_append (small_append (small_append (small_append (by decide) fun c hc => hs c (h1 c hc))
      (JsonText.values_small h2)) fun c hc => hs c (h3 c hc)) (by decide)

theorem JsonText.member_small : ∀ {t : List Rune}, JsonText.Member F t → SmallJson t
  | _, .mk h1 h2 h3 h4 => small_append (small_append (small_append (small_append (JsonText.string_small hp hh h1)
      fun c hc => hs c (h2 c hc)) (by decide)) fun c hc => hs c (h3 c hc)) (JsonText.value_small h4)

theorem JsonText.members_small : ∀ {t : List Rune}, JsonText.Members F t → SmallJson t
  | _, .one h => JsonText.member_small h
  | _, .more h1 h2 h3 h4 => small_append (small_append (small_append (small_append (JsonText.members_small h1)
      fun c hc => hs c (h2 c hc)) (by decide)) fun c hc => hs c (h3 c hc)) (JsonText.member_small h4)

theorem JsonText.values_small : ∀ {t : List Rune}, JsonText.Values F t → SmallJson t
  | _, .one h => JsonText.value_small h
  | _, .more h1 h2 h3 h4 => small_append (small_append (small_append (small_append (JsonText.values_small h1)
      fun c hc => hs c (h2 c hc)) (by decide)) fun c hc => hs c (h3 c hc)) (JsonText.value_small h4)
end

end

theorem marshal_small {o : OutNode} (h : SmallJson (outChars o)) : SmallJson (marshal o) := by
  refine JsonText.value_small ?_ ?_ ?_ (marshal_value (sp := JsonText.lowercase.space) o h)
  · rintro c (rfl | rfl | rfl | rfl) <;> decide
  · intro (c : Nat) hc
    have : ∀ n : Nat, ((0x20 ≤ n ∧ n ≤ 0x21) ∨ (0x23 ≤ n ∧ n ≤ 0x5B) ∨ (0x5D ≤ n ∧ n ≤ 0x10FFFF)) → n ≤ 0x10FFFF := by omega
    exact this c hc
  · intro (c : Nat) hc
    have : ∀ n : Nat, (0x30 ≤ n ∧ n ≤ 0x39) ∨ (0x61 ≤ n ∧ n ≤ 0x66) → n ≤ 0x10FFFF := by omega
    exact this c hc

theorem space_small {c : Rune} (h : Json.space c = true) : c ≤ 0x10FFFF := by
  rcases space_rfc h with rfl | rfl | rfl | rfl <;> decide

theorem showText_small {pretty : Bool} {indent : List Rune} (hi : ∀ c ∈ indent, Json.space c = true) {o : OutNode}
    (h : SmallJson (outChars o)) : SmallJson (showText pretty indent o) := by
  unfold showText
  split
  · intro c hc
    rcases indent_chars hc with hc | hc | rfl | rfl
    · exact marshal_small h c hc
    · split at hc
      · rw [List.eq_of_mem_replicate hc]; decide
      · exact space_small (hi c hc)
    · decide
    · decide
  · exact marshal_small h

/-! ### Where the characters come from -/

theorem jsonChar_from {c x : Rune} (h : x ∈ jsonChar c) : x = c ∨ x < 128 := by
  have hex : ∀ {n : Nat}, n < 16 → hexDigit n < 128 := fun {n} hn => by
    have : ∀ m : Nat, m = (if n < 10 then 48 + n else 87 + n) → m < 128 := by
      intro m hm
      split at hm <;> omega
    exact this _ rfl
  unfold jsonChar at h
  split at h
  · rcases List.mem_cons.1 h with rfl | h
    · exact .inr (by decide)
    · exact .inl (List.mem_singleton.1 h)
  · split at h
    · exact .inr ((show ∀ x ∈ [92, 110], x < 128 by decide) _ h)
    · split at h
      · exact .inr ((show ∀ x ∈ [92, 114], x < 128 by decide) _ h)
      · split at h
        · exact .inr ((show ∀ x ∈ [92, 116], x < 128 by decide) _ h)
        · split at h
          · rename_i hc
            have key : ∀ n : Nat, n < 32 ∨ n = 60 ∨ n = 62 ∨ n = 38 → n / 16 < 16 ∧ n % 16 < 16 := by omega
            simp only [List.mem_cons, List.not_mem_nil, or_false] at h
            rcases h with rfl | rfl | rfl | rfl | rfl | rfl
            iterate 4 exact .inr (by decide)
            · exact .inr (hex (key c hc).1)
            · exact .inr (hex (key c hc).2)
          · split at h
            · simp only [List.mem_cons, List.not_mem_nil, or_false] at h
              rcases h with rfl | rfl | rfl | rfl | rfl | rfl
              iterate 5 exact .inr (by decide)
              exact .inr (hex (Nat.mod_lt _ (by decide)))
            · exact .inl (List.mem_singleton.1 h)

theorem jsonString_from {s : List Rune} {x : Rune} (h : x ∈ jsonString s) : x ∈ s ∨ x < 128 := by
  unfold jsonString at h
  simp only [List.cons_append, List.mem_cons, List.mem_append, List.mem_flatMap, List.not_mem_nil, or_false] at h
  rcases h with rfl | ⟨c, h1, h2⟩ | rfl
  · exact .inr (by decide)
  · rcases jsonChar_from h2 with rfl | h
    · exact .inl h1
    · exact .inr h
  · exact .inr (by decide)

theorem jsonField_from {name : String} {v : List Rune} {x : Rune} (hn : ∀ c ∈ runes name, c < 128) (h : x ∈ jsonField name v) :
    x ∈ v ∨ x < 128 := by
  unfold jsonField at h
  simp only [List.cons_append, List.mem_cons, List.mem_append] at h
  rcases h with rfl | h | rfl | rfl | h
  · exact .inr (by decide)
  · exact .inr (hn x h)
  · exact .inr (by decide)
  · exact .inr (by decide)
  · exact .inl h

theorem itoa_from {n : Nat} {x : Rune} (h : x ∈ itoa n) : x < 128 := by
  have h2 := (isDigit_iff.1 (itoa_digits n x h)).2
  exact Nat.lt_of_le_of_lt h2 (by decide)

mutual
theorem marshal_from {x : Rune} : ∀ {o : OutNode}, x ∈ marshal o → x ∈ outChars o ∨ x < 128
  | .mk name f t text nodes, h => by
    have ih := @marshal_go_from x nodes
    have ih2 : ∀ {n ns}, nodes = n :: ns → x ∈ marshal n → x ∈ outChars.go nodes ∨ x < 128 := by
      rintro n ns rfl h
      rcases marshal_from h with h | h
      · exact .inl (by rw [outChars.go]; simp [h])
      · exact .inr h
    have ih3 : ∀ {n ns}, nodes = n :: ns → x ∈ marshal.go ns → x ∈ outChars.go nodes ∨ x < 128 := by
      rintro n ns rfl h
      rcases marshal_go_from h with h | h
      · exact .inl (by rw [outChars.go]; simp [h])
      · exact .inr h
    rw [outChars]
    rw [marshal.eq_def] at h
    simp only [List.mem_append]
    simp only [List.cons_append, List.mem_cons, List.mem_append, List.not_mem_nil, or_false, or_assoc] at h
    rcases h with rfl | h | rfl | h | rfl | h | h | h | rfl
    · exact .inr (by decide)
    · rcases jsonField_from (by decide) h with h | h
      · exact (jsonString_from h).imp_left fun h => .inl (.inl h)
      · exact .inr h
    · exact .inr (by decide)
    · rcases jsonField_from (by decide) h with h | h
      · exact .inr (itoa_from h)
      · exact .inr h
    · exact .inr (by decide)
    · rcases jsonField_from (by decide) h with h | h
      · exact .inr (itoa_from h)
      · exact .inr h
    · split at h
      · cases h
      · rcases List.mem_cons.1 h with rfl | h
        · exact .inr (by decide)
        · rcases jsonField_from (by decide) h with h | h
          · exact (jsonString_from h).imp_left fun h => .inl (.inr h)
          · exact .inr h
    · cases nodes with
      | nil => cases h
      | cons n ns =>
        rcases List.mem_cons.1 h with rfl | h
        · exact .inr (by decide)
        · rcases jsonField_from (by decide) h with h | h
          · rcases List.mem_cons.1 h with rfl | h
            · exact .inr (by decide)
            · rcases List.mem_append.1 h with h | h
              · exact (ih2 rfl h).imp_left .inr
              · exact (ih3 rfl h).imp_left .inr
          · exact .inr h
    · exact .inr (by decide)
theorem marshal_go_from {x : Rune} : ∀ {ns : List OutNode}, x ∈ marshal.go ns → x ∈ outChars.go ns ∨ x < 128
  | [], h => .inr (by rw [marshal.go] at h; rw [List.mem_singleton.1 h]; decide)
  | n :: ns, h => by
    have h1 := @marshal_from x n
    have h2 := @marshal_go_from x ns
    rw [marshal.go] at h
    simp only [List.cons_append, List.mem_cons, List.mem_append] at h
    rw [outChars.go, List.mem_append]
    rcases h with rfl | h | h
    · exact .inr (by decide)
    · exact (h1 h).imp_left .inl
    · exact (h2 h).imp_left .inr
end

end Treerack
