import Verif.Model.Json
import Verif.Spec.Json
import Verif.Proofs.GoLex

/-
Reading the printed trees.
-/

namespace Treerack.Spec.Json

/-! ### Values as tokens -/

/-- The tokens of a value. -/
def toks : Json → List Tok
  | .str t => [.str t]
  | .num n => [.num n]
  | .arr [] => [.punct 91, .punct 93]
  | .arr (j :: js) => .punct 91 :: toks j ++ items js
  | .obj [] => [.punct 123, .punct 125]
  | .obj ((k, j) :: ms) => .punct 123 :: .str k :: .punct 58 :: toks j ++ fields ms
where
  items : List Json → List Tok
  | [] => [.punct 93]
  | j :: js => .punct 44 :: toks j ++ items js
  fields : List (List Rune × Json) → List Tok
  | [] => [.punct 125]
  | (k, j) :: ms => .punct 44 :: .str k :: .punct 58 :: toks j ++ fields ms

theorem toks_head : ∀ j : Json, ∃ t ts, toks j = t :: ts ∧ t ≠ .punct 93 ∧ t ≠ .punct 125
  | .str t => ⟨_, _, rfl, by simp, by simp⟩
  | .num t => ⟨_, _, rfl, by simp, by simp⟩
  | .arr [] => ⟨_, _, by rw [toks], by simp, by simp⟩
  | .arr (_ :: _) => ⟨_, _, by rw [toks]; rfl, by simp, by simp⟩
  | .obj [] => ⟨_, _, by rw [toks], by simp, by simp⟩
  | .obj ((_, _) :: _) => ⟨_, _, by rw [toks]; rfl, by simp, by simp⟩

theorem value_arr {n : Nat} {t : Tok} {ts : List Tok} (h : t ≠ .punct 93) :
    value (n + 1) (.punct 91 :: t :: ts) = (elements n (t :: ts)).map fun x => (.arr x.1, x.2) := by
  rw [value.eq_def]
  simp only [if_pos]
  split
  · rename_i heq; simp only [List.cons.injEq] at heq; exact absurd heq.1 h
  · rfl

theorem value_obj {n : Nat} {t : Tok} {ts : List Tok} (h : t ≠ .punct 125) :
    value (n + 1) (.punct 123 :: t :: ts) = (members n (t :: ts)).map fun x => (.obj x.1, x.2) := by
  rw [value.eq_def]
  simp only [if_pos]
  rw [if_neg (by decide)]
  split
  · rename_i heq; simp only [List.cons.injEq] at heq; exact absurd heq.1 h
  · rfl

mutual
theorem value_toks : ∀ (j : Json) (n : Nat) (rest : List Tok), (toks j).length ≤ n → value n (toks j ++ rest) = some (j, rest)
  | _, 0, _, h => by
    obtain ⟨t, ts, e, _⟩ := toks_head _
    rw [e] at h; simp at h
  | .str t, n + 1, rest, _ => by simp [toks, value]
  | .num t, n + 1, rest, _ => by simp [toks, value]
  | .arr [], n + 1, rest, _ => by simp [toks, value]
  | .obj [], n + 1, rest, _ => by simp [toks, value]
  | .arr (j :: js), n + 1, rest, h => by
    rw [toks] at h ⊢
    obtain ⟨t, ts, e, h1, _⟩ := toks_head j
    have ih := elements_toks j js n rest (by simpa using h)
    rw [e] at ih ⊢
    simp only [List.cons_append, List.append_assoc] at ih ⊢
    rw [value_arr h1, ih]
    rfl
  | .obj ((k, j) :: ms), n + 1, rest, h => by
    rw [toks] at h ⊢
    have ih := members_toks k j ms n rest (by simpa using h)
    simp only [List.cons_append, List.append_assoc] at ih ⊢
    rw [value_obj (by simp), ih]
    rfl
theorem elements_toks : ∀ (j : Json) (js : List Json) (n : Nat) (rest : List Tok), (toks j ++ toks.items js).length ≤ n →
    elements n (toks j ++ toks.items js ++ rest) = some (j :: js, rest)
  | j, js, 0, _, h => by
    obtain ⟨t, ts, e, _⟩ := toks_head j
    rw [e] at h; simp at h
  | j, [], n + 1, rest, h => by
    have : value n (toks j ++ toks.items [] ++ rest) = some (j, toks.items [] ++ rest) := by
      rw [List.append_assoc]
      exact value_toks j n _ (by rw [toks.items] at h; simp at h; omega)
    rw [elements, this]
    simp [toks.items]
  | j, k :: js, n + 1, rest, h => by
    have hl : (toks j).length + 1 + ((toks k ++ toks.items js).length) ≤ n + 1 := by
      rw [toks.items] at h; simp at h ⊢; omega
    obtain ⟨t, ts, e, _⟩ := toks_head j
    have : value n (toks j ++ toks.items (k :: js) ++ rest) = some (j, toks.items (k :: js) ++ rest) := by
      rw [List.append_assoc]
      exact value_toks j n _ (by omega)
    rw [elements, this]
    have ih := elements_toks k js n rest (by rw [e] at hl; simp at hl ⊢; omega)
    simp only [toks.items, List.cons_append, Option.bind_some, ih]
    rfl
theorem members_toks : ∀ (k : List Rune) (j : Json) (ms : List (List Rune × Json)) (n : Nat) (rest : List Tok),
    (Tok.str k :: .punct 58 :: toks j ++ toks.fields ms).length ≤ n →
    members n (.str k :: .punct 58 :: toks j ++ toks.fields ms ++ rest) = some ((k, j) :: ms, rest)
  | k, j, ms, 0, _, h => by simp at h
  | k, j, [], n + 1, rest, h => by
    have : value n (toks j ++ (toks.fields [] ++ rest)) = some (j, toks.fields [] ++ rest) :=
      value_toks j n _ (by rw [toks.fields] at h; simp at h; omega)
    rw [members.eq_def]
    simp only [List.cons_append, List.append_assoc]
    rw [this]
    simp [toks.fields]
  | k, j, (k', j') :: ms, n + 1, rest, h => by
    have hl : (toks j).length + 3 + ((Tok.str k' :: .punct 58 :: toks j' ++ toks.fields ms).length) ≤ n + 1 := by
      rw [toks.fields] at h; simp at h ⊢; omega
    have : value n (toks j ++ (toks.fields ((k', j') :: ms) ++ rest)) = some (j, toks.fields ((k', j') :: ms) ++ rest) :=
      value_toks j n _ (by omega)
    rw [members.eq_def]
    simp only [List.cons_append, List.append_assoc]
    rw [this]
    have ih := members_toks k' j' ms n rest (by omega)
    simp only [List.cons_append] at ih
    simp only [toks.fields, List.cons_append, Option.bind_some, ih]
    rfl
end

theorem readJson_lex {text : List Rune} {j : Json} (h : lex .between text = some (toks j)) : readJson text = some j := by
  have := value_toks j ((toks j).length + 1) [] (by omega)
  rw [List.append_nil] at this
  simp [readJson, h, this]

/-! ### The tokens of the text -/

/-- The text is followed by something that ends a number. -/
def Delimited (rest : List Rune) : Prop := ∃ c t, rest = c :: t ∧ isDigit c = false

/-- The text has the given tokens, wherever it is. -/
def Lexed (text : List Rune) (ts : List Tok) : Prop :=
  ∀ rest, Delimited rest → lex .between (text ++ rest) = (lex .between rest).map (ts ++ ·)

theorem lex_cons (st : St) (c : Rune) (cs : List Rune) :
    lex st (c :: cs) = (step st c).bind fun x => (lex x.2 cs).map fun ts => x.1 ++ ts := by
  cases st <;> rfl

theorem Lexed.append {a b : List Rune} {s t : List Tok} (ha : Lexed a s) (hb : Lexed b t)
    (hd : ∀ rest, Delimited rest → Delimited (b ++ rest)) : Lexed (a ++ b) (s ++ t) := by
  intro rest hr
  rw [List.append_assoc, ha _ (hd rest hr), hb rest hr]
  cases lex .between rest <;> simp

theorem lexed_nil : Lexed [] [] := by
  intro rest _
  cases h : lex .between rest <;> simp [h]

theorem lex_punct {c : Rune} (h : (runes "{}[],:").contains c = true) (cs : List Rune) :
    lex .between (c :: cs) = (lex .between cs).map (.punct c :: ·) := by
  have hm : c ∈ runes "{}[],:" := by simpa using h
  have : step .between c = some ([.punct c], .between) := by
    have key : ∀ x ∈ runes "{}[],:", step .between x = some ([.punct x], .between) := by decide
    exact key c hm
  rw [lex_cons, this]
  rfl

theorem Lexed.punct {c : Rune} {text : List Rune} {ts : List Tok} (h : (runes "{}[],:").contains c = true) (ht : Lexed text ts) :
    Lexed (c :: text) (.punct c :: ts) := by
  intro rest hr
  rw [List.cons_append, lex_punct h, ht rest hr]
  cases lex .between rest <;> rfl

/-! Strings -/

theorem decode_cons {c : Rune} (h : c ≠ 92) (h2 : ¬ (c < 32 ∨ c = 34)) (cs : List Rune) :
    decode (c :: cs) = (decode cs).map (c :: ·) := by
  rw [decode.eq_def]
  simp only [ne_eq, h, not_false_eq_true, if_true, if_neg h2]

theorem decode_simple {e c : Rune} (h : simpleEscape e = some c) (h2 : e ≠ 117) (cs : List Rune) :
    decode (92 :: e :: cs) = (decode cs).map (c :: ·) := by
  rw [decode.eq_def]
  simp [h2, h]

theorem decode_hex {w x y z : Rune} {n : Nat}
    (h : ((hexValue w).bind fun w => (hexValue x).bind fun x => (hexValue y).bind fun y => (hexValue z).bind fun z =>
      some (((w * 16 + x) * 16 + y) * 16 + z)) = some n) (hs : ¬ (0xD800 ≤ n ∧ n < 0xE000)) (cs : List Rune) :
    decode (92 :: 117 :: w :: x :: y :: z :: cs) = (decode cs).map (n :: ·) := by
  rw [decode.eq_def]
  simp only [ne_eq, not_true_eq_false, if_false, if_true]
  cases hw : hexValue w with
  | none => rw [hw] at h; cases h
  | some w =>
  cases hx : hexValue x with
  | none => rw [hw, hx] at h; cases h
  | some x =>
  cases hy : hexValue y with
  | none => rw [hw, hx, hy] at h; cases h
  | some y =>
  cases hz : hexValue z with
  | none => rw [hw, hx, hy, hz] at h; cases h
  | some z =>
    rw [hw, hx, hy, hz] at h
    simp only [Option.bind_some, Option.some.injEq] at h
    simp only [Option.bind_some, h, if_neg hs]

theorem hexValue_hexDigit {n : Nat} (h : n < 16) : hexValue (hexDigit n) = some n := by
  have : ∀ m < 16, hexValue (hexDigit m) = some m := by decide
  exact this n h

theorem decode_char (c : Rune) (cs : List Rune) : decode (jsonChar c ++ cs) = (decode cs).map (c :: ·) := by
  unfold jsonChar
  split
  · rename_i h
    rcases h with rfl | rfl <;> exact decode_simple rfl (by decide) cs
  · rename_i h1
    split
    · rename_i h; subst h; exact decode_simple rfl (by decide) cs
    · split
      · rename_i h; subst h; exact decode_simple rfl (by decide) cs
      · split
        · rename_i h; subst h; exact decode_simple rfl (by decide) cs
        · split
          · rename_i h
            have hc : c < 256 := by
              rcases h with h | h | h | h
              · exact Nat.lt_trans h (by decide)
              all_goals subst h; decide
            refine decode_hex ?_ (by rintro ⟨h1, _⟩; exact absurd (Nat.lt_of_lt_of_le hc (by decide : 256 ≤ 0xD800)) (Nat.not_lt.2 h1)) cs
            have hd : c / 16 < 16 := Nat.div_lt_of_lt_mul hc
            rw [hexValue_hexDigit hd, hexValue_hexDigit (Nat.mod_lt c (by decide))]
            have h0 : hexValue 48 = some 0 := by decide
            simp only [h0, Option.bind_some, Nat.zero_mul, Nat.zero_add]
            congr 1
            have := Nat.div_add_mod c 16
            rw [Nat.mul_comm]; exact this
          · split
            · rename_i h
              rcases h with rfl | rfl <;> exact decode_hex (by decide) (by decide) cs
            · rename_i h2 _
              exact decode_cons (fun h => h1 (.inl h)) (fun h => h.elim (fun h => h2 (.inl h)) (fun h => h1 (.inr h))) cs

theorem decode_chars : ∀ (s : List Rune), decode (s.flatMap jsonChar) = some s
  | [] => rfl
  | c :: s => by rw [List.flatMap_cons, decode_char, decode_chars s]; rfl

theorem lex_plain {c : Rune} (h1 : c ≠ 34) (h2 : c ≠ 92) (t cs : List Rune) :
    lex (.str t) (c :: cs) = lex (.str (t ++ [c])) cs := by
  rw [lex_cons]
  simp only [step, if_neg h1, if_neg h2, Option.bind_some, List.nil_append, Option.map_id']

theorem lex_escaped (e : Rune) (t cs : List Rune) :
    lex (.str t) (92 :: e :: cs) = lex (.str (t ++ [92, e])) cs := by
  rw [lex_cons]
  simp only [step, if_neg (show ¬ (92 : Nat) = 34 by decide), if_true, Option.bind_some, List.nil_append, Option.map_id']
  rw [lex_cons]
  simp only [step, Option.bind_some, List.nil_append, Option.map_id', List.append_assoc, List.cons_append]

theorem hexDigit_plain (n : Nat) (h : n < 16) : hexDigit n ≠ 34 ∧ hexDigit n ≠ 92 := by
  have : ∀ m < 16, hexDigit m ≠ 34 ∧ hexDigit m ≠ 92 := by decide
  exact this n h

theorem lex_char (c : Rune) (t cs : List Rune) : lex (.str t) (jsonChar c ++ cs) = lex (.str (t ++ jsonChar c)) cs := by
  unfold jsonChar
  split
  · exact lex_escaped c t cs
  · rename_i h1
    split
    · exact lex_escaped _ t cs
    · split
      · exact lex_escaped _ t cs
      · split
        · exact lex_escaped _ t cs
        · split
          · rename_i h
            have hc : c < 256 := by
              rcases h with h | h | h | h
              · exact Nat.lt_trans h (by decide)
              all_goals subst h; decide
            have ha := hexDigit_plain (c / 16) (Nat.div_lt_of_lt_mul hc)
            have hb := hexDigit_plain (c % 16) (Nat.mod_lt c (by decide))
            simp only [List.cons_append, List.nil_append]
            rw [lex_escaped, lex_plain (by decide) (by decide), lex_plain (by decide) (by decide), lex_plain ha.1 ha.2,
              lex_plain hb.1 hb.2]
            simp
          · split
            · have hb := hexDigit_plain (c % 16) (Nat.mod_lt c (by decide))
              simp only [List.cons_append, List.nil_append]
              rw [lex_escaped, lex_plain (by decide) (by decide), lex_plain (by decide) (by decide),
                lex_plain (by decide) (by decide), lex_plain hb.1 hb.2]
              simp
            · exact lex_plain (fun h => h1 (.inr h)) (fun h => h1 (.inl h)) t cs

theorem lex_chars : ∀ (s t cs : List Rune), lex (.str t) (s.flatMap jsonChar ++ cs) = lex (.str (t ++ s.flatMap jsonChar)) cs
  | [], t, cs => by simp
  | c :: s, t, cs => by
    rw [List.flatMap_cons, List.append_assoc, lex_char, lex_chars s]
    simp

theorem lexed_string (s : List Rune) : Lexed (jsonString s) [.str s] := by
  intro rest _
  unfold jsonString
  rw [List.cons_append, List.cons_append, List.append_assoc, lex_cons, show step .between 34 = some ([], .str []) by decide]
  simp only [Option.bind_some, List.nil_append, Option.map_id']
  rw [lex_chars, List.nil_append, List.cons_append, List.nil_append, lex_cons]
  simp only [step, if_true, decode_chars, Option.map_some, Option.bind_some]

/-! Numbers -/

theorem lex_digits : ∀ (d t cs : List Rune), (∀ c ∈ d, isDigit c = true) → lex (.num t) (d ++ cs) = lex (.num (t ++ d)) cs
  | [], t, cs, _ => by simp
  | c :: d, t, cs, h => by
    rw [List.cons_append, lex_cons]
    simp only [step, h c (by simp), if_true, Option.bind_some, List.nil_append, Option.map_id']
    rw [lex_digits d _ cs (fun x hx => h x (by simp [hx]))]
    simp

theorem start_digit {c : Rune} (h : isDigit c = true) : start c = some ([], .num [c]) := by
  have hr := isDigit_iff.1 h
  have hs : space c = false := by
    unfold space
    have h1 : (c == 32) = false := by apply beq_false_of_ne; rintro rfl; revert hr; decide
    have h2 : (c == 9) = false := by apply beq_false_of_ne; rintro rfl; revert hr; decide
    have h3 : (c == 10) = false := by apply beq_false_of_ne; rintro rfl; revert hr; decide
    have h4 : (c == 13) = false := by apply beq_false_of_ne; rintro rfl; revert hr; decide
    rw [h1, h2, h3, h4]; rfl
  have h34 : c ≠ 34 := by rintro rfl; revert hr; decide
  unfold start
  rw [hs, if_neg (by decide), if_neg h34, if_pos h]

theorem lexed_num (n : Nat) : Lexed (itoa n) [.num n] := by
  rintro rest ⟨c, t, rfl, hc⟩
  have hd := itoa_digits n
  have hdec := isDecimal_itoa n
  have hval := decimal_itoa n
  cases hi : itoa n with
  | nil => exact absurd hi (itoa_ne_nil n)
  | cons d ds =>
    rw [hi] at hd hdec hval
    rw [List.cons_append, lex_cons, show step .between d = start d from rfl, start_digit (hd d (by simp))]
    simp only [Option.bind_some, List.nil_append, Option.map_id']
    rw [lex_digits ds _ _ (fun x hx => hd x (by simp [hx])), lex_cons, List.singleton_append]
    rw [lex_cons]
    simp only [step, hc, hdec, if_true, hval, Bool.false_eq_true, if_false]
    cases start c with
    | none => rfl
    | some x =>
      simp only [Option.map_some, Option.bind_some]
      cases lex x.2 t <;> rfl

/-! ### The printed tree -/

theorem delimited_cons {c : Rune} (h : isDigit c = false) (t : List Rune) : Delimited (c :: t) := ⟨c, t, rfl, h⟩

theorem lexed_key {name : String} {v : List Rune} {ts : List Tok} (hn : (runes name).flatMap jsonChar = runes name)
    (h : Lexed v ts) : Lexed (jsonField name v) (.str (runes name) :: .punct 58 :: ts) := by
  have : jsonField name v = jsonString (runes name) ++ 58 :: v := by simp [jsonField, jsonString, hn]
  rw [this]
  exact (lexed_string _).append (h.punct (by decide)) (fun rest _ => delimited_cons (by decide) _)

theorem delimited_field (name : String) (v rest : List Rune) : Delimited (44 :: jsonField name v ++ rest) :=
  delimited_cons (by decide) _

theorem fields_text (text : List Rune) (ms : List (List Rune × Json)) {v : List Rune} (h : Lexed v (toks.fields ms))
    (hd : ∀ rest, Delimited rest → Delimited (v ++ rest)) :
    Lexed ((if text = [] then [] else 44 :: jsonField "text" (jsonString text)) ++ v)
      (toks.fields ((if text = [] then [] else [(runes "text", .str text)]) ++ ms)) := by
  split
  · exact h
  · have := ((lexed_key (name := "text") (by decide) (lexed_string text)).punct (c := 44) (by decide)).append h hd
    simpa [toks.fields, toks] using this

mutual
theorem lexed_marshal : ∀ o : OutNode, Lexed (marshal o) (toks (jsonOf o))
  | .mk name f t text nodes => by
    have hn : Lexed ((match nodes with
        | [] => []
        | n :: ns => 44 :: jsonField "nodes" (91 :: marshal n ++ marshal.go ns)) ++ [125])
        (toks.fields (match nodes with
        | [] => []
        | n :: ns => [(runes "nodes", .arr (jsonOf n :: jsonOf.go ns))])) := by
      cases nodes with
      | nil => exact lexed_nil.punct (by decide)
      | cons n ns =>
        have h1 := lexed_marshal n
        have h2 := lexed_go ns
        have h3 := ((h1.append h2 (fun rest _ => by
          cases ns <;> (rw [marshal.go]; exact delimited_cons (by decide) _))).punct (c := 91) (by decide))
        have h4 := ((lexed_key (name := "nodes") (by decide) h3).punct (c := 44) (by decide)).append
          (lexed_nil.punct (c := 125) (by decide)) (fun rest _ => delimited_cons (by decide) _)
        simpa [toks.fields, toks] using h4
    have h5 := fields_text text _ hn (fun rest _ => by
      cases nodes with
      | nil => exact delimited_cons (by decide) _
      | cons n ns => exact delimited_cons (by decide) _)
    have h6 := ((lexed_key (name := "to") (by decide) (lexed_num t)).punct (c := 44) (by decide)).append h5 (fun rest _ => by
      by_cases ht : text = []
      · rw [if_pos ht]
        cases nodes with
        | nil => exact delimited_cons (by decide) _
        | cons n ns => exact delimited_cons (by decide) _
      · rw [if_neg ht]; exact delimited_cons (by decide) _)
    have h7 := ((lexed_key (name := "from") (by decide) (lexed_num f)).punct (c := 44) (by decide)).append h6
      (fun rest _ => delimited_cons (by decide) _)
    have h8 := ((lexed_key (name := "name") (by decide) (lexed_string name)).punct (c := 123) (by decide)).append h7
      (fun rest _ => delimited_cons (by decide) _)
    rw [marshal.eq_def, jsonOf.eq_def]
    simp only [List.cons_append, List.nil_append, List.append_assoc] at h8 ⊢
    rw [toks, toks, toks.fields, toks, toks.fields, toks]
    clear hn h5 h6 h7
    cases nodes <;> simpa only [List.cons_append, List.nil_append, List.append_assoc] using h8
theorem lexed_go : ∀ ns : List OutNode, Lexed (marshal.go ns) (toks.items (jsonOf.go ns))
  | [] => lexed_nil.punct (by decide)
  | n :: ns => by
    have h1 := lexed_marshal n
    have h2 := lexed_go ns
    have h3 := (h1.append h2 (fun rest _ => by
      cases ns <;> (rw [marshal.go]; exact delimited_cons (by decide) _))).punct (c := 44) (by decide)
    rw [marshal.go, jsonOf.go, toks.items]
    exact h3
end

/-- Spaces at the end. -/
theorem lex_trailing {w : Rune} (hw : space w = true) : ∀ (t : List Rune) (st : St), lex st (t ++ [w]) = lex st t := by
  have hb : start w = some ([], .between) := by simp [start, hw]
  have hd : isDigit w = false := by
    simp only [space, Bool.or_eq_true, beq_iff_eq] at hw
    rcases hw with ((rfl | rfl) | rfl) | rfl <;> decide
  have hq : w ≠ 34 ∧ w ≠ 92 := by
    simp only [space, Bool.or_eq_true, beq_iff_eq] at hw
    rcases hw with ((rfl | rfl) | rfl) | rfl <;> decide
  intro t
  induction t with
  | nil =>
    intro st
    cases st with
    | between => rw [List.nil_append, lex_cons]; simp [step, hb, lex]
    | str t => simp [lex, step, hq]
    | esc t => simp [lex, step]
    | num t =>
      rw [List.nil_append, lex_cons]
      simp only [step, hd, Bool.false_eq_true, if_false, lex]
      split
      · rw [hb]
        simp [lex]
      · rfl
  | cons c t ih =>
    intro st
    rw [List.cons_append, lex_cons, lex_cons]
    cases step st c with
    | none => rfl
    | some x => simp only [Option.bind_some, ih]

theorem lex_marshal (o : OutNode) : lex .between (marshal o) = some (toks (jsonOf o)) := by
  have h := lexed_marshal o [32] (delimited_cons (by decide) _)
  rw [lex_trailing (by decide)] at h
  rw [h]
  simp [show step .between 32 = some ([], .between) by decide, lex]

/-! ### Indentation -/

theorem space_step {c : Rune} (h : space c = true) : step .between c = some ([], .between) := by
  simp [step, start, h]

theorem lex_spaces : ∀ (ws cs : List Rune), (∀ c ∈ ws, space c = true) → lex .between (ws ++ cs) = lex .between cs
  | [], cs, _ => rfl
  | c :: ws, cs, h => by
    rw [List.cons_append, lex_cons, space_step (h c (by simp))]
    simp only [Option.bind_some, List.nil_append, Option.map_id']
    exact lex_spaces ws cs (fun x hx => h x (by simp [hx]))

theorem space_notDigit {c : Rune} (h : space c = true) : isDigit c = false := by
  simp only [space, Bool.or_eq_true, beq_iff_eq] at h
  rcases h with ((rfl | rfl) | rfl) | rfl <;> decide

theorem lex_num_spaces (t : List Rune) {ws : List Rune} (cs : List Rune) {c : Rune} (hc : isDigit c = false)
    (h : ∀ c ∈ ws, space c = true) : lex (.num t) (ws ++ c :: cs) = lex (.num t) (c :: cs) := by
  cases ws with
  | nil => rfl
  | cons w ws =>
    have hw := h w (by simp)
    rw [List.cons_append, lex_cons, lex_cons]
    simp only [step, space_notDigit hw, hc, Bool.false_eq_true, if_false]
    split
    · rw [show start w = some ([], .between) from space_step hw]
      simp only [Option.map_some, Option.bind_some]
      rw [lex_spaces ws _ (fun x hx => h x (by simp [hx])), lex_cons]
      simp only [step]
      cases start c with
      | none => rfl
      | some x =>
        simp only [Option.map_some, Option.bind_some]
        cases lex x.2 cs <;> rfl
    · rfl

/-- The reader is where the scanner of the indentation is. -/
def Same : IndentMode → Bool → St → Prop
  | .out, _, .between => True
  | .out, need, .num _ => need = false
  | .str, _, .str _ => True
  | .esc, _, .esc _ => True
  | _, _, _ => False

theorem newline_spaces {indent : List Rune} (h : ∀ c ∈ indent, space c = true) (d : Nat) :
    ∀ c ∈ indentNewline indent d, space c = true := by
  intro c hc
  rcases List.mem_cons.1 hc with rfl | hc
  · decide
  · obtain ⟨l, hl, hc⟩ := List.mem_flatten.1 hc
    rw [(List.mem_replicate.1 hl).2] at hc
    exact h c hc

/-- Spaces in front of a character that does not belong to the current token. -/
theorem lex_insert {st : St} (hs : st = .between ∨ ∃ t, st = .num t) {ws : List Rune} (cs : List Rune) {c : Rune}
    (hc : isDigit c = false) (h : ∀ c ∈ ws, space c = true) : lex st (ws ++ c :: cs) = lex st (c :: cs) := by
  rcases hs with rfl | ⟨t, rfl⟩
  · exact lex_spaces ws _ h
  · exact lex_num_spaces t cs hc h

/-- The lexer is between the tokens behind a punctuation character. -/
theorem lex_congr_punct {st : St} (hs : st = .between ∨ ∃ t, st = .num t) {c : Rune}
    (hc : (runes "{}[],:").contains c = true) {a b : List Rune} (h : lex .between a = lex .between b) :
    lex st (c :: a) = lex st (c :: b) := by
  have hm : c ∈ runes "{}[],:" := by simpa using hc
  have hd : isDigit c = false := by
    have key : ∀ x ∈ runes "{}[],:", isDigit x = false := by decide
    exact key c hm
  rcases hs with rfl | ⟨t, rfl⟩
  · rw [lex_punct hc, lex_punct hc, h]
  · have hst : start c = some ([.punct c], .between) := by
      have key : ∀ x ∈ runes "{}[],:", start x = some ([.punct x], .between) := by decide
      exact key c hm
    rw [lex_cons, lex_cons]
    simp only [step, hd, Bool.false_eq_true, if_false, hst, Option.map_some]
    split
    · simp only [Option.bind_some, h]
    · rfl

theorem start_same {c : Rune} {x : List Tok × St} (h : start c = some x) :
    Same (if c = 34 then .str else .out) false x.2 := by
  unfold start at h
  split at h
  · rename_i hs
    cases h
    rw [if_neg (by rintro rfl; revert hs; decide)]
    trivial
  · split at h
    · rename_i h1; cases h; rw [if_pos h1]; trivial
    · rename_i h1
      rw [if_neg h1]
      split at h
      · cases h; rfl
      · split at h
        · cases h; trivial
        · cases h

theorem step_same {st : St} (hs : st = .between ∨ ∃ t, st = .num t) {c : Rune} {x : List Tok × St} (h : step st c = some x) :
    Same (if c = 34 then .str else .out) false x.2 := by
  rcases hs with rfl | ⟨t, rfl⟩
  · exact start_same h
  · rw [step] at h
    split at h
    · rename_i hd
      cases h
      rw [if_neg (by rintro rfl; revert hd; decide)]
      rfl
    · split at h
      · obtain ⟨y, hy, rfl⟩ := Option.map_eq_some_iff.1 h
        exact start_same (x := y) hy
      · cases h

theorem lex_indent {indent : List Rune} (hi : ∀ c ∈ indent, space c = true) : ∀ (text : List Rune) (m : IndentMode)
    (need : Bool) (d : Nat) (st : St), Same m need st → lex st (indentText indent m need d text) = lex st text
  | [], m, need, d, st, _ => by rw [indentText]
  | c :: cs, .str, need, d, st, h => by
    match st, h with
    | .str t, _ =>
      rw [indentText, lex_cons, lex_cons]
      by_cases h1 : c = 34
      · simp only [step, if_pos h1]
        cases decode t with
        | none => rfl
        | some s => simp only [Option.map_some, Option.bind_some, lex_indent hi cs .out need d .between trivial]
      · by_cases h2 : c = 92
        · simp only [step, if_neg h1, if_pos h2, Option.bind_some,
            lex_indent hi cs .esc need d (.esc (t ++ [c])) trivial]
        · simp only [step, if_neg h1, if_neg h2, Option.bind_some,
            lex_indent hi cs .str need d (.str (t ++ [c])) trivial]
  | c :: cs, .esc, need, d, st, h => by
    match st, h with
    | .esc t, _ =>
      rw [indentText, lex_cons, lex_cons]
      simp only [step, Option.bind_some, lex_indent hi cs .str need d (.str (t ++ [c])) trivial]
  | c :: cs, .out, need, d, st, h => by
    have hst : st = .between ∨ ∃ t, st = .num t := by
      match st, h with
      | .between, _ => exact .inl rfl
      | .num t, _ => exact .inr ⟨t, rfl⟩
    have hneed : need = true → st = .between := by
      intro hn
      match st, h with
      | .between, _ => rfl
      | .num t, h => subst hn; cases h
    have hnl := newline_spaces hi
    -- the text behind the inserted spaces
    have key : ∀ (ops : Bool) (out : List Rune), (ops = true → need = true) →
        lex st ((if ops = true then indentNewline indent (d + 1) else []) ++ out) = lex st out := by
      intro ops out ho
      split
      · rename_i h1
        rw [hneed (ho h1)]
        exact lex_spaces _ _ (hnl _)
      · rfl
    rw [indentText]
    generalize ho : (need && c != 125 && c != 93) = ops
    have hops : ops = true → need = true := by
      intro h1; rw [h1] at ho; simp only [Bool.and_eq_true] at ho; exact ho.1.1
    split
    · rename_i hc
      rw [key _ _ hops]
      have hp : (runes "{}[],:").contains c = true := by rcases hc with rfl | rfl <;> decide
      exact lex_congr_punct hst hp (lex_indent hi cs .out true _ .between trivial)
    · split
      · rename_i hc
        subst hc
        rw [List.append_assoc, key _ _ hops, List.cons_append]
        refine lex_congr_punct hst (by decide) ?_
        rw [lex_spaces _ _ (hnl _)]
        exact lex_indent hi cs .out _ _ .between trivial
      · split
        · rename_i hc
          subst hc
          rw [key _ _ hops]
          refine lex_congr_punct hst (by decide) ?_
          rw [show ((32 : Rune) :: indentText indent .out (need && !ops) (if ops = true then d + 1 else d) cs) =
            [32] ++ indentText indent .out (need && !ops) (if ops = true then d + 1 else d) cs from rfl,
            lex_spaces [32] _ (by decide)]
          exact lex_indent hi cs .out _ _ .between trivial
        · split
          · rename_i hc
            have hp : (runes "{}[],:").contains c = true := by rcases hc with rfl | rfl <;> decide
            have hd : isDigit c = false := by rcases hc with rfl | rfl <;> decide
            split
            · rw [key _ _ hops]
              exact lex_congr_punct hst hp (lex_indent hi cs .out _ _ .between trivial)
            · rw [List.append_assoc, key _ _ hops, lex_insert hst _ hd (hnl _)]
              exact lex_congr_punct hst hp (lex_indent hi cs .out _ _ .between trivial)
          · rw [key _ _ hops]
            have hf : (need && !ops) = true → False := by
              intro hx
              simp only [Bool.and_eq_true, Bool.not_eq_true'] at hx
              rename_i hc
              rw [hx.1, hx.2] at ho
              simp only [Bool.true_and, Bool.and_eq_false_iff, bne_eq_false_iff_eq] at ho
              exact hc ho
            have hfalse : (need && !ops) = false := by
              cases hx : (need && !ops) with
              | false => rfl
              | true => exact (hf hx).elim
            rw [hfalse]
            rw [lex_cons, lex_cons]
            cases hstep : step st c with
            | none => rfl
            | some x =>
              simp only [Option.bind_some, lex_indent hi cs _ false _ x.2 (step_same hst hstep)]

theorem lex_showText {pretty : Bool} {indent : List Rune} (h : ∀ c ∈ indent, space c = true) (o : OutNode) :
    lex .between (showText pretty indent o) = some (toks (jsonOf o)) := by
  unfold showText
  split
  · rw [lex_indent (indent := if indent = [] then List.replicate 4 32 else indent) ?_ (marshal o) .out false 0 .between trivial,
      lex_marshal]
    intro c hc
    split at hc
    · rw [List.eq_of_mem_replicate hc]; decide
    · exact h c hc
  · exact lex_marshal o

/-! ### Different trees -/

mutual
theorem jsonOf_inj : ∀ {a b : OutNode}, jsonOf a = jsonOf b → a = b
  | .mk n1 f1 t1 x1 ns1, .mk n2 f2 t2 x2 ns2, h => by
    rw [jsonOf.eq_def, jsonOf.eq_def] at h
    simp only [Json.obj.injEq, List.cons_append, List.nil_append, List.cons.injEq, Prod.mk.injEq, true_and, Json.str.injEq,
      Json.num.injEq] at h
    obtain ⟨rfl, rfl, rfl, h⟩ := h
    have hx : x1 = x2 := by
      cases x1 <;> cases x2 <;> cases ns1 <;> cases ns2 <;> simp_all [runes]
    subst hx
    have h := List.append_cancel_left h
    cases ns1 with
    | nil =>
      cases ns2 with
      | nil => rfl
      | cons => simp at h
    | cons a as =>
      cases ns2 with
      | nil => simp at h
      | cons b bs =>
        simp only [List.cons.injEq, Prod.mk.injEq, true_and, Json.arr.injEq, and_true] at h
        rw [jsonOf_inj h.1, go_inj h.2]
theorem go_inj : ∀ {as bs : List OutNode}, jsonOf.go as = jsonOf.go bs → as = bs
  | [], [], _ => rfl
  | [], _ :: _, h => by simp [jsonOf.go] at h
  | _ :: _, [], h => by simp [jsonOf.go] at h
  | a :: as, b :: bs, h => by
    simp only [jsonOf.go, List.cons.injEq] at h
    rw [jsonOf_inj h.1, go_inj h.2]
end

end Treerack.Spec.Json
