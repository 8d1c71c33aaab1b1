import Verif.Spec.Json
import Verif.Spec.JsonGrammar

/-
The reader of Spec/Json.lean only reads texts that are in the grammar of Spec/JsonGrammar.lean.
-/

namespace Treerack
open Spec

/-- The texts of a token. -/
def TokenText : Json.Tok → List Rune → Prop
  | .str s, t => ∃ raw, t = 34 :: raw ++ [34] ∧ Json.decode raw = some s
  | .num _, t => isDecimal t = true
  | .punct c, t => t = [c]

/-- The texts of a list of tokens. -/
inductive TokenTexts : List Json.Tok → List Rune → Prop
  | nil {w : List Rune} : JsonText.Space JsonText.rfc w → TokenTexts [] w
  | cons {k : Json.Tok} {ks : List Json.Tok} {w u t : List Rune} :
      JsonText.Space JsonText.rfc w → TokenText k u → TokenTexts ks t → TokenTexts (k :: ks) (w ++ u ++ t)

theorem space_rfc {c : Rune} (h : Json.space c = true) : JsonText.rfc.space c := by
  simp only [Json.space, Bool.or_eq_true, beq_iff_eq] at h
  rcases h with ((h | h) | h) | h
  · exact .inl h
  · exact .inr (.inl h)
  · exact .inr (.inr (.inl h))
  · exact .inr (.inr (.inr h))

theorem TokenTexts.space {ks : List Json.Tok} {t : List Rune} {c : Rune} (hc : JsonText.rfc.space c) (h : TokenTexts ks t) :
    TokenTexts ks (c :: t) := by
  have hs : ∀ {w}, JsonText.Space JsonText.rfc w → JsonText.Space JsonText.rfc (c :: w) := fun h x hx => by
    rcases List.mem_cons.1 hx with rfl | hx
    · exact hc
    · exact h x hx
  cases h with
  | nil h => exact .nil (hs h)
  | cons h1 h2 h3 => exact .cons (hs h1) h2 h3

theorem TokenTexts.tok {k : Json.Tok} {ks : List Json.Tok} {u t : List Rune} (h1 : TokenText k u) (h2 : TokenTexts ks t) :
    TokenTexts (k :: ks) (u ++ t) :=
  .cons (w := []) nofun h1 h2

/-! ### The lexer -/

structure LexesJson (t : List Rune) : Prop where
  between : ∀ {ks}, Json.lex .between t = some ks → TokenTexts ks t
  str : ∀ {p ks}, Json.lex (.str p) t = some ks → ∃ raw rest s ks', t = raw ++ 34 :: rest ∧ Json.decode (p ++ raw) = some s ∧
    ks = .str s :: ks' ∧ TokenTexts ks' rest
  esc : ∀ {p ks}, Json.lex (.esc p) t = some ks → ∃ raw rest s ks', t = raw ++ 34 :: rest ∧ Json.decode (p ++ raw) = some s ∧
    ks = .str s :: ks' ∧ TokenTexts ks' rest
  num : ∀ {p ks}, Json.lex (.num p) t = some ks → ∃ ds rest n ks', t = ds ++ rest ∧ isDecimal (p ++ ds) = true ∧
    ks = .num n :: ks' ∧ TokenTexts ks' rest

theorem start_texts {t : List Rune} (L : LexesJson t) {c : Rune} {x : List Json.Tok × Json.St} {ks : List Json.Tok}
    (h : Json.start c = some x) (hk : Json.lex x.2 t = some ks) : TokenTexts (x.1 ++ ks) (c :: t) := by
  unfold Json.start at h
  split at h
  · rename_i hs
    cases h
    exact (L.between hk).space (space_rfc hs)
  · split at h
    · rename_i hq
      cases h
      subst hq
      obtain ⟨raw, rest, s, ks', rfl, h2, rfl, h4⟩ := L.str hk
      have := TokenTexts.tok (k := .str s) ⟨raw, rfl, h2⟩ h4
      simpa using this
    · split at h
      · cases h
        obtain ⟨ds, rest, n, ks', rfl, h2, rfl, h4⟩ := L.num hk
        exact TokenTexts.tok (k := .num n) (u := c :: ds) h2 h4
      · split at h
        · cases h
          exact TokenTexts.tok (k := .punct c) (u := [c]) rfl (L.between hk)
        · cases h

theorem lexes_json : ∀ t : List Rune, LexesJson t
  | [] => {
      between := fun h => by cases h; exact .nil nofun
      str := fun h => by cases h
      esc := fun h => by cases h
      num := fun {p ks} h => by
        unfold Json.lex at h
        split at h
        · rename_i hd
          cases h
          exact ⟨[], [], _, [], rfl, by simpa using hd, rfl, .nil nofun⟩
        · cases h }
  | c :: t => by
    have L := lexes_json t
    have key : ∀ {st ks}, Json.lex st (c :: t) = some ks → ∃ x ks', Json.step st c = some x ∧ Json.lex x.2 t = some ks' ∧ ks = x.1 ++ ks' := by
      intro st ks h
      have h : (Json.step st c).bind (fun x => (Json.lex x.2 t).map fun ts => x.1 ++ ts) = some ks := by
        cases st <;> simpa only [Json.lex] using h
      obtain ⟨x, h1, h2⟩ := Option.bind_eq_some_iff.1 h
      obtain ⟨ks', h3, h4⟩ := Option.map_eq_some_iff.1 h2
      exact ⟨x, ks', h1, h3, h4.symm⟩
    refine ⟨fun h => ?_, fun h => ?_, fun h => ?_, fun h => ?_⟩
    · obtain ⟨x, ks', h1, h2, rfl⟩ := key h
      exact start_texts L h1 h2
    · obtain ⟨x, ks', h1, h2, rfl⟩ := key h
      unfold Json.step at h1
      simp only at h1
      split at h1
      · rename_i hq
        subst hq
        obtain ⟨s, h3, rfl⟩ := Option.map_eq_some_iff.1 h1
        exact ⟨[], t, s, ks', rfl, by simpa using h3, rfl, L.between h2⟩
      · split at h1
        · cases h1
          obtain ⟨raw, rest, s, ks', rfl, h3, rfl, h5⟩ := L.esc h2
          exact ⟨c :: raw, rest, s, ks', rfl, by simpa using h3, rfl, h5⟩
        · cases h1
          obtain ⟨raw, rest, s, ks', rfl, h3, rfl, h5⟩ := L.str h2
          exact ⟨c :: raw, rest, s, ks', rfl, by simpa using h3, rfl, h5⟩
    · obtain ⟨x, ks', h1, h2, rfl⟩ := key h
      cases h1
      obtain ⟨raw, rest, s, ks', rfl, h3, rfl, h5⟩ := L.str h2
      exact ⟨c :: raw, rest, s, ks', rfl, by simpa using h3, rfl, h5⟩
    · obtain ⟨x, ks', h1, h2, rfl⟩ := key h
      unfold Json.step at h1
      simp only at h1
      split at h1
      · cases h1
        obtain ⟨ds, rest, n, ks', rfl, h3, rfl, h5⟩ := L.num h2
        exact ⟨c :: ds, rest, n, ks', rfl, by simpa using h3, rfl, h5⟩
      · split at h1
        · rename_i hd
          obtain ⟨y, h3, rfl⟩ := Option.map_eq_some_iff.1 h1
          exact ⟨[], c :: t, _, _, rfl, by simpa using hd, rfl, start_texts L h3 h2⟩
        · cases h1

/-! ### Strings and numbers -/

theorem hex_rfc {c : Rune} {n : Nat} (h : Json.hexValue c = some n) : JsonText.rfc.hex c := by
  unfold Json.hexValue at h
  split at h
  · rename_i g; exact .inl g
  · split at h
    · rename_i g; exact .inr (.inr g)
    · split at h
      · rename_i g; exact .inr (.inl g)
      · cases h

theorem escape_rfc {c d : Rune} (h : Json.simpleEscape c = some d) : c ∈ runes "\"\\/bfnrt" := by
  rw [show runes "\"\\/bfnrt" = [34, 92, 47, 98, 102, 110, 114, 116] by decide]
  unfold Json.simpleEscape at h
  split at h
  · rename_i g
    rcases g with rfl | rfl | rfl <;> decide
  · repeat' split at h
    all_goals simp_all

theorem decode_chars : ∀ {raw s : List Rune}, (∀ c ∈ raw, c ≤ 0x10FFFF) → Json.decode raw = some s → JsonText.Chars JsonText.rfc raw
  | [], _, _, _ => .nil
  | c :: cs, s, hb, h => by
    unfold Json.decode at h
    split at h
    · rename_i h1
      split at h
      · cases h
      · rename_i h2
        obtain ⟨s', h3, -⟩ := Option.map_eq_some_iff.1 h
        have hle : c ≤ 0x10FFFF := hb c (List.mem_cons_self ..)
        refine .plain ?_ (decode_chars (fun x hx => hb x (List.mem_cons_of_mem _ hx)) h3)
        show (0x20 ≤ c ∧ c ≤ 0x21) ∨ (0x23 ≤ c ∧ c ≤ 0x5B) ∨ (0x5D ≤ c ∧ c ≤ 0x10FFFF)
        have key : ∀ n : Nat, n ≠ 92 → ¬ (n < 32 ∨ n = 34) → n ≤ 0x10FFFF →
            (0x20 ≤ n ∧ n ≤ 0x21) ∨ (0x23 ≤ n ∧ n ≤ 0x5B) ∨ (0x5D ≤ n ∧ n ≤ 0x10FFFF) := by omega
        exact key c h1 h2 hle
    · rename_i h1
      have h1 : c = 92 := Classical.not_not.1 h1
      subst h1
      cases cs with
      | nil => cases h
      | cons e cs =>
        simp only at h
        split at h
        · rename_i he
          subst he
          match cs, h, hb with
          | w :: x :: y :: z :: cs, h, hb =>
            simp only [Option.bind_eq_some_iff] at h
            obtain ⟨a1, h1, a2, h2, a3, h3, a4, h4, h⟩ := h
            split at h
            · cases h
            · obtain ⟨s', h5, -⟩ := Option.map_eq_some_iff.1 h
              exact .unicode (hex_rfc h1) (hex_rfc h2) (hex_rfc h3) (hex_rfc h4)
                (decode_chars (fun x hx => hb x (by simp [hx])) h5)
          | [], h, _ => cases h
          | [_], h, _ => cases h
          | [_, _], h, _ => cases h
          | [_, _, _], h, _ => cases h
        · obtain ⟨d, h2, h⟩ := Option.bind_eq_some_iff.1 h
          obtain ⟨s', h3, -⟩ := Option.map_eq_some_iff.1 h
          exact .escape (escape_rfc h2) (decode_chars (fun x hx => hb x (by simp [hx])) h3)

theorem decimal_number {t : List Rune} (h : isDecimal t = true) : JsonText.Number t := by
  simp only [isDecimal, Bool.and_eq_true, bne_iff_ne, List.all_eq_true, Bool.or_eq_true, beq_iff_eq] at h
  obtain ⟨⟨h1, h2⟩, h3⟩ := h
  have hd : ∀ {c}, isDigit c = true → JsonText.Digit c := fun h => by
    simp only [isDigit, Bool.and_eq_true, decide_eq_true_eq] at h
    exact h
  refine ⟨[], t, [], [], .inl rfl, ?_, .inl rfl, .inl rfl, by simp⟩
  cases t with
  | nil => exact absurd rfl h1
  | cons c cs =>
    by_cases h0 : c = 48
    · subst h0
      rcases h3 with h3 | h3
      · cases cs with
        | nil => exact .inl rfl
        | cons _ _ => simp at h3
      · exact absurd rfl h3
    · obtain ⟨g1, g2⟩ := hd (h2 c (List.mem_cons_self ..))
      have key : ∀ n : Nat, 48 ≤ n → n ≠ 48 → 49 ≤ n := by omega
      exact .inr ⟨c, cs, key c g1 h0, g2, fun x hx => hd (h2 x (List.mem_cons_of_mem _ hx)), rfl⟩

/-! ### Values -/

theorem values_cons {F : JsonText.Flavor} {a w w' b : List Rune} (h1 : JsonText.Value F a) (h2 : JsonText.Space F w)
    (h3 : JsonText.Space F w') : JsonText.Values F b → JsonText.Values F (a ++ w ++ runes "," ++ w' ++ b)
  | .one h => .more (.one h1) h2 h3 h
  | .more g1 g2 g3 g4 => by
    have := JsonText.Values.more (values_cons h1 h2 h3 g1) g2 g3 g4
    simpa using this

theorem members_cons {F : JsonText.Flavor} {a w w' b : List Rune} (h1 : JsonText.Member F a) (h2 : JsonText.Space F w)
    (h3 : JsonText.Space F w') : JsonText.Members F b → JsonText.Members F (a ++ w ++ runes "," ++ w' ++ b)
  | .one h => .more (.one h1) h2 h3 h
  | .more g1 g2 g3 g4 => by
    have := JsonText.Members.more (members_cons h1 h2 h3 g1) g2 g3 g4
    simpa using this

abbrev SmallJson (t : List Rune) : Prop := ∀ c ∈ t, c ≤ 0x10FFFF

theorem token_punct {c : Rune} {ks : List Json.Tok} {t : List Rune} (h : TokenTexts (.punct c :: ks) t) :
    ∃ w t', JsonText.Space JsonText.rfc w ∧ t = w ++ [c] ++ t' ∧ TokenTexts ks t' := by
  cases h with
  | cons h1 h2 h3 => cases h2; exact ⟨_, _, h1, rfl, h3⟩

theorem token_str {s : List Rune} {ks : List Json.Tok} {t : List Rune} (hs : SmallJson t) (h : TokenTexts (.str s :: ks) t) :
    ∃ w u t', JsonText.Space JsonText.rfc w ∧ JsonText.String JsonText.rfc u ∧ t = w ++ u ++ t' ∧ TokenTexts ks t' := by
  cases h with
  | cons h1 h2 h3 =>
    obtain ⟨raw, rfl, h4⟩ := h2
    exact ⟨_, _, _, h1, ⟨raw, decode_chars (fun x hx => hs x (by simp [hx])) h4, rfl⟩, rfl, h3⟩

mutual

theorem value_text : ∀ {n : Nat} {ks ks' : List Json.Tok} {v : Json} {t : List Rune}, Json.value n ks = some (v, ks') →
    SmallJson t → TokenTexts ks t →
    ∃ w u t', JsonText.Space JsonText.rfc w ∧ JsonText.Value JsonText.rfc u ∧ t = w ++ u ++ t' ∧ TokenTexts ks' t'
  | 0, _, _, _, _, h, _, _ => by simp [Json.value] at h
  | n + 1, ks, ks', v, t, h, hs, ht => by
    have ihe := @elements_text n
    have ihm := @members_text n
    unfold Json.value at h
    split at h
    · cases h
      obtain ⟨w, u, t', h1, h2, h3, h4⟩ := token_str hs ht
      exact ⟨w, u, t', h1, .string h2, h3, h4⟩
    · cases h
      cases ht with
      | cons h1 h2 h3 => exact ⟨_, _, _, h1, .number (decimal_number h2), rfl, h3⟩
    · rename_i c ks1
      obtain ⟨w, t1, h1, rfl, h2⟩ := token_punct ht
      have hs1 : SmallJson t1 := fun x hx => hs x (by simp [hx])
      split at h
      · rename_i hc
        subst hc
        split at h
        · cases h
          obtain ⟨w', t', g1, rfl, g2⟩ := token_punct h2
          exact ⟨w, runes "[" ++ w' ++ runes "]", t', h1, .emptyArray g1, by simp [show runes "[" = [91] by decide, show runes "]" = [93] by decide], g2⟩
        · obtain ⟨⟨l, ks2⟩, g1, g2⟩ := Option.map_eq_some_iff.1 h
          cases g2
          obtain ⟨w', u, w'', t', k1, k2, k3, rfl, k5⟩ := ihe g1 hs1 h2
          exact ⟨w, runes "[" ++ w' ++ u ++ w'' ++ runes "]", t', h1, .array k1 k2 k3,
            by simp [show runes "[" = [91] by decide, show runes "]" = [93] by decide], k5⟩
      · split at h
        · rename_i hc
          subst hc
          split at h
          · cases h
            obtain ⟨w', t', g1, rfl, g2⟩ := token_punct h2
            exact ⟨w, runes "{" ++ w' ++ runes "}", t', h1, .emptyObject g1, by simp [show runes "{" = [123] by decide, show runes "}" = [125] by decide], g2⟩
          · obtain ⟨⟨l, ks2⟩, g1, g2⟩ := Option.map_eq_some_iff.1 h
            cases g2
            obtain ⟨w', u, w'', t', k1, k2, k3, rfl, k5⟩ := ihm g1 hs1 h2
            exact ⟨w, runes "{" ++ w' ++ u ++ w'' ++ runes "}", t', h1, .object k1 k2 k3,
              by simp [show runes "{" = [123] by decide, show runes "}" = [125] by decide], k5⟩
        · cases h
    · cases h

theorem elements_text : ∀ {n : Nat} {ks ks' : List Json.Tok} {l : List Json} {t : List Rune}, Json.elements n ks = some (l, ks') →
    SmallJson t → TokenTexts ks t →
    ∃ w u w' t', JsonText.Space JsonText.rfc w ∧ JsonText.Values JsonText.rfc u ∧ JsonText.Space JsonText.rfc w' ∧
      t = w ++ u ++ w' ++ [93] ++ t' ∧ TokenTexts ks' t'
  | 0, _, _, _, _, h, _, _ => by simp [Json.elements] at h
  | n + 1, ks, ks', l, t, h, hs, ht => by
    have ihv := @value_text n
    have ihe := @elements_text n
    unfold Json.elements at h
    obtain ⟨⟨v, ks1⟩, h1, h⟩ := Option.bind_eq_some_iff.1 h
    obtain ⟨w, u, t1, g1, g2, rfl, g4⟩ := ihv h1 hs ht
    have hs1 : SmallJson t1 := fun x hx => hs x (by simp [hx])
    split at h
    · rename_i ks2 e
      cases (show ks1 = _ from e)
      obtain ⟨⟨l', ks3⟩, h2, h3⟩ := Option.map_eq_some_iff.1 h
      cases h3
      obtain ⟨w1, t2, k1, rfl, k3⟩ := token_punct g4
      obtain ⟨w2, u', w3, t', m1, m2, m3, rfl, m5⟩ := ihe h2 (fun x hx => hs1 x (by simp [hx])) k3
      exact ⟨w, _, w3, t', g1, values_cons g2 k1 m1 m2, m3, by simp [show runes "," = [44] by decide], m5⟩
    · rename_i ks2 e
      cases (show ks1 = _ from e)
      cases h
      obtain ⟨w1, t2, k1, rfl, k3⟩ := token_punct g4
      exact ⟨w, u, w1, t2, g1, .one g2, k1, by simp, k3⟩
    · cases h

theorem members_text : ∀ {n : Nat} {ks ks' : List Json.Tok} {l : List (List Rune × Json)} {t : List Rune}, Json.members n ks = some (l, ks') →
    SmallJson t → TokenTexts ks t →
    ∃ w u w' t', JsonText.Space JsonText.rfc w ∧ JsonText.Members JsonText.rfc u ∧ JsonText.Space JsonText.rfc w' ∧
      t = w ++ u ++ w' ++ [125] ++ t' ∧ TokenTexts ks' t'
  | 0, _, _, _, _, h, _, _ => by simp [Json.members] at h
  | n + 1, ks, ks', l, t, h, hs, ht => by
    have ihv := @value_text n
    have ihm := @members_text n
    unfold Json.members at h
    split at h
    · rename_i k ks0
      obtain ⟨w, s, t0, a1, a2, rfl, a4⟩ := token_str hs ht
      obtain ⟨w0, t0, b1, rfl, b3⟩ := token_punct a4
      obtain ⟨⟨v, ks1⟩, h1, h⟩ := Option.bind_eq_some_iff.1 h
      obtain ⟨w1, u, t1, g1, g2, rfl, g4⟩ := ihv h1 (fun x hx => hs x (by simp [hx])) b3
      have hs1 : SmallJson t1 := fun x hx => hs x (by simp [hx])
      have hm := JsonText.Member.mk a2 b1 g1 g2
      split at h
      · rename_i ks2 e
        cases (show ks1 = _ from e)
        obtain ⟨⟨l', ks3⟩, h2, h3⟩ := Option.map_eq_some_iff.1 h
        cases h3
        obtain ⟨w2, t2, k1, rfl, k3⟩ := token_punct g4
        obtain ⟨w3, u', w4, t', m1, m2, m3, rfl, m5⟩ := ihm h2 (fun x hx => hs1 x (by simp [hx])) k3
        exact ⟨w, _, w4, t', a1, members_cons hm k1 m1 m2, m3, by simp [show runes "," = [44] by decide, show runes ":" = [58] by decide], m5⟩
      · rename_i ks2 e
        cases (show ks1 = _ from e)
        cases h
        obtain ⟨w2, t2, k1, rfl, k3⟩ := token_punct g4
        exact ⟨w, _, w2, t2, a1, .one hm, k1, by simp [show runes ":" = [58] by decide], k3⟩
      · cases h
    · cases h

end

/-- What is read is JSON. -/
theorem readJson_text {t : List Rune} {v : Json} (hs : SmallJson t) (h : readJson t = some v) : JsonText.Text JsonText.rfc t := by
  unfold readJson at h
  obtain ⟨ks, h1, h2⟩ := Option.bind_eq_some_iff.1 h
  split at h2
  · rename_i e
    obtain ⟨w, u, t', g1, g2, rfl, g4⟩ := value_text e hs ((lexes_json t).between h1)
    cases g4 with
    | nil g5 => exact ⟨w, u, _, g1, g2, g5, rfl⟩
  · cases h2

end Treerack
