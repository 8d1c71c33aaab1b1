import Verif.Props.LookaheadWs
import Verif.Props.DocGen
import Verif.Props.Samples
import Verif.Props.Outcome
import Verif.Proofs.JsonRank
import Verif.Props.Json

/-
C58: the syntax in examples/json.treerack describes JSON.
-/

namespace Treerack
open Spec

set_option maxRecDepth 100000

/-! ### The syntax -/

theorem json_init : (match ({} : Syntax).internalCalls (documentCalls jsonDoc) with
    | (s, none) => match s.Init with
      | .ok (_, none) => true
      | _ => false
    | _ => false) = true := by decide +kernel

theorem json_syntax : ∃ s s', ({} : Syntax).internalCalls (documentCalls jsonDoc) = (s, none) ∧ s.Init = .ok (s', none) := by
  have h := json_init
  split at h
  · rename_i s hs
    split at h
    · rename_i s' hi
      exact ⟨s, s', hs, hi⟩
    · cases h
  · cases h

/-- C58: the syntax in examples/json.treerack is read without an error, and both the parser of the syntax and the parser that
is generated from it accept exactly the valid unicode texts that are JSON, in the flavor of the example. -/
theorem C58_json : ∃ s s' prog N, (∀ n, N ≤ n → ({} : Syntax).ReadSyntax (selfParse n jsonText none) = .ok (s, none)) ∧
    s.Init = .ok (s', none) ∧ s.Generate = .ok (s', .ok prog) ∧
    ∀ input, ∃ M, ∀ n, M ≤ n →
      (∀ t, s.Parse n input none = .ok (s', .node t) ↔ prog.run n input none = .ok (.ok t)) ∧
      ((∃ t, s.Parse n input none = .ok (s', .node t)) ↔ replacementChar ∉ input ∧ JsonText.Text JsonText.example_ input) := by
  obtain ⟨s, s', hc, hi⟩ := json_syntax
  obtain ⟨hw, N, hN⟩ := reads json_read (by decide +kernel) (by decide +kernel) hc
  have hsafe : DocumentWsSafe jsonDoc := wsSafeTest_sound (by decide +kernel)
  obtain ⟨prog, d, hg, hd, -, -, ho⟩ := C56_program_partial hw (hN N (Nat.le_refl _)) hsafe hi
  refine ⟨s, s', prog, N, hN, hi, hg, fun input => ?_⟩
  have same : ∀ n t, s.Parse n input none = .ok (s', .node t) ↔ prog.run n input none = .ok (.ok t) := by
    intro n t
    rw [← SameOutcome.tree (ho n input none) t]
    unfold Syntax.result
    constructor
    · intro h
      rw [h]
      rfl
    · intro h
      obtain ⟨⟨s1, r⟩, h1, h2⟩ := Res.bind_eq_ok h
      cases h2
      obtain ⟨e, he⟩ := Parse_state h1
      rw [hi] at he
      cases he
      exact h1
  suffices h : ∃ M, ∀ n, M ≤ n →
      ((∃ t, s.Parse n input none = .ok (s', .node t)) ↔ replacementChar ∉ input ∧ JsonText.Text JsonText.example_ input) by
    obtain ⟨M, hM⟩ := h
    exact ⟨M, fun n hn => ⟨same n, hM n hn⟩⟩
  by_cases hval : replacementChar ∈ input
  · refine ⟨0, fun n _ => ⟨fun ⟨t, ht⟩ => ?_, fun h => absurd hval h.1⟩⟩
    rcases C12_invalid_partial (Samples.made_history (read_made hw (hN N (Nat.le_refl _)))) hi hval ht with h | ⟨_, h, -⟩ | ⟨_, _, _, _, h, -⟩ <;> cases h
  · obtain ⟨hdir, hrec⟩ := onlyDirect_of _ _ _ (spacedDefs jsonCalls) spacedDefs_mem json_descends json_recursion
    obtain ⟨d', M, hd', hM⟩ := C57_document_partial hw (hN N (Nat.le_refl _)) hi
      ⟨_, List.mem_of_getElem? (i := 0) rfl, rfl⟩ hsafe (fun d hd => soundTest_sound d.expr
        (List.all_eq_true.1 (show (jsonDoc.all fun d => soundTest d.expr) = true by decide +kernel) d hd))
      (by decide +kernel) hdir (fun n x h => by cases hrec n x h) (wll1Test_sound mem_of_lookup json_wll1) hval
    refine ⟨M, fun n hn => ?_⟩
    rw [hM n hn, json_means hd']
    simp only [hval, not_false_eq_true, true_and]

/-! ### The RFC -/

section
variable {F F' : JsonText.Flavor} (hs : ∀ c, F.space c → F'.space c) (hp : ∀ c, F.plain c → F'.plain c) (hh : ∀ c, F.hex c → F'.hex c)
include hp hh

theorem JsonText.chars_mono {t : List Rune} (h : JsonText.Chars F t) : JsonText.Chars F' t := by
  induction h with
  | nil => exact .nil
  | plain h _ ih => exact .plain (hp _ h) ih
  | escape h _ ih => exact .escape h ih
  | unicode h1 h2 h3 h4 _ ih => exact .unicode (hh _ h1) (hh _ h2) (hh _ h3) (hh _ h4) ih

theorem JsonText.string_mono {t : List Rune} : JsonText.String F t → JsonText.String F' t :=
  fun ⟨cs, h, e⟩ => ⟨cs, JsonText.chars_mono hp hh h, e⟩

include hs

mutual
theorem JsonText.value_mono : ∀ {t : List Rune}, JsonText.Value F t → JsonText.Value F' t
  | _, .true => .true
  | _, .false => .false
  | _, .null => .null
  | _, .string h => .string (JsonText.string_mono hp hh h)
  | _, .number h => .number h
  | _, .emptyObject h => .emptyObject fun c hc => hs c (h c hc)
  | _, .object h1 h2 h3 => .object (fun c hc => hs c (h1 c hc)) (JsonText.members_mono h2) fun c hc => hs c (h3 c hc)
  | _, .emptyArray h => .emptyArray fun c hc => hs c (h c hc)
  | _, .array h1 h2 h3 => .array (fun c hc => hs c (h1 c hc)) (JsonText.values_mono h2) fun c hc => hs c (h3 c hc)

theorem JsonText.member_mono : ∀ {t : List Rune}, JsonText.Member F t → JsonText.Member F' t
  | _, .mk h1 h2 h3 h4 => .mk (JsonText.string_mono hp hh h1) (fun c hc => hs c (h2 c hc)) (fun c hc => hs c (h3 c hc))
      (JsonText.value_mono h4)

theorem JsonText.members_mono : ∀ {t : List Rune}, JsonText.Members F t → JsonText.Members F' t
  | _, .one h => .one (JsonText.member_mono h)
  | _, .more h1 h2 h3 h4 => .more (JsonText.members_mono h1) (fun c hc => hs c (h2 c hc)) (fun c hc => hs c (h3 c hc))
      (JsonText.member_mono h4)

theorem JsonText.values_mono : ∀ {t : List Rune}, JsonText.Values F t → JsonText.Values F' t
  | _, .one h => .one (JsonText.value_mono h)
  | _, .more h1 h2 h3 h4 => .more (JsonText.values_mono h1) (fun c hc => hs c (h2 c hc)) (fun c hc => hs c (h3 c hc))
      (JsonText.value_mono h4)
end

theorem JsonText.text_mono {t : List Rune} : JsonText.Text F t → JsonText.Text F' t :=
  fun ⟨w, v, w', h1, h2, h3, e⟩ => ⟨w, v, w', fun c hc => hs c (h1 c hc), JsonText.value_mono hs hp hh h2, fun c hc => hs c (h3 c hc), e⟩

end

/-- C58: the JSON texts of RFC 8259 are accepted.  (Partial: the hexadecimal digits of the escapes are lowercase letters, see
`C58_hex_counterexample`, and U+FFFD is not in the text, see C12.) -/
theorem C58_rfc_partial : ∃ s s' N, (∀ n, N ≤ n → ({} : Syntax).ReadSyntax (selfParse n jsonText none) = .ok (s, none)) ∧
    ∀ input, replacementChar ∉ input → JsonText.Text JsonText.lowercase input →
      ∃ M, ∀ n, M ≤ n → ∃ t, s.Parse n input none = .ok (s', .node t) := by
  obtain ⟨s, s', prog, N, h1, -, -, h2⟩ := C58_json
  refine ⟨s, s', N, h1, fun input hval h => ?_⟩
  obtain ⟨M, hM⟩ := h2 input
  refine ⟨M, fun n hn => (hM n hn).2.2 ⟨hval, JsonText.text_mono ?_ ?_ ?_ h⟩⟩
  · rintro c (rfl | rfl | rfl | rfl) <;> simp [JsonText.example_]
  · intro c hc
    have hc : (0x20 ≤ c ∧ c ≤ 0x21) ∨ (0x23 ≤ c ∧ c ≤ 0x5B) ∨ (0x5D ≤ c ∧ c ≤ 0x10FFFF) := hc
    have : ∀ x, x = c → x ≠ 0x5C ∧ x ≠ 0x22 ∧ x ≠ 0x08 ∧ x ≠ 0x0C ∧ x ≠ 0x0A ∧ x ≠ 0x0D ∧ x ≠ 0x09 := by
      intro (x : Nat) hx
      subst hx
      refine ⟨?_, ?_, ?_, ?_, ?_, ?_, ?_⟩ <;> (rintro rfl; revert hc; decide)
    exact this c rfl
  · exact fun c hc => hc

/-- C58: what the show command prints, without indentation, is accepted. -/
theorem C58_show : ∃ s s' N, (∀ n, N ≤ n → ({} : Syntax).ReadSyntax (selfParse n jsonText none) = .ok (s, none)) ∧
    ∀ o, (∀ c ∈ outChars o, c ≤ 0x10FFFF) → replacementChar ∉ outChars o →
      ∃ M, ∀ n, M ≤ n → ∃ t, s.Parse n (showText false [] o) none = .ok (s', .node t) := by
  obtain ⟨s, s', N, h1, h2⟩ := C58_rfc_partial
  refine ⟨s, s', N, h1, fun o ho hr => h2 _ ?_ ?_⟩
  · intro hm
    rcases marshal_from (o := o) hm with h | h
    · exact hr h
    · revert h; decide
  · exact ⟨[], marshal o, [], nofun, marshal_value o ho, nofun, by simp [showText]⟩

/-- What a value begins with. -/
theorem JsonText.value_head {F : JsonText.Flavor} {t : List Rune} (h : JsonText.Value F t) :
    ∃ c r, t = c :: r ∧ c ∈ runes "tfn{[\"-0123456789" ∧ (c = 0x22 → JsonText.String F t) := by
  cases h with
  | true => exact ⟨_, _, rfl, by decide, fun h => absurd h (by decide)⟩
  | false => exact ⟨_, _, rfl, by decide, fun h => absurd h (by decide)⟩
  | null => exact ⟨_, _, rfl, by decide, fun h => absurd h (by decide)⟩
  | string h =>
    have h' := h
    obtain ⟨cs, -, rfl⟩ := h'
    exact ⟨_, _, rfl, by decide, fun _ => h⟩
  | number h =>
    have digit : ∀ d : Nat, 0x30 ≤ d → d ≤ 0x39 → d ∈ runes "tfn{[\"-0123456789" ∧ (d = 0x22 → JsonText.String F t) := by
      intro d h1 h2
      have : d = 48 ∨ d = 49 ∨ d = 50 ∨ d = 51 ∨ d = 52 ∨ d = 53 ∨ d = 54 ∨ d = 55 ∨ d = 56 ∨ d = 57 := by omega
      refine ⟨?_, fun h => by omega⟩
      rcases this with rfl | rfl | rfl | rfl | rfl | rfl | rfl | rfl | rfl | rfl <;> decide
    obtain ⟨m, i, f, e, h1, h2, -, -, rfl⟩ := h
    rcases h1 with rfl | rfl
    · rcases h2 with rfl | ⟨d, ds, h2, h3, -, rfl⟩
      · exact ⟨_, _, rfl, digit 48 (by decide) (by decide)⟩
      · exact ⟨_, _, rfl, digit d (Nat.le_of_succ_le h2) h3⟩
    · exact ⟨_, _, rfl, by decide, fun h => absurd h (by decide)⟩
  | emptyObject h => exact ⟨_, _, rfl, by decide, fun h => absurd h (by decide)⟩
  | object h1 h2 h3 => exact ⟨_, _, by simp; rfl, by decide, fun h => absurd h (by decide)⟩
  | emptyArray h => exact ⟨_, _, rfl, by decide, fun h => absurd h (by decide)⟩
  | array h1 h2 h3 => exact ⟨_, _, by simp; rfl, by decide, fun h => absurd h (by decide)⟩

/-- A text that begins with a quote begins with a string. -/
theorem JsonText.text_quote {F : JsonText.Flavor} {t : List Rune} (hq : ¬ F.space 0x22) (h : JsonText.Text F (0x22 :: t)) :
    ∃ cs w, JsonText.Chars F cs ∧ JsonText.Space F w ∧ t = cs ++ 0x22 :: w := by
  obtain ⟨w, v, w', h1, h2, h3, e⟩ := h
  cases w with
  | cons c w => cases e; exact absurd (h1 _ (List.mem_cons_self ..)) hq
  | nil =>
    obtain ⟨c, r, rfl, -, h4⟩ := JsonText.value_head h2
    obtain ⟨rfl, rfl⟩ := List.cons.inj e
    obtain ⟨cs, h5, h6⟩ := h4 rfl
    obtain ⟨-, rfl⟩ := List.cons.inj h6
    exact ⟨cs, w', h5, h3, by simp⟩

/-- C58: uppercase hexadecimal digits are in the RFC, and not in the example. -/
theorem C58_hex_counterexample : JsonText.Text JsonText.rfc (runes "\"\\u00AB\"") ∧
    ¬ JsonText.Text JsonText.example_ (runes "\"\\u00AB\"") := by
  constructor
  · refine ⟨[], _, [], nofun, .string ⟨_, .unicode (a := 0x30) (b := 0x30) (c := 0x41) (d := 0x42) ?_ ?_ ?_ ?_ .nil, rfl⟩, nofun, by decide⟩ <;>
      simp [JsonText.rfc]
  · intro h
    obtain ⟨cs, w, h1, -, e⟩ := JsonText.text_quote (t := [0x5C, 0x75, 0x30, 0x30, 0x41, 0x42, 0x22]) (by simp [JsonText.example_]) h
    cases h1 with
    | nil => cases e
    | plain h _ => obtain ⟨rfl, -⟩ := List.cons.inj e; simp [JsonText.example_] at h
    | escape h _ =>
      simp only [List.cons_append, List.cons.injEq] at e
      obtain ⟨-, rfl, -⟩ := e
      revert h
      decide
    | unicode _ _ h _ _ =>
      simp only [List.cons_append, List.cons.injEq] at e
      obtain ⟨-, -, -, -, rfl, -⟩ := e
      simp [JsonText.example_] at h

/-- C58: a control character may be in a string of the example without an escape, and not in the RFC. -/
theorem C58_control_counterexample : JsonText.Text JsonText.example_ [0x22, 0x01, 0x22] ∧ ¬ JsonText.Text JsonText.rfc [0x22, 0x01, 0x22] := by
  constructor
  · exact ⟨[], _, [], nofun, .string ⟨_, .plain (c := 0x01) (by simp [JsonText.example_]) .nil, rfl⟩, nofun, by decide⟩
  · intro h
    obtain ⟨cs, w, h1, -, e⟩ := JsonText.text_quote (by simp [JsonText.rfc]) h
    cases h1 with
    | nil => cases e
    | plain h _ => obtain ⟨rfl, -⟩ := List.cons.inj e; simp [JsonText.rfc] at h
    | escape h _ => cases e
    | unicode _ _ h _ _ => cases e

/-- C58: a form feed is whitespace in the example, and not in the RFC. -/
theorem C58_space_counterexample : JsonText.Text JsonText.example_ (0x0C :: runes "0") ∧ ¬ JsonText.Text JsonText.rfc (0x0C :: runes "0") := by
  constructor
  · exact ⟨[0x0C], [0x30], [], by simp [JsonText.Space, JsonText.example_], .number ⟨[], [0x30], [], [], .inl rfl, .inl rfl, .inl rfl, .inl rfl, rfl⟩,
      nofun, by decide⟩
  · rintro ⟨w, v, w', h1, h2, h3, e⟩
    cases w with
    | cons c w => obtain ⟨rfl, -⟩ := List.cons.inj e; have := h1 _ (List.mem_cons_self ..); simp [JsonText.rfc] at this
    | nil =>
      obtain ⟨c, r, rfl, h4, -⟩ := JsonText.value_head h2
      obtain ⟨rfl, -⟩ := List.cons.inj e
      revert h4
      decide

/-- A text of both. -/
example : JsonText.Text JsonText.lowercase (runes "{\"a\": [1, true]}") := by
  have one : JsonText.Value JsonText.lowercase (runes "1") := .number ⟨[], [0x31], [], [], .inl rfl,
    .inr ⟨_, [], by decide, by decide, nofun, rfl⟩, .inl rfl, .inl rfl, rfl⟩
  have sp : JsonText.Space JsonText.lowercase [0x20] := by simp [JsonText.Space, JsonText.lowercase, JsonText.rfc]
  have key : JsonText.String JsonText.lowercase (runes "\"a\"") :=
    ⟨_, .plain (c := 0x61) (by simp [JsonText.lowercase, JsonText.rfc]) .nil, by decide⟩
  exact ⟨[], _, [], nofun, .object (w := []) (w' := []) nofun (.one (.mk (w := []) key nofun sp (.array (w := []) (w' := []) nofun
    (.more (w := []) (.one one) nofun sp .true) nofun))) nofun, nofun, by decide⟩

end Treerack
