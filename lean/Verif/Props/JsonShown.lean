import Verif.Proofs.JsonIndent
import Verif.Props.JsonTree
import Verif.Props.Main

/-
C66: the text printed by show can be read with examples/json.treerack.

`readJson`, `jsonOf` and `outChars`: Spec/Json.lean.  `treeValue`: Spec/JsonTree.lean.  `meaning`: Spec/JsonMeaning.lean.
-/

namespace Treerack
open Spec JsonText

section
variable {F F' : Flavor} (hs : ∀ c, F.space c → F'.space c) (hp : ∀ c, F.plain c → F'.plain c) (hh : ∀ c, F.hex c → F'.hex c)
include hs hp hh

mutual
theorem valueOf_mono : ∀ {t : List Rune} {v : JValue}, ValueOf F t v → ValueOf F' t v
  | _, _, .true => .true
  | _, _, .false => .false
  | _, _, .null => .null
  | _, _, .string h => .string (JsonText.string_mono hp hh h)
  | _, _, .number h => .number h
  | _, _, .emptyObject h => .emptyObject fun c hc => hs c (h c hc)
  | _, _, .object h1 h2 h3 => .object (fun c hc => hs c (h1 c hc)) (membersOf_mono h2) fun c hc => hs c (h3 c hc)
  | _, _, .emptyArray h => .emptyArray fun c hc => hs c (h c hc)
  | _, _, .array h1 h2 h3 => .array (fun c hc => hs c (h1 c hc)) (valuesOf_mono h2) fun c hc => hs c (h3 c hc)

theorem memberOf_mono : ∀ {t : List Rune} {v : List Rune × JValue}, MemberOf F t v → MemberOf F' t v
  | _, _, .mk h1 h2 h3 h4 => .mk (JsonText.string_mono hp hh h1) (fun c hc => hs c (h2 c hc)) (fun c hc => hs c (h3 c hc))
      (valueOf_mono h4)

theorem membersOf_mono : ∀ {t : List Rune} {v : List (List Rune × JValue)}, MembersOf F t v → MembersOf F' t v
  | _, _, .one h => .one (memberOf_mono h)
  | _, _, .more h1 h2 h3 h4 => .more (membersOf_mono h1) (fun c hc => hs c (h2 c hc)) (fun c hc => hs c (h3 c hc)) (memberOf_mono h4)

theorem valuesOf_mono : ∀ {t : List Rune} {v : List JValue}, ValuesOf F t v → ValuesOf F' t v
  | _, _, .one h => .one (valueOf_mono h)
  | _, _, .more h1 h2 h3 h4 => .more (valuesOf_mono h1) (fun c hc => hs c (h2 c hc)) (fun c hc => hs c (h3 c hc)) (valueOf_mono h4)
end

end

theorem json_space {c : Rune} : Json.space c = true → rfc.space c := by
  simp only [Json.space, Bool.or_eq_true, beq_iff_eq]
  rintro (((rfl | rfl) | rfl) | rfl)
  · exact .inl rfl
  · exact .inr (.inl rfl)
  · exact .inr (.inr (.inl rfl))
  · exact .inr (.inr (.inr rfl))

/-- The text printed by show is a JSON text of the example. -/
theorem showText_example {pretty : Bool} {indent : List Rune} {o : OutNode} (hi : ∀ c ∈ indent, Json.space c = true)
    (ho : ∀ c ∈ outChars o, c ≤ 0x10FFFF) :
    ∃ v, TextOf example_ (showText pretty indent o ++ [10]) v ∧ meaning v = some (jsonOf o) := by
  obtain ⟨v, hv, e⟩ := showText_of (pretty := pretty) (fun c hc => json_space (hi c hc)) ho
  refine ⟨v, ⟨[], _, [10], nofun, valueOf_mono ?_ ?_ ?_ hv, ?_, by simp⟩, e⟩
  · rintro c (rfl | rfl | rfl | rfl) <;> simp [example_]
  · intro c hc
    have hc : (0x20 ≤ c ∧ c ≤ 0x21) ∨ (0x23 ≤ c ∧ c ≤ 0x5B) ∨ (0x5D ≤ c ∧ c ≤ 0x10FFFF) := hc
    have : ∀ x, x = c → x ≠ 0x5C ∧ x ≠ 0x22 ∧ x ≠ 0x08 ∧ x ≠ 0x0C ∧ x ≠ 0x0A ∧ x ≠ 0x0D ∧ x ≠ 0x09 := by
      intro (x : Nat) hx
      subst hx
      refine ⟨?_, ?_, ?_, ?_, ?_, ?_, ?_⟩ <;> (rintro rfl; revert hc; decide)
    exact this c rfl
  · exact fun c hc => hc
  · intro c hc
    rw [List.mem_singleton.1 hc]
    simp [example_]

theorem showText_valid {pretty : Bool} {indent : List Rune} {o : OutNode} (hi : ∀ c ∈ indent, Json.space c = true)
    (ho : replacementChar ∉ outChars o) : replacementChar ∉ showText pretty indent o ++ [10] := by
  have hm : replacementChar ∉ marshal o := by
    intro h
    rcases marshal_from (o := o) h with h | h
    · exact ho h
    · revert h; decide
  have hi' : ∀ indent : List Rune, (∀ c ∈ indent, Json.space c = true) → replacementChar ∉ indent := by
    intro indent hi h
    exact absurd (hi _ h) (by decide)
  intro h
  rcases List.mem_append.1 h with h | h
  · unfold showText at h
    split at h
    · rcases indent_chars h with h | h | h | h
      · exact hm h
      · split at h
        · exact absurd (List.mem_replicate.1 h).2 (by decide)
        · exact hi' _ hi h
      · exact absurd h (by decide)
      · exact absurd h (by decide)
    · exact hm h
  · exact absurd (List.mem_singleton.1 h) (by decide)

/-- C66: what show prints is accepted by the syntax in examples/json.treerack and by the parser generated from it, with trees that mean
the printed tree.  (Partial: the indentation consists of spaces, see C48; U+FFFD is not in the tree, see C12.) -/
theorem C66_value_partial : ∃ s s' prog N, (∀ n, N ≤ n → ({} : Syntax).ReadSyntax (selfParse n jsonText none) = .ok (s, none)) ∧
    s.Init = .ok (s', none) ∧ s.Generate = .ok (s', .ok prog) ∧
    ∀ pretty indent o, (∀ c ∈ indent, Json.space c = true) → (∀ c ∈ outChars o, c ≤ 0x10FFFF) → replacementChar ∉ outChars o →
      ∃ M, ∀ n, M ≤ n → ∃ t v, s.Parse n (showText pretty indent o ++ [10]) none = .ok (s', .node t) ∧
        prog.run n (showText pretty indent o ++ [10]) none = .ok (.ok t) ∧
        treeValue t = some v ∧ meaning v = some (jsonOf o) := by
  obtain ⟨s, s', prog, N, h1, h2, h3, h4⟩ := C58_value
  obtain ⟨s1, s1', prog1, N1, g1, g2, g3, g4⟩ := C58_json
  have e := h1 (max N N1) (Nat.le_max_left ..)
  rw [g1 (max N N1) (Nat.le_max_right ..)] at e
  cases e
  rw [h2] at g2
  cases g2
  rw [h3] at g3
  cases g3
  refine ⟨s, s', prog, N, h1, h2, h3, fun pretty indent o hi ho hr => ?_⟩
  obtain ⟨M, hM⟩ := h4 (showText pretty indent o ++ [10])
  obtain ⟨M1, hM1⟩ := g4 (showText pretty indent o ++ [10])
  obtain ⟨v, hv, ev⟩ := showText_example (pretty := pretty) hi ho
  refine ⟨max M M1, fun n hn => ?_⟩
  obtain ⟨t, ht, htv⟩ := (hM n (by omega) v).1.2 ⟨showText_valid hi hr, hv⟩
  exact ⟨t, v, ht, ((hM1 n (by omega)).1 t).1 ht, htv, ev⟩

variable {x : Surroundings} {fuel : Nat} {args rest : List Name} {fs : List (Name × FlagValue)}

theorem check_accepts {s s' : Syntax} {text input : List Rune} {t : Node} (hh : args.head? ≠ some (runes "-help"))
    (hf : Flags (documented .check) args fs rest) (hx : (syntaxSource fs []).open x.world = some (text, none))
    (hy : (inputSource fs rest).open ((syntaxSource fs []).after x.world) = some (input, none))
    (hr : ({} : Syntax).ReadSyntax (selfParse fuel text none) = .ok (s, none))
    (hp : s.Parse fuel input none = .ok (s', .node t)) : Command.check.run x fuel args = .ok (0, {}) :=
  (C49_check hh hf {}).2 ⟨rfl, input, t, s, none, s', ⟨text, none, hx, hr⟩, hy, hp⟩

/-- C66: when show has printed a tree, then check accepts the printed text with the syntax in examples/json.treerack.  (Partial: as
above, and the writes do not fail.) -/
theorem C66_pipe_partial (hh : args.head? ≠ some (runes "-help")) (h : Flags (documented .show) args fs rest)
    (hi : ∀ c ∈ stringFlag fs "indent", Json.space c = true) (hw : ∀ i, x.stdout i = false) {input : List Rune} {t : Node}
    (hp : Parses x fuel (syntaxSource fs []) (inputSource fs rest) input t) :
    ∃ o out, Printed input t o ∧ Command.show.run x fuel args = .ok (0, out) ∧
      ((∀ c ∈ outChars o, c ≤ 0x10FFFF) → replacementChar ∉ outChars o →
        ∀ (x' : Surroundings) (args' rest' : List Name) (fs' : List (Name × FlagValue)), args'.head? ≠ some (runes "-help") →
          Flags (documented .check) args' fs' rest' → (syntaxSource fs' []).open x'.world = some (jsonText, none) →
          (inputSource fs' rest').open ((syntaxSource fs' []).after x'.world) = some (out.text, none) →
          ∃ N, ∀ n, N ≤ n → Command.check.run x' n args' = .ok (0, {})) := by
  have h0 := hp
  obtain ⟨s, e, s', ⟨r, e', hs1, hs2⟩, h5, h6⟩ := hp
  obtain ⟨o, ho, hpr⟩ := C35_show (.read .empty hs2) h6
  refine ⟨o, Out.print x.stdout {} (showText (boolFlag fs "pretty") (stringFlag fs "indent") o ++ [10]), hpr, ?_, ?_⟩
  · rw [run_show hh h]
    simp [showCmd, parseCmd_iff.2 ⟨input, h0⟩, ho]
  · intro hc hr x' args' rest' fs' hh' hf' hx hy
    have ht : (Out.print x.stdout {} (showText (boolFlag fs "pretty") (stringFlag fs "indent") o ++ [10])).text =
        showText (boolFlag fs "pretty") (stringFlag fs "indent") o ++ [10] := by
      simp [Out.print, Out.write, hw]
    rw [ht] at hy
    obtain ⟨s, s', prog, N, g1, g2, g3, g4⟩ := C66_value_partial
    obtain ⟨M, hM⟩ := g4 (boolFlag fs "pretty") _ o hi hc hr
    refine ⟨max N M, fun n hn => ?_⟩
    obtain ⟨t, v, h1, -⟩ := hM n (by omega)
    exact check_accepts hh' hf' hx hy (g1 n (by omega)) h1

/-! ### Examples -/

/-- The sample of C48 means the printed tree, which has a quote, a new line and a character that is escaped because of HTML. -/
example : (∀ c ∈ outChars printedSample, c ≤ 0x10FFFF) ∧ replacementChar ∉ outChars printedSample := by decide

/-- A value and its meaning. -/
example : meaning (.object [(runes "\"a\\u003c\"", .array [.number (runes "10"), .string (runes "\"\\n\"")])]) =
    some (.obj [(runes "a<", .arr [.num 10, .str [10]])]) := by
  have h1 : Json.decode ((runes "\"a\\u003c\"").drop 1).dropLast = some (runes "a<") := by decide +kernel
  have h2 : Json.decode ((runes "\"\\n\"").drop 1).dropLast = some [10] := by decide +kernel
  have h3 : isDecimal (runes "10") = true := by decide +kernel
  have h4 : decimal (runes "10") = 10 := by decide +kernel
  simp only [meaning, meaningMembers, meaningMember, meaningValues, h1, h2, h3, h4, if_true, Option.map_some, Option.bind_some]

end Treerack
