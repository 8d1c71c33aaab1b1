import Verif.Props.JsonExample
import Verif.Props.Trees
import Verif.Proofs.JsonTree
import Verif.Proofs.JsonUnique

/-
C58: the trees of the syntax in examples/json.treerack stand for the values of the texts.
-/

namespace Treerack
open Spec JsonText

/-- A tree of the document stands for a value of the text. -/
theorem json_tree_value {d : DDef} {input : List Rune} {t : Node} (hd : docRoot jsonDoc = some d)
    (h : DefTree jsonDoc input d 0 input.length [t]) : ∃ v, treeValue t = some v ∧ TextOf example_ input v := by
  have hroot : docRoot jsonDoc = some ⟨runes "json", { root := true }, symbolOf "expression"⟩ := by decide +kernel
  rw [hroot] at hd
  cases hd
  obtain ⟨n, v, hn, h1, u, h2, h3⟩ := at_json.1 (defTree_of json_tree_fits h).2
  cases hn
  cases Span.all_iff.1 h2
  exact ⟨v, h1, h3⟩

/-- C58: the tree of a JSON text stands for the value of the text: the name, the text and the child nodes of every node tell which
value it is. -/
theorem C58_tree : ∃ s s' prog N, (∀ n, N ≤ n → ({} : Syntax).ReadSyntax (selfParse n jsonText none) = .ok (s, none)) ∧
    s.Init = .ok (s', none) ∧ s.Generate = .ok (s', .ok prog) ∧
    ∀ n input t, s.Parse n input none = .ok (s', .node t) ∨ prog.run n input none = .ok (.ok t) →
      ∃ v, treeValue t = some v ∧ TextOf example_ input v := by
  obtain ⟨s, s', hc, hi⟩ := json_syntax
  obtain ⟨hw, N, hN⟩ := reads json_read (by decide +kernel) (by decide +kernel) hc
  have hsafe : DocumentWsSafe jsonDoc := wsSafeTest_sound (by decide +kernel)
  have hm := read_made hw (hN N (Nat.le_refl _))
  obtain ⟨prog, d, hg, hd, -, -, ho⟩ := C56_program_partial hw (hN N (Nat.le_refl _)) hsafe hi
  refine ⟨s, s', prog, N, hN, hi, hg, fun n input t h => ?_⟩
  have hp : s.Parse n input none = .ok (s', .node t) := by
    rcases h with h | h
    · exact h
    · have h := (SameOutcome.tree (ho n input none) t).2 h
      unfold Syntax.result at h
      obtain ⟨⟨s1, r⟩, h1, h2⟩ := Res.bind_eq_ok h
      cases h2
      obtain ⟨e, he⟩ := Parse_state h1
      rw [hi] at he
      cases he
      exact h1
  have hval : replacementChar ∉ input := by
    intro hval
    rcases C12_invalid_partial (Samples.made_history hm) hi hval hp with h | ⟨_, h, -⟩ | ⟨_, _, _, _, h, -⟩ <;> cases h
  obtain ⟨hdir, hrec⟩ := onlyDirect_of _ _ _ (spacedDefs jsonCalls) spacedDefs_mem json_descends json_recursion
  obtain ⟨hs, -⟩ := document_straightWs hm (WrittenDocument.symbols hw) ⟨_, List.mem_of_getElem? (i := 0) rfl, rfl⟩ hsafe
    (by decide +kernel) hdir (fun n x h => by cases hrec n x h)
  obtain ⟨d', hd', ht⟩ := C59_document_ws_partial hw (hN N (Nat.le_refl _)) hi hs (fun d hd => soundTest_sound d.expr
    (List.all_eq_true.1 (show (jsonDoc.all fun d => soundTest d.expr) = true by decide +kernel) d hd)) hval hp
  exact json_tree_value hd' ht

/-- C58: a JSON text has a single value, by RFC 8259 and in the flavor of the example. -/
theorem C58_single {t : List Rune} {v v' : JValue} :
    (TextOf rfc t v → TextOf rfc t v' → v = v') ∧ (TextOf example_ t v → TextOf example_ t v' → v = v') :=
  ⟨text_single sane_rfc, text_single sane_example⟩

/-- C58: a valid unicode text is accepted with a tree that stands for a value exactly when the text is JSON with this value. -/
theorem C58_value : ∃ s s' prog N, (∀ n, N ≤ n → ({} : Syntax).ReadSyntax (selfParse n jsonText none) = .ok (s, none)) ∧
    s.Init = .ok (s', none) ∧ s.Generate = .ok (s', .ok prog) ∧
    ∀ input, ∃ M, ∀ n, M ≤ n → ∀ v,
      ((∃ t, s.Parse n input none = .ok (s', .node t) ∧ treeValue t = some v) ↔ replacementChar ∉ input ∧ TextOf example_ input v) ∧
      ((∃ t, prog.run n input none = .ok (.ok t) ∧ treeValue t = some v) ↔ replacementChar ∉ input ∧ TextOf example_ input v) := by
  obtain ⟨s, s', prog, N, h1, h2, h3, h4⟩ := C58_json
  obtain ⟨s1, s1', prog1, N1, g1, g2, g3, g4⟩ := C58_tree
  have e := h1 (max N N1) (Nat.le_max_left ..)
  rw [g1 (max N N1) (Nat.le_max_right ..)] at e
  cases e
  rw [h2] at g2
  cases g2
  refine ⟨s, s', prog, N, h1, h2, h3, fun input => ?_⟩
  obtain ⟨M, hM⟩ := h4 input
  have main : ∀ n, M ≤ n → ∀ v,
      ((∃ t, s.Parse n input none = .ok (s', .node t) ∧ treeValue t = some v) ↔ replacementChar ∉ input ∧ TextOf example_ input v) := by
    intro n hn v
    obtain ⟨-, ha⟩ := hM n hn
    constructor
    · rintro ⟨t, ht, hv⟩
      obtain ⟨v', hv', hx⟩ := g4 n input t (.inl ht)
      rw [hv] at hv'
      cases hv'
      exact ⟨(ha.1 ⟨t, ht⟩).1, hx⟩
    · rintro ⟨hr, hx⟩
      obtain ⟨t, ht⟩ := ha.2 ⟨hr, text_iff.2 ⟨v, hx⟩⟩
      obtain ⟨v', hv', hx'⟩ := g4 n input t (.inl ht)
      exact ⟨t, ht, by rw [hv', text_single sane_example hx hx']⟩
  refine ⟨M, fun n hn v => ⟨main n hn v, ?_⟩⟩
  rw [← main n hn v]
  exact exists_congr fun t => and_congr_left fun _ => ((hM n hn).1 t).symm

/-- A text with its value. -/
example : TextOf example_ (runes "{\"a\": [1, true]}") (.object [(runes "\"a\"", .array [.number (runes "1"), .true])]) := by
  have one : ValueOf example_ (runes "1") (.number (runes "1")) := .number ⟨[], [0x31], [], [], .inl rfl,
    .inr ⟨_, [], by decide, by decide, nofun, rfl⟩, .inl rfl, .inl rfl, rfl⟩
  have sp : Space example_ [0x20] := by simp [Space, example_]
  have key : JsonText.String example_ (runes "\"a\"") := ⟨_, .plain (c := 0x61) (by simp [example_]) .nil, by decide⟩
  exact ⟨[], _, [], nofun, .object (w := []) (w' := []) nofun (.one (.mk (w := []) key nofun sp (.array (w := []) (w' := []) nofun
    (.more (w := []) (.one one) nofun sp .true) nofun))) nofun, nofun, by decide⟩

/-- And a tree with this value. -/
example :
    let text := runes "{\"a\": [1, true]}"
    treeValue (.mk (runes "json") 0 16 text [.mk (runes "object") 0 16 text [.mk (runes "entry") 1 15 text [.mk (runes "string") 1 4 text [],
      .mk (runes "array") 6 15 text [.mk (runes "number") 7 8 text [], .mk (runes "true") 10 14 text []]]]]) =
      some (.object [(runes "\"a\"", .array [.number (runes "1"), .true])]) := by
  rfl

end Treerack
