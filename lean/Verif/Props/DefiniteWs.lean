import Verif.Proofs.DefiniteWs
import Verif.Proofs.DefiniteTest
import Verif.Proofs.DocTreesBack
import Verif.Props.LookaheadWs
import Verif.Props.Trees
import Verif.Props.JsonTree

/-
C61 with whitespace definitions: the parser returns the only derivation tree.
-/

namespace Treerack
open Spec Samples

variable {cs : List Call} {s s' : Syntax} {input : List Rune} {root : Name}

/-- C61: when the next character that is not whitespace is enough, it is certain where the whitespace belongs, and there is no
definition that must not match keywords, then the parser returns a tree if and only if it is a derivation tree of the input.
(`RangedCalls`: no item has a minimum above its maximum.) -/
theorem C61_tree_ws (h : Made cs s) (hi : s.Init = .ok (s', none)) (hs : StraightforwardWs cs)
    (hrec : ∀ n x, ¬ Recurs (spaced (wgrammarOf cs)) n x) (hval : replacementChar ∉ input) (hroot : rootOf cs = some root)
    (hl : WLL1 (wgrammarOf cs)) (hd : WDefinite (wgrammarOf cs)) (hr : RangedCalls cs) (hk : ∀ c ∈ cs, c.commit.noKeyword = false) :
    ∃ N, ∀ n, N ≤ n → ∀ t, s.Parse n input none = .ok (s', .node t) ↔ WTree (wgrammarOf cs) input root 0 input.length [t] := by
  obtain ⟨N, hN⟩ := C57_complete_ws h hi hs hrec hval hroot hl hk
  have hroot' : (wgrammarOf cs).root = root := by
    obtain ⟨_, _, S⟩ := calls_spaced h hi hs.toRegularWs
    have := S.rootName
    rw [hroot] at this
    exact (Option.some.inj this).symm
  refine ⟨N, fun n hn t => ⟨C59_tree_ws_partial h hi hs hr hval hroot, fun ht => ?_⟩⟩
  obtain ⟨t', hp⟩ := (hN n hn).2 ht.derives
  have ht' := C59_tree_ws_partial h hi hs hr hval hroot hp
  subst hroot'
  cases wtree_unique hl hd ht ht'
  exact hp

/-- C61: the derivation trees of a text are the same, in every grammar of this kind. -/
theorem C61_unique_ws {N : Type} [DecidableEq N] {W : WGrammar N} (hl : WLL1 W) (hd : WDefinite W) {ns ns' : List Node}
    (h1 : WTree W input W.root 0 input.length ns) (h2 : WTree W input W.root 0 input.length ns') : ns = ns' :=
  wtree_unique hl hd h1 h2

/-- C61: the parser of a document returns a tree if and only if it is a tree of the root definition, in the terms of the document.
(Partial: the quantifiers are sound, see C33, and the keywords of the document are texts, choices, or without whitespace.) -/
theorem C61_document_partial {doc : Document} {text : List Rune} {k : Nat} {rend : Option Nat} (hw : WrittenDocument doc text)
    (hr : ({} : Syntax).ReadSyntax (selfParse k text rend) = .ok (s, none)) (hi : s.Init = .ok (s', none))
    (hws : ∃ d ∈ doc, d.flags.whitespace = true) (hsafe : DocumentWsSafe doc) (hsound : ∀ d ∈ doc, d.expr.Sound)
    (hk : ∀ d ∈ doc, d.flags.noKeyword = false) (hdir : OnlyDirectRecursion (spaced (wgrammarOf (documentCalls doc))))
    (hrec : ∀ n x, ¬ Recurs (spaced (wgrammarOf (documentCalls doc))) n x) (hl : WLL1 (wgrammarOf (documentCalls doc)))
    (hd : WDefinite (wgrammarOf (documentCalls doc))) (hval : replacementChar ∉ input) :
    ∃ d N, docRoot doc = some d ∧ ∀ n, N ≤ n → ∀ t,
      s.Parse n input none = .ok (s', .node t) ↔ DefTree doc input d 0 input.length [t] := by
  have hm := read_made hw hr
  have hsym := WrittenDocument.symbols hw
  obtain ⟨d, hdm, hroot, hn⟩ := read_root hw hr hi
  obtain ⟨hs, hk'⟩ := document_straightWs hm hsym hws hsafe hk hdir hrec
  obtain ⟨N, hN⟩ := C61_tree_ws hm hi hs hrec hval hn hl hd (document_ranged hsound) hk'
  exact ⟨d, N, hroot, fun n hle t => (hN n hle t).trans (document_trees_iff hm hsym hsound hdm).symm⟩

/-! ### Examples -/

theorem json_definite : WDefinite (wgrammarOf jsonCalls) :=
  wdefiniteTest_sound (k := 4) mem_of_lookup (by decide +kernel)

/-- C61: the parser of examples/json.treerack returns exactly the derivation trees of the document. -/
theorem C61_json {input : List Rune} (hval : replacementChar ∉ input) :
    ∃ s s' N, (∀ n, N ≤ n → ({} : Syntax).ReadSyntax (selfParse n jsonText none) = .ok (s, none)) ∧ s.Init = .ok (s', none) ∧
      ∃ d M, docRoot jsonDoc = some d ∧ ∀ n, M ≤ n → ∀ t,
        s.Parse n input none = .ok (s', .node t) ↔ DefTree jsonDoc input d 0 input.length [t] := by
  obtain ⟨s, s', hc, hi⟩ := json_syntax
  obtain ⟨hw, N, hN⟩ := reads json_read (by decide +kernel) (by decide +kernel) hc
  have hsafe : DocumentWsSafe jsonDoc := wsSafeTest_sound (by decide +kernel)
  obtain ⟨hdir, hrec⟩ := onlyDirect_of _ _ _ (spacedDefs jsonCalls) spacedDefs_mem json_descends json_recursion
  exact ⟨s, s', N, hN, hi, C61_document_partial hw (hN N (Nat.le_refl _)) hi
      ⟨_, List.mem_of_getElem? (i := 0) rfl, rfl⟩ hsafe (fun d hd => soundTest_sound d.expr
        (List.all_eq_true.1 (show (jsonDoc.all fun d => soundTest d.expr) = true by decide +kernel) d hd))
      (by decide +kernel) hdir (fun n x h => by cases hrec n x h) (wll1Test_sound mem_of_lookup json_wll1) json_definite hval⟩

/-- `w:ws = " "; b = "b"; c = "c"; d = "d"; a = b c?; r = a d` -/
def looseEndCalls : List Call := [
  .charSequence (runes "w") { whitespace := true } (runes " "),
  .charSequence (runes "b") {} (runes "b"),
  .charSequence (runes "c") {} (runes "c"),
  .charSequence (runes "d") {} (runes "d"),
  .sequence (runes "a") {} [{ name := runes "b" }, { name := runes "c", min := 0, max := 1 }],
  .sequence (runes "r") { root := true } [{ name := runes "a" }, { name := runes "d" }]]

theorem looseEnd_char {x : String} {c : Rune} {i : Nat} (hr : charName (runes x) 0 ≠ (wgrammarOf looseEndCalls).root)
    (h1 : (wgrammarOf looseEndCalls).G (charName (runes x) 0) = some ⟨charName (runes x) 0, true, .char false [c] []⟩)
    (h2 : (wgrammarOf looseEndCalls).G (runes x) = some ⟨runes x, false, .seq [(charName (runes x) 0, 1, 1)]⟩)
    (ht : (wgrammarOf looseEndCalls).tight (runes x) = true) (hi : (runes "b d")[i]? = some c) :
    WTreeBody (wgrammarOf looseEndCalls) (runes "b d") (runes x) i (i + 1) [] :=
  .tight h2 rfl ht (.cons (k := 1)
    (.succ .zero (.hidden hr h1 (fun h => h.2.2 _ _ _ rfl) (.char h1 rfl hi (by simp [InClass])))) (.inl ⟨by simp, by simp⟩) .nil)

/-- C61: when there may be whitespace behind the last item of a node, there are more trees than the one that is returned: the
whitespace belongs to the node, or comes behind it. -/
theorem C61_gap_counterexample : WLL1 (wgrammarOf looseEndCalls) ∧
    ∃ t t', WTree (wgrammarOf looseEndCalls) (runes "b d") (runes "r") 0 3 [t] ∧
      WTree (wgrammarOf looseEndCalls) (runes "b d") (runes "r") 0 3 [t'] ∧ t ≠ t' := by
  refine ⟨wll1Test_sound (k := 7) mem_of_lookup (by decide +kernel), ?_⟩
  have one : InRange 1 1 1 := .inl ⟨by simp, by simp⟩
  have none : InRange 0 1 0 := .inl ⟨by simp, by simp⟩
  have shown : ∀ {x : String} {items : List (Name × Int × Int)}, runes x ∉ (wgrammarOf looseEndCalls).ws →
      Shown (wgrammarOf looseEndCalls) (runes x) ⟨runes x, false, .seq items⟩ := fun h => ⟨rfl, h, fun _ _ _ h => by cases h⟩
  have b : WTree (wgrammarOf looseEndCalls) (runes "b d") (runes "b") 0 1 [.mk (runes "b") 0 1 (runes "b d") []] :=
    .shown (by decide) (d := ⟨runes "b", false, .seq [(charName (runes "b") 0, 1, 1)]⟩) rfl (shown (by decide))
      (looseEnd_char (c := 0x62) (by decide) rfl rfl rfl rfl)
  have d : WTree (wgrammarOf looseEndCalls) (runes "b d") (runes "d") 2 3 [.mk (runes "d") 2 3 (runes "b d") []] :=
    .shown (by decide) (d := ⟨runes "d", false, .seq [(charName (runes "d") 0, 1, 1)]⟩) rfl (shown (by decide))
      (looseEnd_char (c := 0x64) (by decide) rfl rfl rfl rfl)
  have gap : TreeGap (wgrammarOf looseEndCalls) (runes "b d") 1 2 [] :=
    .cons (w := runes "w") .nil (by decide) (.hidden (d := ⟨runes "w", false, .seq [(charName (runes "w") 0, 1, 1)]⟩) (by decide) rfl
      (fun h => h.2.1 (by decide)) (looseEnd_char (c := 0x20) (by decide) rfl rfl rfl rfl))
  have short : WTree (wgrammarOf looseEndCalls) (runes "b d") (runes "a") 0 1
      [.mk (runes "a") 0 1 (runes "b d") [.mk (runes "b") 0 1 (runes "b d") []]] :=
    .shown (d := ⟨runes "a", false, .seq [(runes "b", 1, 1), (runes "c", 0, 1)]⟩) (by decide) rfl (shown (by decide))
      (.loose rfl rfl rfl (.cons (k := 1) (.first b) one (.cons (k := 0) .zero none .nil)))
  have long : WTree (wgrammarOf looseEndCalls) (runes "b d") (runes "a") 0 2
      [.mk (runes "a") 0 2 (runes "b d") [.mk (runes "b") 0 1 (runes "b d") []]] :=
    .shown (d := ⟨runes "a", false, .seq [(runes "b", 1, 1), (runes "c", 0, 1)]⟩) (by decide) rfl (shown (by decide))
      (.loose rfl rfl rfl (.cons (k := 1) (.first b) one (.absent (by decide) gap .nil)))
  refine ⟨.mk (runes "r") 0 3 (runes "b d") [.mk (runes "a") 0 1 (runes "b d") [.mk (runes "b") 0 1 (runes "b d") []],
      .mk (runes "d") 2 3 (runes "b d") []],
    .mk (runes "r") 0 3 (runes "b d") [.mk (runes "a") 0 2 (runes "b d") [.mk (runes "b") 0 1 (runes "b d") []],
      .mk (runes "d") 2 3 (runes "b d") []], ?_, ?_, ?_⟩
  · exact .root (d := ⟨runes "r", false, .seq [(runes "a", 1, 1), (runes "d", 1, 1)]⟩) rfl .nil (.loose rfl rfl rfl
      (.cons (k := 1) (.first short) one (.cons (k := 1) (.succ .zero (fun h => by cases h) gap d) one .nil))) .nil
  · exact .root (d := ⟨runes "r", false, .seq [(runes "a", 1, 1), (runes "d", 1, 1)]⟩) rfl .nil (.loose rfl rfl rfl
      (.cons (k := 1) (.first long) one (.cons (k := 1) (.succ .zero (fun h => by cases h) .nil d) one .nil))) .nil
  · intro h
    injection h with _ _ _ _ h
    injection h with h _
    injection h with _ _ h
    cases h

end Treerack
