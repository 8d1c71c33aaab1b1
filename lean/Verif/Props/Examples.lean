import Verif.Proofs.ExampleJson
import Verif.Proofs.ExampleSexpr
import Verif.Proofs.ExampleScheme
import Verif.Proofs.ExampleKeyval
import Verif.Proofs.ExampleEskip
import Verif.Props.LookaheadWs
import Verif.Props.Trace
import Verif.Props.Unmatched

/-
C64: the example documents.
-/

namespace Treerack
open Spec Samples

/-- What can be relied on when using the syntax document in the text:
the text is written in the documented notation and is read without an error, the syntax can be initialized, its parser returns exactly
the trees of the reference semantics (Spec/Reference.lean, with the whitespace of Spec/Spaced.lean) of the document, the parser generated
from it returns the same, and the number of the attempts to parse a definition is bounded by a polynomial. -/
structure Dependable (text : List Rune) (doc : Document) (s s' : Syntax) (prog : Program) (top : DDef) : Prop where
  written : WrittenDocument doc text
  read : ∃ N, ∀ n, N ≤ n → ({} : Syntax).ReadSyntax (selfParse n text none) = .ok (s, none)
  initialized : s.Init = .ok (s', none)
  generated : s.Generate = .ok (s', .ok prog)
  root : docRoot doc = some top
  trees : ∀ input, replacementChar ∉ input → ∃ N, ∀ n, N ≤ n → ∀ t,
    s.Parse n input none = .ok (s', .node t) ↔ RefWs (documentCalls doc) input (.given top.name) 0 (some (input.length, [t]))
  same : ∀ n input rend, Spec.SameOutcome top.name (s.result n input rend) (prog.run n input rend)
  work : ∃ p, s'.root = some p ∧ ∃ K e, ∀ (input : List Rune) (rend : Option Nat) (n : Nat) (c : Ctx) (tr : List Event),
    parseTraced s'.env n p (newContext input rend) = .ok (c, tr) → tr.length ≤ K * (input.length + 1) ^ e

theorem dependable {m a b : Nat} {ranks : List Nat} {text : List Rune} {doc : Document} (hd : readDocument m text = some doc)
    (h : dependableTest ranks text doc = true) (hl : leftTest a b doc = true) :
    ∃ s s' prog top, Dependable text doc s s' prog top ∧ Made (documentCalls doc) s ∧ StraightforwardWs (documentCalls doc) ∧
      rootOf (documentCalls doc) = some top.name ∧ (∀ c ∈ documentCalls doc, c.commit.noKeyword = false) ∧
      ({} : Syntax).internalCalls (documentCalls doc) = (s, none) := by
  unfold dependableTest at h
  simp only [Bool.and_eq_true, Bool.not_eq_true'] at h
  obtain ⟨⟨⟨⟨⟨hv, hf⟩, hsafe⟩, hws⟩, hk⟩, h⟩ := h
  unfold leftTest at hl
  simp only [Bool.and_eq_true] at hl
  obtain ⟨hdesc, hrecu⟩ := hl
  split at h
  · rename_i s hc
    split at h
    · rename_i s' hi
      simp only [Bool.and_eq_true] at h
      obtain ⟨root, hroot⟩ := Option.isSome_iff_exists.1 h.2
      obtain ⟨hw, N, hN⟩ := reads hd (by simpa using hv) hf hc
      have hr := hN N (Nat.le_refl _)
      have hm := read_made hw hr
      have hsafe := wsSafeTest_sound hsafe
      obtain ⟨hdir, hrec⟩ := onlyDirect_of _ _ _ (spacedDefs (documentCalls doc)) spacedDefs_mem hdesc hrecu
      obtain ⟨hs, hk'⟩ := document_straightWs hm (WrittenDocument.symbols hw) (by simpa using hws) hsafe
        (fun d hd => by simpa using List.all_eq_true.1 hk d hd) hdir (fun n x h => by cases hrec n x h)
      obtain ⟨prog, d, hg, hd, -, -, ho⟩ := C56_program_partial hw hr hsafe hi
      obtain ⟨d', -, hd', hn⟩ := read_root hw hr hi
      rw [hd] at hd'
      obtain rfl := Option.some.inj hd'
      refine ⟨s, s', prog, d, ⟨hw, ⟨N, hN⟩, hi, hg, hd, fun input hval => ?_, ho, root, hroot,
        C63_polynomial_partial (made_history hm) hi hroot (rankedBy_sound h.1 root)⟩, hm, hs, hn, hk', hc⟩
      obtain ⟨M, hM⟩ := C06_exactness_ws hm hi hs hval hn
      refine ⟨M, fun n hn' t => ⟨fun h => C09_tree_ws hm hi hs hval hn h, fun h => ?_⟩⟩
      obtain ⟨t', ht⟩ := (hM n hn').2 ⟨_, h⟩
      have := h.unique (C09_tree_ws hm hi hs hval hn ht)
      cases this
      exact ht
    · cases h
  · cases h

/-- When the root may be empty, too, then no text leads to a panic. -/
theorem dependable_panicless {m a b a' : Nat} {ranks : List Nat} {text : List Rune} {doc : Document} (hd : readDocument m text = some doc)
    (h : dependableTest ranks text doc = true) (hl : leftTest a b doc = true) (hn : emptyRoot a' doc = true) :
    ∃ doc s s' prog top, Dependable text doc s s' prog top ∧
      ∀ n input rend, replacementChar ∉ input → s.Parse n input rend ≠ .panic := by
  obtain ⟨s, s', prog, top, hD, hm, hs, hr, hk, -⟩ := dependable hd h hl
  unfold emptyRoot at hn
  rw [hr] at hn
  refine ⟨doc, s, s', prog, top, hD, fun n input rend hval => ?_⟩
  refine C13_nullable_ws_partial hm hD.initialized hs hval hr (nulOf_sound hn) fun x _ hx => ?_
  have hno : ∀ m, ¬ RejectsKeywords (documentCalls doc) m := by
    rintro m ⟨c, hc, -, hk'⟩
    rw [hk c hc] at hk'
    cases hk'
  cases x with
  | given n => exact hno _ hx.2
  | body => exact hno _ hx
  | space => exact hx.elim
  | rest => exact hx.elim
  | several => exact hx.elim

/-- When the root cannot be empty, but it is always known where it fails, then no text leads to a panic, either. -/
theorem dependable_solid {m a b : Nat} {ranks : List Nat} {text : List Rune} {doc : Document} {x : Solid}
    (hd : readDocument m text = some doc) (h : dependableTest ranks text doc = true) (hl : leftTest a b doc = true)
    (hx : solidTest x doc = true) :
    ∃ doc s s' prog top, Dependable text doc s s' prog top ∧
      ∀ n input rend, replacementChar ∉ input → s.Parse n input rend ≠ .panic := by
  obtain ⟨s, s', prog, top, hD, hm, hs, hr, hk, hc⟩ := dependable hd h hl
  unfold solidTest at hx
  simp only [hc, hD.initialized, Bool.and_eq_true, decide_eq_true_eq] at hx
  refine ⟨doc, s, s', prog, top, hD, fun n input rend hval hp => ?_⟩
  obtain ⟨rp, f, K⟩ := calls_spaced hm hD.initialized hs.toRegularWs
  have hrp := K.rootEq
  rw [hx.1] at hrp
  obtain rfl := Option.some.inj hrp
  obtain ⟨c, h1, h2, h3⟩ := parseInput_failed (K.straight hs.plainRefs) hval (Parse_panic hD.initialized hx.1 hp)
  have := Solid.firm hx.2 h1 h2
  omega

/-- C64: examples/json.treerack, whose parser does not panic on valid unicode, either.  (Its texts are described by C58.) -/
theorem C64_json : ∃ doc s s' prog top, Dependable jsonText doc s s' prog top ∧
    ∀ n input rend, replacementChar ∉ input → s.Parse n input rend ≠ .panic :=
  dependable_solid json_read json_dependable json_left json_solid

/-- C64: examples/sexpr.treerack, whose parser does not panic on valid unicode, either. -/
theorem C64_sexpr : ∃ doc s s' prog top, Dependable sexprText doc s s' prog top ∧
    ∀ n input rend, replacementChar ∉ input → s.Parse n input rend ≠ .panic :=
  dependable_solid sexpr_read sexpr_dependable sexpr_left sexpr_solid

/-- C64: examples/scheme.treerack, whose parser does not panic on valid unicode, either. -/
theorem C64_scheme : ∃ doc s s' prog top, Dependable schemeText doc s s' prog top ∧
    ∀ n input rend, replacementChar ∉ input → s.Parse n input rend ≠ .panic :=
  dependable_panicless (a' := 2) scheme_read scheme_dependable scheme_left (by decide +kernel)

/-- C64: examples/keyval.treerack, whose parser does not panic on valid unicode, either. -/
theorem C64_keyval : ∃ doc s s' prog top, Dependable keyvalText doc s s' prog top ∧
    ∀ n input rend, replacementChar ∉ input → s.Parse n input rend ≠ .panic :=
  dependable_panicless (a' := 2) keyval_read keyval_dependable keyval_left (by decide +kernel)

/-- C64: examples/eskip.treerack, whose parser does not panic on valid unicode, either. -/
theorem C64_eskip : ∃ doc s s' prog top, Dependable eskipText doc s s' prog top ∧
    ∀ n input rend, replacementChar ∉ input → s.Parse n input rend ≠ .panic :=
  dependable_panicless (a' := 2) eskip_read eskip_dependable eskip_left (by decide +kernel)

/-! ### Examples -/

/-- The tree, or whether there is an error, for a text of a document. -/
def documentNodes (doc : Document) (n : Nat) (text : List Rune) : Option (List (Nat × Name × Nat × Nat)) :=
  match ({} : Syntax).internalCalls (documentCalls doc) with
  | (s, none) => nodes (s.Parse n text none)
  | _ => none

/-- `(1 a)` is an s-expression, and `;` belongs to the symbol when it follows without a space. -/
example : documentNodes sexprDoc 200 (runes "(1 a)") = some [(0, runes "s-expression", 0, 5), (1, runes "list", 0, 5),
      (2, runes "number", 1, 2), (2, runes "symbol", 3, 4)] ∧
    documentNodes sexprDoc 200 (runes "a;c") = some [(0, runes "s-expression", 0, 3), (1, runes "symbol", 0, 3)] := by decide +kernel

/-- Lists are accepted by the scheme example, vectors are not: nothing refers to their definition. -/
example : (documentNodes schemeDoc 200 (runes "(1)")).isSome = true ∧ documentNodes schemeDoc 200 (runes "#(1)") = none := by
  decide +kernel

/-- An entry of the keyval example. -/
example : documentNodes keyvalDoc 300 (runes "a=b") = some [(0, runes "doc", 0, 3), (1, runes "key-val", 0, 3), (2, runes "key", 0, 1),
    (3, runes "symbol", 0, 1), (2, runes "value", 2, 3)] := by decide +kernel

end Treerack
