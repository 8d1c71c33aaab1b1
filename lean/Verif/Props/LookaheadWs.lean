import Verif.Proofs.LookaheadSpaced
import Verif.Proofs.LookaheadWsTest
import Verif.Props.Spaced
import Verif.Props.DocGen

/-
C57 in syntaxes with whitespace definitions: when the next character that is not whitespace tells how to continue
(Spec/LookaheadWs.lean), then an input is accepted if and only if it is derived from the grammar with whitespace between the items
(Spec/Whitespace.lean).
-/

namespace Treerack
open Spec Samples

variable {cs : List Call} {s s' : Syntax} {input : List Rune} {root : Name}

/-- The definitions that are used by the root, with the ones that are generated for the whitespace, and their results. -/
theorem calls_whole_ws (h : Made cs s) (hi : s.Init = .ok (s', none)) (hs : RegularWs cs) (input : List Rune) :
    ∃ R : Part Name → Prop, R (.given (wgrammarOf cs).root) ∧
      Whole (spaced (wgrammarOf cs)) (spacedBlocked cs input) input R := by
  obtain ⟨rp, f, S⟩ := calls_spaced h hi hs
  have T := S.parsable
  obtain ⟨g, hg⟩ := T.linked.refs T.free T.grows input
  have hnext : ∀ {p : Ptr} {d : GDef (Part Name)}, Reach s'.env rp p → spaced (wgrammarOf cs) (f p) = some d →
      ∀ q ∈ d.expr.refs, ∃ p', Reach s'.env rp p' ∧ f p' = q := by
    intro p d hp hd q hq
    obtain ⟨e, he, hg⟩ := S.morphism.def_ p hp
    obtain ⟨d', hd', hl⟩ := (relabeled (toName (wgrammarOf cs)) (spaced (wgrammarOf cs))).to hd
    rw [hg] at hd'
    cases hd'
    have hsub := S.morphism.refs p e hp he
    rw [← hl.expr] at hq
    simp only [GDef.map] at hq
    cases hx : e.expr with
    | char => rw [hx] at hq; cases hq
    | choice os =>
      rw [hx] at hq hsub
      simp only [Expr.map, Expr.refs, List.mem_map] at hq hsub
      obtain ⟨o, ho, rfl⟩ := hq
      exact ⟨o, hsub o ho, rfl⟩
    | seq items =>
      rw [hx] at hq hsub
      simp only [Expr.map, Expr.refs, List.mem_map] at hq hsub
      obtain ⟨y, ⟨x, hx, rfl⟩, rfl⟩ := hq
      exact ⟨x.1, hsub _ ⟨x, hx, rfl⟩, rfl⟩
  refine ⟨fun n => ∃ p, Reach s'.env rp p ∧ f p = n, ⟨rp, .root, S.root_⟩, ?_, ?_, ?_⟩
  · rintro n d os o ⟨p, hp, rfl⟩ hd he ho
    exact hnext hp hd o (by rw [he]; exact ho)
  · rintro n d items x ⟨p, hp, rfl⟩ hd he hx
    exact hnext hp hd x.1 (by rw [he]; exact List.mem_map.2 ⟨x, hx, rfl⟩)
  · rintro n ⟨p, hp, rfl⟩ i
    exact ⟨_, (S.ref_iff hp).2 (hg hp i)⟩

/-- C57: when the next character that is not whitespace tells how to continue, and no definition must not match keywords, then an
input is accepted if and only if it is derived from the grammar with whitespace. -/
theorem C57_complete_ws (h : Made cs s) (hi : s.Init = .ok (s', none)) (hs : StraightforwardWs cs)
    (hrec : ∀ n x, ¬ Recurs (spaced (wgrammarOf cs)) n x) (hval : replacementChar ∉ input) (hroot : rootOf cs = some root)
    (hl : WLL1 (wgrammarOf cs)) (hk : ∀ c ∈ cs, c.commit.noKeyword = false) :
    ∃ N, ∀ n, N ≤ n →
      ((∃ t, s.Parse n input none = .ok (s', .node t)) ↔ WDerives (wgrammarOf cs) input root 0 input.length) := by
  obtain ⟨N, hN⟩ := C06_exactness_ws h hi hs hval hroot
  obtain ⟨R, hR, W⟩ := calls_whole_ws h hi hs.toRegularWs input
  have hr : (wgrammarOf cs).root = root := by
    obtain ⟨_, _, S⟩ := calls_spaced h hi hs.toRegularWs
    have := S.rootName
    rw [hroot] at this
    exact (Option.some.inj this).symm
  have hB : ∀ q i j, ¬ spacedBlocked cs input q i j := by
    rintro q i j ⟨hq, -⟩
    cases q with
    | given n =>
      obtain ⟨-, c, hc, -, hn⟩ := hq
      rw [hk c hc] at hn
      cases hn
    | body =>
      obtain ⟨c, hc, -, hn⟩ := hq
      rw [hk c hc] at hn
      cases hn
    | space => exact hq
    | rest => exact hq
    | several => exact hq
  refine ⟨N, fun n hn => ⟨?_, fun hd => ?_⟩⟩
  · rintro ⟨t, ht⟩
    obtain ⟨root', h1, h2⟩ := C19_soundness_partial h (fun _ => ⟨hs.names, hs.tight⟩) ht
    rw [hroot] at h1
    cases h1
    exact h2
  · rw [← hr] at hd hN
    exact (hN n hn).2 (wderives_ref hl hB hrec W hR hd)

mutual
theorem calls_noKeyword : ∀ (e : DExpr) {n : Name} {ct : Commit}, ct.noKeyword = false → ∀ c ∈ e.calls n ct, c.commit.noKeyword = false
  | .any, n, ct, h, c, hc | .class_ .., n, ct, h, c, hc | .chars .., n, ct, h, c, hc | .symbol .., n, ct, h, c, hc => by
    simp only [DExpr.calls, List.mem_singleton] at hc
    rw [hc]; exact h
  | .seq items, n, ct, h, c, hc => by
    simp only [DExpr.calls, List.mem_append, List.mem_singleton] at hc
    rcases hc with hc | rfl
    · exact itemsCalls_noKeyword items c hc
    · exact h
  | .choice os, n, ct, h, c, hc => by
    simp only [DExpr.calls, List.mem_append, List.mem_singleton] at hc
    rcases hc with hc | rfl
    · exact optionsCalls_noKeyword os c hc
    · exact h
theorem itemsCalls_noKeyword : ∀ (items : DItems) {n : Name} {ct : Commit} {i : Nat}, ∀ c ∈ items.calls n ct i, c.commit.noKeyword = false
  | .nil, _, _, _, _, h => by simp [DItems.calls] at h
  | .cons e q rest, n, ct, i, c, h => by
    have key : c ∈ e.calls (charName n i) (memberFlags ct) ∨ c ∈ rest.calls n ct (i + 1) := by
      cases e <;> simp only [DItems.calls, List.mem_append] at h <;> first | exact h | exact Or.inr h
    rcases key with h | h
    · exact calls_noKeyword e rfl c h
    · exact itemsCalls_noKeyword rest c h
theorem optionsCalls_noKeyword : ∀ (os : DOptions) {n : Name} {ct : Commit} {i : Nat}, ∀ c ∈ os.calls n ct i, c.commit.noKeyword = false
  | .nil, _, _, _, _, h => by simp [DOptions.calls] at h
  | .cons e rest, n, ct, i, c, h => by
    have key : c ∈ e.calls (charName n i) (memberFlags ct) ∨ c ∈ rest.calls n ct (i + 1) := by
      cases e <;> simp only [DOptions.calls, List.mem_append] at h <;> first | exact h | exact Or.inr h
    rcases key with h | h
    · exact calls_noKeyword e rfl c h
    · exact optionsCalls_noKeyword rest c h
end

/-- The conditions on the calls, from those on the document. -/
theorem document_straightWs {doc : Document} (hm : Made (documentCalls doc) s) (hsym : PlainSymbols doc)
    (hws : ∃ d ∈ doc, d.flags.whitespace = true) (hsafe : DocumentWsSafe doc)
    (hk : ∀ d ∈ doc, d.flags.noKeyword = false) (hdir : OnlyDirectRecursion (spaced (wgrammarOf (documentCalls doc))))
    (hrec : ∀ n x, ¬ Recurs (spaced (wgrammarOf (documentCalls doc))) n x) :
    StraightforwardWs (documentCalls doc) ∧ ∀ c ∈ documentCalls doc, c.commit.noKeyword = false := by
  have hws' : ∃ c ∈ documentCalls doc, c.commit.whitespace = true := by
    apply Classical.byContradiction
    intro hno
    obtain ⟨e, he, h1⟩ := hws
    have := (documentCalls_commit (doc := doc) (f := Commit.whitespace) (fun _ => rfl) (fun _ h => Or.inr (Or.inl h))).1 (fun c hc => by
      cases hx : c.commit.whitespace with
      | false => rfl
      | true => exact absurd ⟨c, hc, hx⟩ hno) e he
    rw [h1] at this
    cases this
  have hk' : ∀ c ∈ documentCalls doc, c.commit.noKeyword = false := by
    intro c hc
    obtain ⟨e, he, hc⟩ := List.mem_flatMap.1 hc
    exact calls_noKeyword e.expr (show ({ e.flags with userDefined := true } : Commit).noKeyword = false from hk e he) c hc
  obtain ⟨h1, h2⟩ := document_wsSafe hsym hsafe hws'
  exact ⟨{ whitespace := hws', names := h1, tight := h2
           keywords := fun c hc h => by rw [hk' c hc] at h; cases h
           recursion := hdir
           unchecked := fun n x h => absurd h (hrec n x)
           plainRefs := document_plainRefs hm hsym }, hk'⟩

/-- The same for the syntax of a document.  (Partial: the quantifiers are sound, see C33, and the keywords of the document are
texts, choices, or without whitespace.) -/
theorem C57_document_partial {doc : Document} {text : List Rune} {k : Nat} {rend : Option Nat} (hw : WrittenDocument doc text)
    (hr : ({} : Syntax).ReadSyntax (selfParse k text rend) = .ok (s, none)) (hi : s.Init = .ok (s', none))
    (hws : ∃ d ∈ doc, d.flags.whitespace = true) (hsafe : DocumentWsSafe doc) (hsound : ∀ d ∈ doc, d.expr.Sound)
    (hk : ∀ d ∈ doc, d.flags.noKeyword = false) (hdir : OnlyDirectRecursion (spaced (wgrammarOf (documentCalls doc))))
    (hrec : ∀ n x, ¬ Recurs (spaced (wgrammarOf (documentCalls doc))) n x) (hl : WLL1 (wgrammarOf (documentCalls doc)))
    (hval : replacementChar ∉ input) :
    ∃ d N, docRoot doc = some d ∧ ∀ n, N ≤ n →
      ((∃ t, s.Parse n input none = .ok (s', .node t)) ↔ DefWs doc input d 0 input.length) := by
  have hm := read_made hw hr
  have hsym := WrittenDocument.symbols hw
  obtain ⟨d, hd, hroot, hn⟩ := read_root hw hr hi
  obtain ⟨hs, hk'⟩ := document_straightWs hm hsym hws hsafe hk hdir hrec
  obtain ⟨N, hN⟩ := C57_complete_ws hm hi hs hrec hval hn hl hk'
  exact ⟨d, N, hroot, fun n hle => (hN n hle).trans (document_language_ws hm hsym hsound hd input 0 input.length)⟩

end Treerack
