import Verif.Proofs.SpacedCalls
import Verif.Proofs.Direct

/-
Parsing with syntaxes with whitespace definitions, and a criterion for the assumptions, that can be evaluated.
-/

namespace Treerack
open Spec Whitespace

variable {cs : List Call} {s s' : Syntax} {input : List Rune}

/-- What Parse returns. -/
theorem Parse_exact_ws {rn : Name} (h : Made cs s) (hi : s.Init = .ok (s', none)) (S : StraightforwardWs cs)
    (hval : replacementChar ∉ input) (hrn : rootOf cs = some rn) (n : Nat) :
    (s.Parse n input none).Spec (¬ ∃ ns, RefWs cs input (.given rn) 0 (some (input.length, ns))) True (fun x => x.1 = s' ∧
      match x.2 with
      | .node t => RefWs cs input (.given rn) 0 (some (input.length, [t]))
      | .error _ => ¬ ∃ ns, RefWs cs input (.given rn) 0 (some (input.length, ns))
      | .syntaxError _ => False) := by
  obtain ⟨root, f, K⟩ := calls_spaced h hi S.toRegularWs
  have T := K.straight S.plainRefs
  have hr := K.rootEq
  have hroot := K.rootName
  rw [hrn] at hroot
  have hE := parseInput_exact T hval n
  unfold Syntax.Parse
  rw [hi]
  simp only [Res.bind_ok, hr]
  have hiff : ∀ r, RefWs cs input (.given rn) 0 r ↔ Ref s'.env.grammar (s'.env.blocked input) input root 0 r := by
    intro r
    rw [Option.some.inj hroot, ← K.root_]
    exact K.ref_iff .root
  simp only [hiff]
  cases hp : parseInput s'.env n root input none with
  | oof => trivial
  | panic => rw [hp] at hE; exact hE
  | ok x =>
    rw [hp] at hE
    cases x with
    | ok t => exact ⟨rfl, hE⟩
    | error e => exact ⟨rfl, hE⟩

/-- What Parse returns, when the trees cannot always be built. -/
theorem Parse_regular_ws {rn : Name} (h : Made cs s) (hi : s.Init = .ok (s', none)) (S : RegularWs cs)
    (hval : replacementChar ∉ input) (hrn : rootOf cs = some rn) (n : Nat) :
    (s.Parse n input none).Spec True True (fun x => x.1 = s' ∧
      match x.2 with
      | .node _ => ∃ ns, RefWs cs input (.given rn) 0 (some (input.length, ns))
      | .error _ => ¬ ∃ ns, RefWs cs input (.given rn) 0 (some (input.length, ns))
      | .syntaxError _ => False) := by
  obtain ⟨root, f, K⟩ := calls_spaced h hi S
  have hr := K.rootEq
  have hroot := K.rootName
  rw [hrn] at hroot
  have hE := parseInput_parsable K.parsable hval n
  unfold Syntax.Parse
  rw [hi]
  simp only [Res.bind_ok, hr]
  have hiff : ∀ r, RefWs cs input (.given rn) 0 r ↔ Ref s'.env.grammar (s'.env.blocked input) input root 0 r := by
    intro r
    rw [Option.some.inj hroot, ← K.root_]
    exact K.ref_iff .root
  simp only [hiff]
  cases hp : parseInput s'.env n root input none with
  | oof => trivial
  | panic => trivial
  | ok x =>
    rw [hp] at hE
    cases x with
    | ok t => exact ⟨rfl, hE⟩
    | error e => exact ⟨rfl, hE⟩

/-! ### A criterion -/

/-- The definitions of the grammar with explicit whitespace. -/
def allParts (cs : List Call) : List (Part Name) :=
  .space :: .body :: (cs.flatMap Call.defs).flatMap fun x => .given x.1 ::
    match x.2.expr with
    | .seq items => (List.range items.length).flatMap fun i => [.rest x.1 i, .several x.1 i]
    | _ => []

def spacedDefs (cs : List Call) : List (Part Name × GDef (Part Name)) :=
  (allParts cs).filterMap fun x => (spaced (wgrammarOf cs) x).map fun d => (x, d)

theorem item_mem {n : Name} {i : Nat} {x : Name × Int × Int} (h : (wgrammarOf cs).item n i = some x) :
    ∃ d items, (n, d) ∈ cs.flatMap Call.defs ∧ d.expr = .seq items ∧ i < items.length := by
  unfold WGrammar.item at h
  split at h
  · rename_i nm al items hg
    exact ⟨_, items, mem_of_lookup hg, rfl, (List.getElem?_eq_some_iff.1 h).1⟩
  · cases h

theorem spacedDefs_mem {x : Part Name} {d : GDef (Part Name)} (h : spaced (wgrammarOf cs) x = some d) : (x, d) ∈ spacedDefs cs := by
  refine List.mem_filterMap.2 ⟨x, ?_, by rw [h]; rfl⟩
  have sub : ∀ {y}, y ∈ (cs.flatMap Call.defs).flatMap (fun x => Part.given x.1 ::
      match x.2.expr with
      | .seq items => (List.range items.length).flatMap fun i => [.rest x.1 i, .several x.1 i]
      | _ => []) → y ∈ allParts cs := fun h => List.mem_cons_of_mem _ (List.mem_cons_of_mem _ h)
  cases x with
  | given n =>
    simp only [spaced] at h
    obtain ⟨e, g1, -⟩ := Option.map_eq_some_iff.1 h
    exact sub (List.mem_flatMap.2 ⟨_, mem_of_lookup g1, List.mem_cons_self⟩)
  | space => exact List.mem_cons_self
  | body => exact List.mem_cons_of_mem _ List.mem_cons_self
  | rest n i =>
    simp only [spaced] at h
    obtain ⟨e, g1, -⟩ := Option.map_eq_some_iff.1 h
    obtain ⟨d, items, k1, k2, k3⟩ := item_mem g1
    refine sub (List.mem_flatMap.2 ⟨_, k1, List.mem_cons_of_mem _ ?_⟩)
    rw [k2]
    exact List.mem_flatMap.2 ⟨i, List.mem_range.2 k3, by simp⟩
  | several n i =>
    simp only [spaced] at h
    obtain ⟨e, g1, -⟩ := Option.map_eq_some_iff.1 h
    obtain ⟨d, items, k1, k2, k3⟩ := item_mem g1
    refine sub (List.mem_flatMap.2 ⟨_, k1, List.mem_cons_of_mem _ ?_⟩)
    rw [k2]
    exact List.mem_flatMap.2 ⟨i, List.mem_range.2 k3, by simp⟩

/-- Not checked for keywords. -/
def unchecked (cs : List Call) : Part Name → Bool
  | .given n => cs.all fun c => !(decide (c.name = n) && c.commit.noKeyword)
  | .body => false
  | _ => true

theorem straightforwardWs_of (nul : Part Name → Bool) (rank : Part Name → Nat)
    (hw : (cs.any fun c => c.commit.whitespace) = true) (hkw : TextKeywords cs) 
    (ht : (cs.all fun c => !c.commit.keyword || c.isTight || c.isChoice) = true)
    (hnames : (cs.all fun c => !c.name.contains colon && c.refs.all fun n => !n.contains colon) = true)
    (h : descends (spaced (wgrammarOf cs)) nul rank (spacedDefs cs) = true)
    (hr : recursion (spaced (wgrammarOf cs)) nul (unchecked cs) (spacedDefs cs) = true) : StraightforwardWs cs := by
  obtain ⟨h1, h2⟩ := onlyDirect_of nul rank _ (spacedDefs cs) spacedDefs_mem h hr
  have hn : ∀ c ∈ cs, NoColon c.name ∧ ∀ n ∈ c.refs, NoColon n := by
    intro c hc
    have := List.all_eq_true.1 hnames c hc
    simp only [Bool.and_eq_true, List.all_eq_true] at this
    exact ⟨by simpa [NoColon] using this.1, fun n hn => by simpa [NoColon] using this.2 n hn⟩
  have ht : TightKeywords cs := by
    intro c hc hk
    have := List.all_eq_true.1 ht c hc
    simp only [hk, Bool.not_true, Bool.false_or, Bool.or_eq_true] at this
    rcases this with h | h
    · exact Or.inl h
    · cases c <;> first | exact Or.inr ⟨_, _, _, rfl⟩ | cases h
  refine ⟨⟨?_, Or.inl hn, ht, hkw, h1, ?_⟩, .of_noColon fun c hc => (hn c hc).2⟩
  · simpa using hw
  · intro n x hx hch
    have := h2 n x hx
    cases x with
    | given m =>
      obtain ⟨-, c, k1, k2, k3⟩ := hch
      have := List.all_eq_true.1 this c k1
      simp [k2, k3] at this
    | body => cases this
    | space => exact hch.elim
    | rest => exact hch.elim
    | several => exact hch.elim

end Treerack
