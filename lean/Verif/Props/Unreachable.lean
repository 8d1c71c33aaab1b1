import Verif.Proofs.UnusedWs
import Verif.Props.Definitions

/-
C42: definitions that are not used.  C22: the effect of rejected definitions on the results.

`Syntax.acts {} as = some s`: the steps `as`, which are calls of the API and definitions of documents, were made on an
empty syntax, and all of them were accepted.
-/

namespace Treerack
open Spec Samples

/-- C42: a definition that is not needed by the root and by the keywords does not change the result of any parse: the
tree, the error of the input, the error of the syntax, a panic, or that parsing does not return.  The definition
can be made at any point, by the API or by a document.  With whitespace definitions, the condition is the one of
`WsSafe`: names without colons, and keywords that are not rewritten. -/
theorem C42_unreachable {pre post : List Act} {a : Act} {s t : Syntax} (hs : Syntax.acts {} (pre ++ post) = some s)
    (ht : Syntax.acts {} (pre ++ a :: post) = some t)
    (hsafe : WsSafe ((pre ++ a :: post).map Act.call)) (haw : a.call.commit.whitespace = false)
    (hkw : a.call.commit.keyword = false)
    (hroot : rootOf ((pre ++ a :: post).map Act.call) ≠ some a.call.name)
    (hn : ∀ n ∈ a.call.defs.map Prod.fst, ¬ Needed ((pre ++ post).map Act.call) n)
    (fuel : Nat) (input : List Rune) (rend : Option Nat) : t.result fuel input rend = s.result fuel input rend := by
  have hms := acts_made hs
  have hmt := acts_made ht
  obtain ⟨u, hu1, hu2⟩ := acts_append hs
  obtain ⟨u', hu1', hu3⟩ := acts_append ht
  obtain rfl := Option.some.inj (hu1.symm.trans hu1')
  simp only [Syntax.acts] at hu3
  have hr : a.call.commit.root = false := by
    cases hr : a.call.commit.root with
    | false => rfl
    | true =>
      refine absurd ?_ hroot
      have ha : a.call ∈ (pre ++ a :: post).map Act.call := List.mem_map.2 ⟨a, by simp, rfl⟩
      unfold rootOf
      cases hf : (((pre ++ a :: post).map Act.call).filter fun c => c.commit.root).head? with
      | none =>
        rw [List.head?_eq_none_iff, List.filter_eq_nil_iff] at hf
        exact absurd hr (hf _ ha)
      | some c =>
        have := List.mem_filter.1 (List.mem_of_head? hf)
        rw [made_root_unique hmt this.1 this.2 ha hr]
  have hbuilt := (made_called (acts_made hu1)).built.inv
  cases hact : u.act a with
  | mk u2 e =>
    rw [hact] at hu3
    cases e with
    | some e => cases hu3
    | none =>
      have h1 := (Ext.refl hbuilt).oneAll (act_raw a) (fun d hd => act_flags hd hr hkw haw) (act_ok hact)
      have h2 := h1.acts hu2 hu3
      have hsub : ∀ c ∈ (pre ++ post).map Act.call, c ∈ (pre ++ a :: post).map Act.call := by
        intro c hc
        obtain ⟨b, hb, rfl⟩ := List.mem_map.1 hc
        refine List.mem_map.2 ⟨b, ?_, rfl⟩
        simp only [List.mem_append, List.mem_cons] at hb ⊢
        rcases hb with hb | hb
        · exact .inl hb
        · exact .inr (.inr hb)
      have hN : ∀ n, Needed ((pre ++ post).map Act.call) n → ¬ (False ∨ n ∈ a.objects.map Def.name) := by
        rintro n hn' (hx | hx)
        · exact hx
        · rw [act_names] at hx
          exact hn n hx hn'
      have hrootN : ∀ n, t.rootN = some n → rootOf ((pre ++ post).map Act.call) = some n := by
        intro n hn'
        have hro := hmt.rootN hn'
        rcases h2.root with ⟨m, hm1, hm2⟩ | heq
        · exfalso
          rw [hn'] at hm2
          obtain rfl := Option.some.inj hm2
          rcases hm1 with hm1 | hm1
          · exact hm1
          · -- the names of characters are not names of definitions
            rw [act_names] at hm1
            exact hroot (hro ▸ congrArg some (made_rootN_char hmt (List.mem_map.2 ⟨a, by simp, rfl⟩) hm1 hn'))
        · rw [← heq] at hn'
          exact hms.rootN hn'
      by_cases hw : s.HasWhitespace
      · obtain ⟨c, hc, hcw⟩ := (made_called hms).whitespace.1 hw
        obtain ⟨hpl, htk⟩ := hsafe ⟨c, hsub c hc, by rw [isWs_commit]; exact hcw⟩
        exact ((h2.agreeWs hms hmt (List.ne_nil_of_mem hc) (by simp) hw (hpl.sub hsub) hpl (htk.sub hsub) htk hN
          fun n hn' => ⟨n, .inl (hrootN n hn'), .refl⟩).result fuel input rend).symm
      · have hnw : ∀ c ∈ (pre ++ post).map Act.call, c.commit.whitespace = false := by
          intro c hc
          cases hcw : c.commit.whitespace with
          | false => rfl
          | true => exact absurd ((made_called hms).whitespace.2 ⟨c, hc, hcw⟩) hw
        refine ((h2.agree (N := PNeeded ((pre ++ post).map Act.call)) (fun n hn' => hN n ((needed_of_noWs hnw).1 hn')) hw ?_ ?_ ?_
          ?_).result fuel input rend).symm
        · rw [h2.invT.wsList_ne, ← h2.ws, ← h2.invS.wsList_ne]
          exact hw
        · intro n hn'
          exact ⟨n, .inl (hrootN n hn'), .refl⟩
        · intro n hn'
          exact ⟨n, hms.kwNames hn', .refl⟩
        · intro n ct k hn' ho
          exact hms.closed hn' ho

/-- A set of names that contains everything that is needed. -/
theorem needed_mem {cs : List Call} (L : List Name) (h1 : ∀ n ∈ rootOf cs, n ∈ L)
    (h2 : ∀ c ∈ cs, c.commit.keyword = true ∨ c.commit.whitespace = true → c.name ∈ L)
    (h3 : ∀ n ∈ L, ∀ m ∈ ((grammarOf cs n).map GDef.refs).getD [], m ∈ L) {n : Name} (h : Needed cs n) : n ∈ L := by
  obtain ⟨a, ha, hr⟩ := h
  have ha' : a ∈ L := by
    rcases ha with ha | ⟨c, hc, hk, rfl⟩
    · exact h1 a ha
    · exact h2 c hc hk
  clear ha
  induction hr with
  | refl => exact ha'
  | step _ hd hm ih => exact h3 _ ih _ (by rw [hd]; exact hm)

/-- The definitions of `sumCalls`, the last one read from a document, and in between `args = num+ unknown`, where `unknown` is
not defined. -/
def sumActs : List Act := (sumCalls.take 3).map .api
def sumActs' : List Act := (sumCalls.drop 3).map .document
def argsAct : Act := .api (.sequence (runes "args") {} [{ name := runes "num", min := 1, max := -1 }, item "unknown"])

def afterActs (as : List Act) : Syntax := (Syntax.acts {} as).getD {}

theorem acts_some {as : List Act} (h : (Syntax.acts {} as).isSome = true) : Syntax.acts {} as = some (afterActs as) := by
  unfold afterActs
  cases hc : Syntax.acts {} as with
  | none => rw [hc] at h; simp at h
  | some s => rfl

example (fuel : Nat) (input : List Rune) (rend : Option Nat) :
    (afterActs (sumActs ++ argsAct :: sumActs')).result fuel input rend =
      (afterActs (sumActs ++ sumActs')).result fuel input rend := by
  refine C42_unreachable (a := argsAct) (acts_some (by decide +kernel)) (acts_some (by decide +kernel))
    (fun hw => absurd hw (by decide +kernel)) (by decide +kernel) (by decide +kernel) (by decide +kernel) ?_ fuel input rend
  intro n hn hneed
  have := needed_mem [runes "sum", runes "num", runes "tail", runes "digit", runes "digit:0", runes "plus", runes "plus:0"]
    (by decide +kernel) (by decide +kernel) (by decide +kernel) hneed
  simp only [argsAct, Act.call, Call.defs, List.map_cons, List.map_nil, List.mem_singleton] at hn
  subst hn
  revert this
  decide +kernel

example : nodes ((afterActs (sumActs ++ argsAct :: sumActs')).Parse 30 (runes "1+23") none) =
    some [(0, runes "sum", 0, 4), (1, runes "num", 0, 1), (1, runes "num", 2, 4)] := by decide +kernel

/-- The same with the whitespace definition of `sumWsCalls`, `args` before the last definition. -/
def sumWsActs' : List Act := (sumWsCalls.drop 3).map .document

example (fuel : Nat) (input : List Rune) (rend : Option Nat) :
    (afterActs (sumActs ++ argsAct :: sumWsActs')).result fuel input rend =
      (afterActs (sumActs ++ sumWsActs')).result fuel input rend := by
  refine C42_unreachable (a := argsAct) (acts_some (by decide +kernel)) (acts_some (by decide +kernel))
    (fun _ => ⟨.inl (by unfold NoColon; decide +kernel), fun c hc hk => absurd hk (by revert c hc; decide +kernel)⟩)
    (by decide +kernel) (by decide +kernel) (by decide +kernel) ?_ fuel input rend
  intro n hn hneed
  have := needed_mem [runes "sum", runes "num", runes "tail", runes "digit", runes "digit:0", runes "plus", runes "plus:0",
    runes "space", runes "space:0"] (by decide +kernel) (by decide +kernel) (by decide +kernel) hneed
  simp only [argsAct, Act.call, Call.defs, List.map_cons, List.map_nil, List.mem_singleton] at hn
  subst hn
  revert this
  decide +kernel

example : nodes ((afterActs (sumActs ++ argsAct :: sumWsActs')).Parse 40 (runes "1 + 23") none) =
    some [(0, runes "sum", 0, 6), (1, runes "num", 0, 1), (1, runes "num", 4, 6)] := by decide +kernel

/-! ### C22 -/

/-- C22: rejected definitions have no effect on the results.  Missing: a rejected definition can become the root
(`C22_root_counterexample`) or a keyword (`C22_keyword_counterexample`), therefore the rejected definitions are `Harmless`; a
rejected class or character sequence can leave characters with names like `a:0` behind, therefore the needed definitions
exist; with whitespace definitions, the conditions on the names and on the keywords. -/
theorem C22_result_partial {as : List Act} {s : Syntax} (h : Tried as s) (hsafe : WsSafe (as.map Act.call))
    (hreg : (∃ a ∈ as, a.call.commit.whitespace = true) → ∀ n p, s.registry.lookup n = some p → Numbered n)
    (hdef : ∀ n, Needed (as.map Act.call) n → grammarOf (as.map Act.call) n ≠ none) :
    ∃ t, Syntax.acts {} as = some t ∧ ∀ (fuel : Nat) (input : List Rune) (rend : Option Nat),
      s.result fuel input rend = t.result fuel input rend := by
  obtain ⟨X, t, h1, h2⟩ := tried_leftover h
  refine ⟨t, h1, fun fuel input rend => ?_⟩
  have hm := acts_made h1
  by_cases hw : t.HasWhitespace
  · obtain ⟨c, hc, hcw⟩ := (made_called hm).whitespace.1 hw
    obtain ⟨hpl, htk⟩ := hsafe ⟨c, hc, by rw [isWs_commit]; exact hcw⟩
    obtain ⟨b, hb, rfl⟩ := List.mem_map.1 hc
    exact ((h2.agreeWs hm (List.ne_nil_of_mem hc) hw hpl htk (hreg ⟨b, hb, hcw⟩) hdef).result fuel input rend).symm
  have hws' : ∀ c ∈ as.map Act.call, c.commit.whitespace = false := by
    intro c hc
    cases hcw : c.commit.whitespace with
    | false => rfl
    | true => exact absurd ((made_called hm).whitespace.2 ⟨c, hc, hcw⟩) hw
  refine ((h2.ext.agree (N := PNeeded (as.map Act.call)) ?_ hw (fun hw' => hw (h2.whitespace hw')) ?_ ?_ ?_).result
    fuel input rend).symm
  · intro n hn hx
    have hg := hdef n ((needed_of_noWs hws').1 hn)
    rw [← (made_called hm).grammar] at hg
    have := (h2.ext.invS.body_none.1 (h2.ext.fresh n hx))
    simp [Syntax.grammar, this] at hg
  · intro n hn
    rw [← h2.root] at hn
    exact ⟨n, .inl (hm.rootN hn), .refl⟩
  · intro n hn
    exact ⟨n, hm.kwNames hn, .refl⟩
  · intro n ct k hn ho
    exact hm.closed hn ho

/-- `sumCalls`, and after them a definition with incompatible flags, and a class with the name of a sequence, which leaves the
character `tail:0` behind. -/
def sumRejected : Syntax :=
  ((((afterActs (sumCalls.map .api)).act (.api (.sequence (runes "x") { alias := true, root := true } [item "num"]))).1).act
    (.api (.class_ (runes "tail") {} false (runes "x") []))).1

/-- Steps that are accepted. -/
theorem Tried.all : ∀ (as : List Act) {bs : List Act} {s t : Syntax}, Tried bs s → s.acts as = some t → Tried (bs ++ as) t := by
  intro as
  induction as with
  | nil => intro bs s t h h'; cases h'; simpa using h
  | cons a as ih =>
    intro bs s t h h'
    simp only [Syntax.acts] at h'
    cases ha : s.act a with
    | mk s1 e =>
      rw [ha] at h'
      cases e with
      | some e => cases h'
      | none => simpa using ih (.accepted h ha) h'

theorem sumRejected_tried : Tried (sumCalls.map .api) sumRejected := by
  have h1 : Tried (sumCalls.map .api) (afterActs (sumCalls.map .api)) := by
    simpa using Tried.all _ .empty (acts_some (as := sumCalls.map .api) (by decide +kernel))
  have h2 := h1.rejected (a := .api (.sequence (runes "x") { alias := true, root := true } [item "num"]))
    (e := .incompatibleCommit (runes "x")) (Prod.ext rfl (by decide +kernel))
    (.inr (.inl ⟨⟨.api (.sequence (runes "sum") { root := true }
      [{ name := runes "num" }, { name := runes "tail", min := 0, max := -1 }]), by decide +kernel, rfl⟩, rfl⟩))
  exact h2.rejected (a := .api (.class_ (runes "tail") {} false (runes "x") []))
    (e := .duplicateDefinition (runes "tail")) (Prod.ext rfl (by decide +kernel))
    (.inr (.inl ⟨⟨.api (.sequence (runes "sum") { root := true }
      [{ name := runes "num" }, { name := runes "tail", min := 0, max := -1 }]), by decide +kernel, rfl⟩, rfl⟩))

example : ∃ t, Syntax.acts {} (sumCalls.map .api) = some t ∧ ∀ (fuel : Nat) (input : List Rune) (rend : Option Nat),
    sumRejected.result fuel input rend = t.result fuel input rend := by
  refine C22_result_partial sumRejected_tried (fun hw => absurd hw (by decide +kernel)) (fun hw => absurd hw (by decide +kernel)) ?_
  intro n hneed
  have := needed_mem [runes "sum", runes "num", runes "tail", runes "digit", runes "digit:0", runes "plus", runes "plus:0"]
    (by decide +kernel) (by decide +kernel) (by decide +kernel) hneed
  revert this
  simp only [List.mem_cons, List.not_mem_nil, or_false]
  rintro (rfl | rfl | rfl | rfl | rfl | rfl | rfl) <;> exact Option.ne_none_iff_isSome.2 (by decide +kernel)

example : (sumRejected.registry.lookup (runes "tail:0")).isSome = true := by decide +kernel

/-- The same with the whitespace definition. -/
def sumWsRejected : Syntax :=
  ((((afterActs (sumWsCalls.map .api)).act (.api (.sequence (runes "x") { alias := true, root := true } [item "num"]))).1).act
    (.api (.class_ (runes "tail") {} false (runes "x") []))).1

theorem sumWsRejected_tried : Tried (sumWsCalls.map .api) sumWsRejected := by
  have h1 : Tried (sumWsCalls.map .api) (afterActs (sumWsCalls.map .api)) := by
    simpa using Tried.all _ .empty (acts_some (as := sumWsCalls.map .api) (by decide +kernel))
  have h2 := h1.rejected (a := .api (.sequence (runes "x") { alias := true, root := true } [item "num"]))
    (e := .incompatibleCommit (runes "x")) (Prod.ext rfl (by decide +kernel))
    (.inr (.inl ⟨⟨.api (.sequence (runes "sum") { root := true }
      [{ name := runes "num" }, { name := runes "tail", min := 0, max := -1 }]), by decide +kernel, rfl⟩, rfl⟩))
  exact h2.rejected (a := .api (.class_ (runes "tail") {} false (runes "x") []))
    (e := .duplicateDefinition (runes "tail")) (Prod.ext rfl (by decide +kernel))
    (.inr (.inl ⟨⟨.api (.sequence (runes "sum") { root := true }
      [{ name := runes "num" }, { name := runes "tail", min := 0, max := -1 }]), by decide +kernel, rfl⟩, rfl⟩))

example : ∃ t, Syntax.acts {} (sumWsCalls.map .api) = some t ∧ ∀ (fuel : Nat) (input : List Rune) (rend : Option Nat),
    sumWsRejected.result fuel input rend = t.result fuel input rend := by
  refine C22_result_partial sumWsRejected_tried
    (fun _ => ⟨.inl (by unfold NoColon; decide +kernel), fun c hc hk => absurd hk (by revert c hc; decide +kernel)⟩) ?_ ?_
  · intro _ n p hl
    have hmem : n ∈ sumWsRejected.registry.definition.map Prod.fst := by
      obtain ⟨l₁, l₂, h1, -⟩ := List.lookup_eq_some_iff.1 hl
      rw [h1]; simp
    have hall : ∀ m ∈ sumWsRejected.registry.definition.map Prod.fst, ∀ x ∈ (parts m).tail, isNumber x = true := by decide +kernel
    exact hall n hmem
  · intro n hneed
    have := needed_mem [runes "sum", runes "num", runes "tail", runes "digit", runes "digit:0", runes "plus", runes "plus:0",
      runes "space", runes "space:0"] (by decide +kernel) (by decide +kernel) (by decide +kernel) hneed
    revert this
    simp only [List.mem_cons, List.not_mem_nil, or_false]
    rintro (rfl | rfl | rfl | rfl | rfl | rfl | rfl | rfl | rfl) <;> exact Option.ne_none_iff_isSome.2 (by decide +kernel)

example : (sumWsRejected.registry.lookup (runes "tail:0")).isSome = true ∧
    nodes (sumWsRejected.Parse 40 (runes "1 + 23") none) =
      some [(0, runes "sum", 0, 6), (1, runes "num", 0, 1), (1, runes "num", 4, 6)] := by decide +kernel

end Treerack
