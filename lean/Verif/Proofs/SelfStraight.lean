import Verif.Model.Self
import Verif.Proofs.Direct
import Verif.Proofs.ExactInput

/-
The parsers of syntax documents (self/self.go) meet the assumptions of the reference semantics.
-/

namespace Treerack
open Spec

/-- The order in which the parsers try each other at the same position. -/
def selfRanks : List Nat := [
  0, 1, 2, 1, 2, 1, 2, 1, 2, 1, 2, 1, 2, 1, 2, 3, 1, 1, 2, 1, 2, 1, 2, 3, 1, 2, 4, 1, 1, 2, 3, 1, 1, 2, 1, 2, 3, 4, 1, 2, 1,
  2, 1, 2, 1, 2, 1, 2, 1, 2, 3, 1, 2, 5, 5, 1, 2, 1, 2, 1, 2, 1, 2, 1, 2, 3, 4, 1, 2, 5, 1, 2, 6, 1, 2, 3, 1, 2, 1, 2, 1, 2,
  3, 4, 1, 2, 1, 2, 3, 4, 1, 2, 3, 1, 2, 1, 2, 3, 1, 2, 3, 4, 1, 2, 1, 2, 3, 4, 4, 1, 2, 1, 2, 1, 2, 3, 1, 2, 1, 2, 1, 2, 4,
  5, 6, 8, 7, 8, 1, 2, 3, 8, 9, 10, 1, 1, 1, 1, 1, 2, 1, 1, 2, 1, 1, 1, 1, 2, 1, 1, 2, 1, 1, 1, 1, 2, 1, 1, 1, 1, 1, 1, 1, 1,
  2, 1, 1, 1, 1, 2, 3, 1, 2, 3, 4, 1, 2, 5, 1, 2, 8, 3, 8, 8, 6, 1, 2, 1, 2, 8, 3, 8, 8, 6, 7, 9, 10]

/-- The definitions of the parsers. -/
def Env.list (env : Env) : List (Ptr × GDef Ptr) := (List.range env.defs.length).filterMap fun p => (env.grammar p).map fun d => (p, d)

theorem Env.list_mem {env : Env} {p : Ptr} {d : GDef Ptr} (h : env.grammar p = some d) : (p, d) ∈ env.list := by
  have hlt : p < env.defs.length := by
    simp only [Env.grammar, Option.map_eq_some_iff] at h
    obtain ⟨e, h, -⟩ := h
    exact (List.getElem?_eq_some_iff.1 h).1
  exact List.mem_filterMap.2 ⟨p, List.mem_range.2 hlt, by rw [h]; rfl⟩

theorem self_direct : OnlyDirectRecursion selfEnv.grammar ∧ ∀ n s, Recurs selfEnv.grammar n s → (fun _ => false) s = true :=
  onlyDirect_of (fun p => p == 195 || p == 196) (fun p => selfRanks.getD p 0) _ selfEnv.list Env.list_mem
    (by decide +kernel) (by decide +kernel)

theorem self_not_recurs (n s : Ptr) : ¬ Recurs selfEnv.grammar n s := fun h => by
  have := self_direct.2 n s h
  cases this

/-- The addresses that are found from the root. -/
def Env.visit (env : Env) : Nat → List Ptr → List Ptr → List Ptr
  | 0, _, seen => seen
  | _ + 1, [], seen => seen
  | n + 1, p :: todo, seen =>
    if seen.contains p then env.visit n todo seen
    else env.visit n (match env.defs[p]? with | some d => d.kind.children ++ todo | none => todo) (p :: seen)

theorem Env.visit_reach {env : Env} {root : Ptr} : ∀ (n : Nat) (todo seen : List Ptr), (∀ p ∈ todo, Reach env root p) →
    (∀ p ∈ seen, Reach env root p) → ∀ p ∈ env.visit n todo seen, Reach env root p
  | 0, _, _, _, hs => by simpa [Env.visit] using hs
  | _ + 1, [], _, _, hs => by simpa [Env.visit] using hs
  | n + 1, p :: todo, seen, ht, hs => by
    unfold Env.visit
    split
    · exact Env.visit_reach n todo seen (fun q hq => ht q (List.mem_cons_of_mem _ hq)) hs
    · refine Env.visit_reach n _ _ ?_ ?_
      · cases hd : env.defs[p]? with
        | none => exact fun q hq => ht q (List.mem_cons_of_mem _ hq)
        | some d =>
          intro q hq
          rcases List.mem_append.1 hq with hq | hq
          · exact .child (ht p List.mem_cons_self) hd hq
          · exact ht q (List.mem_cons_of_mem _ hq)
      · intro q hq
        rcases List.mem_cons.1 hq with rfl | hq
        · exact ht _ List.mem_cons_self
        · exact hs q hq

theorem self_reach {p : Ptr} (h1 : 1 ≤ p) (h2 : p ≤ 196) : Reach selfEnv selfRoot p := by
  have key : ∀ q < 197, 1 ≤ q → q ∈ selfEnv.visit 1000 [selfRoot] [] := by decide +kernel
  exact Env.visit_reach 1000 [selfRoot] [] (by simp; exact .root) (by simp) p (key p (Nat.lt_succ_of_le h2) h1)

theorem self_range {p : Ptr} (h : Reach selfEnv selfRoot p) : 1 ≤ p ∧ p ≤ 196 := by
  have key : ∀ q < 197, ∀ d, selfEnv.defs[q]? = some d → ∀ x ∈ d.kind.children, 1 ≤ x ∧ x ≤ 196 := by
    intro q hq d hd
    have : ∀ q < 197, ((selfEnv.defs[q]?).all fun d => d.kind.children.all fun x => decide (1 ≤ x ∧ x ≤ 196)) = true := by
      decide +kernel
    have := this q hq
    rw [hd] at this
    simpa using this
  induction h with
  | root => decide
  | keyword h => cases h
  | child h1 h2 h3 ih => exact key _ (Nat.lt_succ_of_le ih.2) _ h2 _ h3

/-- A test for `Generalizes`. -/
def Env.generalizes (env : Env) : Nat → Ptr → Ptr → Bool
  | 0, _, _ => false
  | n + 1, q, p => match env.defs[q]? with
    | some ⟨_, _, _, _, _, .choice os⟩ => os.any fun o => o == p || env.generalizes n o p
    | _ => false

theorem Env.generalizes_spec {env : Env} : ∀ (n : Nat) (q p : Ptr), env.generalizes n q p = true → Generalizes env q p
  | 0, _, _, h => by simp [Env.generalizes] at h
  | n + 1, q, p, h => by
    unfold Env.generalizes at h
    split at h
    · rename_i hd
      obtain ⟨o, ho, h⟩ := List.any_eq_true.1 h
      simp only [Bool.or_eq_true, beq_iff_eq] at h
      rcases h with rfl | h
      · exact .option hd rfl ho
      · exact .nested hd rfl ho (Env.generalizes_spec n o p h)
    · cases h

/-- What has to be evaluated for each of the parsers. -/
def selfOk (p : Ptr) : Bool := (selfEnv.defs[p]?).any fun d =>
  decide (d.id = p) && !d.commit.noKeyword &&
  (d.gens.all fun g => decide (1 ≤ g ∧ g ≤ 196) && selfEnv.generalizes 5 g p) &&
  match d.kind with
  | .char _ _ _ => true
  | .choice os => os.all fun o => (selfEnv.defs[o]?).all fun e => !e.kind.isChar
  | .seq is _ ac => is.all fun o => (selfEnv.defs[o]?).any fun e => e.kind.isChar == ac

theorem self_ok {p : Ptr} (h : Reach selfEnv selfRoot p) : selfOk p = true := by
  have key : ∀ q < 197, 1 ≤ q → selfOk q = true := by decide +kernel
  have := self_range h
  exact key p (Nat.lt_succ_of_le this.2) this.1

theorem self_def {p : Ptr} {d : PDef} (h : Reach selfEnv selfRoot p) (hd : selfEnv.defs[p]? = some d) :
    d.id = p ∧ d.commit.noKeyword = false ∧ (∀ g ∈ d.gens, (1 ≤ g ∧ g ≤ 196) ∧ Generalizes selfEnv g p) ∧
    (∀ os, d.kind = .choice os → ∀ o ∈ os, ∀ e, selfEnv.defs[o]? = some e → e.kind.isChar = false) ∧
    (∀ is rs ac, d.kind = .seq is rs ac → ∀ o ∈ is, ∃ e, selfEnv.defs[o]? = some e ∧ e.kind.isChar = ac) := by
  have := self_ok h
  simp only [selfOk, hd, Option.any_some, Bool.and_eq_true, decide_eq_true_eq, Bool.not_eq_true', List.all_eq_true] at this
  obtain ⟨⟨⟨h1, h2⟩, h3⟩, h4⟩ := this
  refine ⟨h1, h2, fun g hg => ⟨(h3 g hg).1, Env.generalizes_spec _ _ _ (h3 g hg).2⟩, fun os ho o hm e he => ?_, fun is rs ac ho o hm => ?_⟩
  · rw [ho] at h4
    have := List.all_eq_true.1 h4 o hm
    rw [he] at this
    simpa using this
  · rw [ho] at h4
    have := List.all_eq_true.1 h4 o hm
    obtain ⟨e, he, h5⟩ := Option.any_eq_true .. |>.1 this
    exact ⟨e, he, by simpa using h5⟩

theorem self_defined {p : Ptr} (h : Reach selfEnv selfRoot p) : ∃ d, selfEnv.defs[p]? = some d := by
  have := self_range h
  exact ⟨_, List.getElem?_eq_getElem (show p < selfEnv.defs.length from Nat.lt_of_le_of_lt this.2 (by decide +kernel))⟩

theorem self_linked : Linked selfEnv selfRoot where
  closed := {
    def_ := self_defined
    child := fun h hd hq => .child h hd hq
    keyword := fun h => by cases h
    chars := fun h hd hk hq => (self_def h hd).2.2.2.2 _ _ _ hk _ hq
    kwflags := fun h => by cases h }
  ids := fun hp hq hd he _ _ h => by rw [← (self_def hp hd).1, ← (self_def hq he).1, h]
  gens := fun hp hd _ hg => by
    obtain ⟨h1, h2⟩ := (self_def hp hd).2.2.1 _ hg
    have hr := self_reach h1.1 h1.2
    obtain ⟨e, he⟩ := self_defined hr
    exact ⟨_, e, hr, he, (self_def hr he).1, h2⟩
  rootDef := by
    have : (selfEnv.defs[selfRoot]?).any (fun d => d.kind.isChar == false && d.commit.alias == false) = true := by decide +kernel
    obtain ⟨d, hd, h⟩ := Option.any_eq_true .. |>.1 this
    exact ⟨d, hd, by simpa using h⟩

theorem self_straight : Straight selfEnv selfRoot where
  linked := self_linked
  free := fun _ => self_direct.1.free _
  grows := fun _ _ _ ⟨s, hs⟩ => absurd hs (self_not_recurs _ _)
  sole := fun h => absurd h (self_not_recurs _ _)
  tailKw := fun h => absurd h (self_not_recurs _ _)
  rootTail := fun ⟨_, h⟩ => self_not_recurs _ _ h
  noKw := fun _ _ _ => Or.inl rfl
  plainOption := fun h hd hk ho he => (self_def h hd).2.2.2.1 _ hk _ ho _ he
  plainItem := fun h hd hk hq he => by
    obtain ⟨e, h1, h2⟩ := (self_def h hd).2.2.2.2 _ _ _ hk _ hq
    rw [he] at h1; cases h1
    exact h2

end Treerack
