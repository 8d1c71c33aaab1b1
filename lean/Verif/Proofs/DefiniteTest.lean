import Verif.Spec.Definite
import Verif.Proofs.LookaheadTest

/-
A test for the grammars in which an empty text is derived in a single way.
-/

namespace Treerack
open Spec

variable {N : Type} [DecidableEq N]

def Look.clear (L : Look N) : Expr N → Bool
  | .char _ _ _ => true
  | .choice os => os.all fun o => os.all fun o' => decide (o' = o) || !(L.null.contains o && L.null.contains o')
  | .seq items => items.all fun x => !L.null.contains x.1 || decide (x.2.1 = 1 ∧ x.2.2 = 1)

def definiteTest (k : Nat) (defs : List (N × GDef N)) : Bool :=
  let L := Look.learn defs k
  L.closed defs && defs.all fun x => L.clear x.2.expr

theorem definiteTest_sound {k : Nat} {G : Grammar N} {defs : List (N × GDef N)} (hG : ∀ {n d}, G n = some d → (n, d) ∈ defs)
    (h : definiteTest k defs = true) : Definite G := by
  simp only [definiteTest, Bool.and_eq_true] at h
  obtain ⟨hc, hf⟩ := h
  have fit : ∀ {n d}, G n = some d → (Look.learn defs k).clear d.expr = true := fun hd => List.all_eq_true.1 hf _ (hG hd)
  have null : ∀ {n}, Nullable G n → (Look.learn defs k).null.contains n = true := fun h => by
    simpa using look_null hG hc h
  constructor
  · intro n d os o o' hd he ho ho' hne h1 h2
    have := fit hd
    rw [he] at this
    have := List.all_eq_true.1 (List.all_eq_true.1 this o ho) o' ho'
    simp [hne, -List.contains_eq_mem, null h1, null h2] at this
  · intro n d items x mn mx hd he hx h1
    have := fit hd
    rw [he] at this
    have := List.all_eq_true.1 this _ hx
    simpa [-List.contains_eq_mem, null h1] using this

/-! ### With whitespace -/

def quietTest (W : WGrammar N) : Nat → N → Bool
  | 0, _ => false
  | k + 1, n =>
    match W.G n with
    | none => false
    | some d =>
      match d.expr with
      | .char _ _ _ => true
      | .choice os => (d.alias || W.ws.contains n) && os.all (quietTest W k)
      | .seq [(x, 1, 1)] => (d.alias || W.ws.contains n) && quietTest W k x
      | .seq _ => false

theorem quietTest_sound {W : WGrammar N} : ∀ {k : Nat} {n : N}, quietTest W k n = true → Quiet W n
  | 0, _, h => by cases h
  | k + 1, n, h => by
    have hid : ∀ {d : GDef N}, (d.alias || W.ws.contains n) = true → ¬ Shown W n d := by
      rintro d h ⟨h1, h2, -⟩
      rw [h1] at h
      simp at h
      exact h2 h
    unfold quietTest at h
    split at h
    · cases h
    · rename_i d hd
      split at h
      · rename_i he
        exact .char hd he
      · rename_i he
        simp only [Bool.and_eq_true] at h
        exact .choice hd he (hid h.1) fun o ho => quietTest_sound (List.all_eq_true.1 h.2 o ho)
      · rename_i he
        simp only [Bool.and_eq_true] at h
        exact .seq hd he (hid h.1) (quietTest_sound h.2)
      · cases h

def closedTest : List (N × Int × Int) → Bool
  | [] => true
  | (_, mn, mx) :: back => (decide (mx ≠ 1 ∨ 0 < mn) || back.any fun y => decide (0 < y.2.1)) && closedTest back

def wdefiniteTest (k : Nat) (W : WGrammar N) (defs : List (N × GDef N)) : Bool :=
  W.ws.all (quietTest W k) && defs.all fun x =>
    match x.2.expr with
    | .seq items => W.tight x.1 || closedTest items
    | _ => true

omit [DecidableEq N] in
theorem closedTest_sound : ∀ {front back : List (N × Int × Int)} {x : N} {mn : Int}, closedTest (front ++ (x, mn, 1) :: back) = true →
    mn ≤ 0 → ∃ y ∈ back, 0 < y.2.1
  | [], back, x, mn, h, hmn => by
    simp only [List.nil_append, closedTest, Bool.and_eq_true, Bool.or_eq_true, decide_eq_true_eq] at h
    rcases h.1 with h | h
    · omega
    · obtain ⟨y, hy, h⟩ := List.any_eq_true.1 h
      exact ⟨y, hy, by simpa using h⟩
  | y :: front, back, x, mn, h, hmn => by
    simp only [List.cons_append, closedTest, Bool.and_eq_true] at h
    exact closedTest_sound h.2 hmn

theorem wdefiniteTest_sound {k : Nat} {W : WGrammar N} {defs : List (N × GDef N)} (hG : ∀ {n d}, W.G n = some d → (n, d) ∈ defs)
    (h : wdefiniteTest k W defs = true) : WDefinite W := by
  simp only [wdefiniteTest, Bool.and_eq_true] at h
  refine ⟨fun w hw => quietTest_sound (List.all_eq_true.1 h.1 w hw), ?_⟩
  intro n d front x mn back hd he ht hmn
  have := List.all_eq_true.1 h.2 _ (hG hd)
  simp only [he, ht, Bool.false_or] at this
  exact closedTest_sound this hmn

end Treerack
