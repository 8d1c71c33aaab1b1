import Verif.Proofs.RefCalls
import Verif.Proofs.RefTree

/-
A criterion for the assumptions of the reference semantics, that can be evaluated.
-/

namespace Treerack
open Spec

section
variable {N : Type} [DecidableEq N]

/-- `Recurs` as a test. -/
def isRecursive (G : Grammar N) (n o : N) : Bool :=
  match G n, G o with
  | some d, some e =>
    match d.expr, e.expr with
    | .choice os, .seq (x :: _) => decide (x = (n, 1, 1)) && os.contains o
    | _, _ => false
  | _, _ => false

theorem isRecursive_iff {G : Grammar N} {n o : N} : isRecursive G n o = true ↔ Recurs G n o := by
  constructor
  · intro h
    unfold isRecursive at h
    split at h
    · rename_i d e h1 h2
      split at h
      · rename_i os x tail h3 h4
        simp only [Bool.and_eq_true, decide_eq_true_eq, List.contains_iff_mem] at h
        rw [h.1] at h4
        exact ⟨d, os, e, tail, h1, h3, h.2, h2, h4⟩
      · cases h
    · cases h
  · rintro ⟨d, os, e, tail, h1, h3, h5, h2, h4⟩
    unfold isRecursive
    simp only [h1, h2, h3, h4, decide_true, Bool.true_and, List.contains_iff_mem]
    exact h5

/-- The options are left recursive ones, others, and left recursive ones again. -/
def isGrowth (G : Grammar N) (n : N) (os : List N) : Bool :=
  ((os.dropWhile (isRecursive G n)).dropWhile fun o => !isRecursive G n o).all (isRecursive G n)

theorem mem_takeWhile {α : Type} {p : α → Bool} {a : α} : ∀ {l : List α}, a ∈ l.takeWhile p → p a = true
  | x :: l, h => by
    simp only [List.takeWhile_cons] at h
    split at h
    · rcases List.mem_cons.1 h with rfl | h
      · assumption
      · exact mem_takeWhile h
    · cases h

theorem dropWhile_head {α : Type} {p : α → Bool} {a : α} {r : List α} : ∀ {l : List α}, l.dropWhile p = a :: r → p a = false
  | x :: l, h => by
    simp only [List.dropWhile_cons] at h
    split at h
    · exact dropWhile_head h
    · rename_i hp
      cases h
      simpa using hp

theorem isGrowth_spec {G : Grammar N} {n : N} {os : List N} (h : isGrowth G n os = true) : ∃ fs bs ls, Growth G n os fs bs ls := by
  have h := List.all_eq_true.1 h
  refine ⟨os.takeWhile (isRecursive G n), (os.dropWhile (isRecursive G n)).takeWhile fun o => !isRecursive G n o,
    (os.dropWhile (isRecursive G n)).dropWhile fun o => !isRecursive G n o, by simp, fun o ho => isRecursive_iff.1 (mem_takeWhile ho),
    fun o ho hr => ?_, fun o ho => isRecursive_iff.1 (h o ho), fun hn => ?_⟩
  · have := mem_takeWhile ho
    rw [isRecursive_iff.2 hr] at this
    cases this
  · cases hd : os.dropWhile (isRecursive G n) with
    | nil => rfl
    | cons a r =>
      rw [hd, List.takeWhile_cons, dropWhile_head hd] at hn
      simp at hn

/-- What follows in a left recursive option is not empty. -/
def hardTail (G : Grammar N) (nul : N → Bool) (s : N) : Bool :=
  match G s with
  | none => false
  | some e =>
    match e.expr with
    | .seq (_ :: tail) => tail.any fun y => decide (0 < y.2.1) && !nul y.1
    | _ => false

theorem hardTail_spec {G : Grammar N} {nul : N → Bool} {s : N} {e : GDef N} {x : N × Int × Int} {tail : List (N × Int × Int)}
    (h : hardTail G nul s = true) (hs : G s = some e) (he : e.expr = .seq (x :: tail)) : ∃ x ∈ tail, 0 < x.2.1 ∧ nul x.1 = false := by
  simp only [hardTail, hs, he, List.any_eq_true, Bool.and_eq_true, decide_eq_true_eq] at h
  obtain ⟨y, h1, h2, h3⟩ := h
  exact ⟨y, h1, h2, by simpa using h3⟩

/-- The items that are tried at the position of the sequence have a lower rank. -/
def itemsBelow (nul : N → Bool) (rank : N → Nat) (r : Nat) : List (N × Int × Int) → Bool
  | [] => true
  | x :: xs => decide (rank x.1 < r) && ((decide (0 < x.2.1) && !nul x.1) || itemsBelow nul rank r xs)

theorem itemsBelow_spec {nul : N → Bool} {rank : N → Nat} {r : Nat} : ∀ {front rest : List (N × Int × Int)}
    {x : N × Int × Int}, itemsBelow nul rank r (front ++ x :: rest) = true →
    (∀ y ∈ front, 0 < y.2.1 → nul y.1 = true) → rank x.1 < r
  | [], rest, x, h, _ => by
    simp only [List.nil_append, itemsBelow, Bool.and_eq_true, decide_eq_true_eq] at h
    exact h.1
  | y :: front, rest, x, h, hn => by
    simp only [List.cons_append, itemsBelow, Bool.and_eq_true, Bool.or_eq_true, decide_eq_true_eq] at h
    rcases h.2 with ⟨h1, h2⟩ | h2
    · rw [hn y (by simp) h1] at h2; cases h2
    · exact itemsBelow_spec h2 fun z hz => hn z (by simp [hz])

/-- `nul` contains the names of the definitions that may match the empty text, and left calls decrease the rank. -/
def descends (G : Grammar N) (nul : N → Bool) (rank : N → Nat) (ds : List (N × GDef N)) : Bool :=
  ds.all fun x => match x.2.expr with
    | .char _ _ _ => true
    | .choice os => (nul x.1 || os.all fun o => !nul o) && os.all fun o => isRecursive G x.1 o || decide (rank o < rank x.1)
    | .seq items => (nul x.1 || items.any fun i => decide (0 < i.2.1) && !nul i.1) && itemsBelow nul rank (rank x.1) items

/-- The left recursive choices: their options, and that nothing else refers to the left recursive options, which are `ok`. -/
def recursion (G : Grammar N) (nul : N → Bool) (ok : N → Bool) (ds : List (N × GDef N)) : Bool :=
  ds.all fun x => match x.2.expr with
    | .choice os => (os.all fun o => !isRecursive G x.1 o) ||
        (!nul x.1 && isGrowth G x.1 os &&
          os.all fun o => !isRecursive G x.1 o ||
            (hardTail G nul o && (ds.all fun y => !y.2.expr.refs.contains o || decide (y.1 = x.1)) && ok o))
    | _ => true

theorem onlyDirect_of {G : Grammar N} (nul : N → Bool) (rank : N → Nat) (ok : N → Bool) (ds : List (N × GDef N))
    (mem : ∀ {n d}, G n = some d → (n, d) ∈ ds) (h : descends G nul rank ds = true) (hr : recursion G nul ok ds = true) :
    OnlyDirectRecursion G ∧ ∀ n s, Recurs G n s → ok s = true := by
  have hall := List.all_eq_true.1 h
  have hrec := List.all_eq_true.1 hr
  have hnul : ∀ {n : N}, Nullable G n → nul n = true := by
    intro n hn
    induction hn with
    | choice h1 h2 h3 _ ih =>
      have := hall _ (mem h1)
      simp only [h2, Bool.and_eq_true, Bool.or_eq_true, List.all_eq_true] at this
      rcases this.1 with h | h
      · exact h
      · have := h _ h3; rw [ih] at this; cases this
    | seq h1 h2 _ ih =>
      have := hall _ (mem h1)
      simp only [h2, Bool.and_eq_true, Bool.or_eq_true, List.any_eq_true, decide_eq_true_eq] at this
      rcases this.1 with h | ⟨x, hx, hp, hq⟩
      · exact h
      · rw [ih x hx hp] at hq; cases hq
  have hone : ∀ {n m : N}, LeftCall G n m → rank m < rank n := by
    intro n m hc
    cases hc with
    | option h1 h2 h3 h4 =>
      have := hall _ (mem h1)
      simp only [h2, Bool.and_eq_true, List.all_eq_true, Bool.or_eq_true, decide_eq_true_eq, isRecursive_iff] at this
      exact (this.2 _ h3).resolve_left h4
    | item h1 h2 h3 =>
      have := hall _ (mem h1)
      simp only [h2, Bool.and_eq_true] at this
      exact itemsBelow_spec this.2 fun y hy hp => hnul (h3 y hy hp)
  have hmany : ∀ {n m : N}, LeftCalls G n m → rank m < rank n := by
    intro n m hc
    induction hc with
    | one h => exact hone h
    | step h _ ih => exact Nat.lt_trans ih (hone h)
  have hrecs : ∀ {n s : N}, Recurs G n s → ∀ d os, G n = some d → d.expr = .choice os →
      Grows G n os ∧ (∀ m d, G m = some d → s ∈ d.expr.refs → m = n) ∧ ok s = true := by
    intro n s hrs d os hd hos
    have hsm : s ∈ os := by
      obtain ⟨d', os', e, tail, h1, h2, h3, -⟩ := id hrs
      rw [hd] at h1; cases h1; rw [hos] at h2; cases h2
      exact h3
    have := hrec _ (mem hd)
    simp only [hos, Bool.or_eq_true, Bool.and_eq_true] at this
    rcases this with h1 | ⟨⟨h1, h2⟩, h3⟩
    · have := List.all_eq_true.1 h1 s hsm
      rw [isRecursive_iff.2 hrs] at this; cases this
    · have hnn : ¬ Nullable G n := fun hn => by rw [hnul hn] at h1; cases h1
      refine ⟨⟨isGrowth_spec h2, fun t e tail ht he hi => ?_, hnn⟩, ?_⟩
      · have htm : t ∈ os := by
          obtain ⟨d', os', e, tail, g1, g2, g3, -⟩ := id ht
          rw [hd] at g1; cases g1; rw [hos] at g2; cases g2
          exact g3
        have := List.all_eq_true.1 h3 t htm
        rw [isRecursive_iff.2 ht] at this
        simp only [Bool.not_true, Bool.false_or, Bool.and_eq_true] at this
        obtain ⟨x, g2, g3, g4⟩ := hardTail_spec this.1.1 he hi
        exact ⟨x, g2, g3, fun hn => by rw [hnul hn] at g4; cases g4⟩
      · have := List.all_eq_true.1 h3 s hsm
        rw [isRecursive_iff.2 hrs] at this
        simp only [Bool.not_true, Bool.false_or, Bool.and_eq_true, List.all_eq_true] at this
        obtain ⟨⟨-, k1⟩, k2⟩ := this
        refine ⟨fun m d hm hs => ?_, k2⟩
        have := k1 _ (mem hm)
        simp only [Bool.or_eq_true, decide_eq_true_eq] at this
        rcases this with h | h
        · rw [(List.contains_iff_mem).2 hs] at h; cases h
        · exact h
  have hrd : ∀ {n s : N}, Recurs G n s → ∃ d os, G n = some d ∧ d.expr = .choice os := by
    rintro n s ⟨d, os, -, -, h1, h2, -⟩
    exact ⟨d, os, h1, h2⟩
  refine ⟨⟨?_, ?_, ?_⟩, ?_⟩
  · intro n hn
    exact Nat.lt_irrefl _ (hmany hn)
  · rintro n d os hd hos ⟨s, hs⟩
    exact (hrecs hs d os hd hos).1
  · intro n s m d hs hm hr
    obtain ⟨d', os, h1, h2⟩ := hrd hs
    exact (hrecs hs d' os h1 h2).2.1 m d hm hr
  · intro n s hs
    obtain ⟨d', os, h1, h2⟩ := hrd hs
    exact (hrecs hs d' os h1 h2).2.2

end

theorem regular_of {cs : List Call} (nul : Name → Bool) (rank : Name → Nat)
    (hnw : (cs.all fun c => !c.commit.whitespace) = true) (hkw : TextKeywords cs)
    (h : descends (grammarOf cs) nul rank (cs.flatMap Call.defs) = true)
    (hr : recursion (grammarOf cs) nul (fun o => decide (rootOf cs ≠ some o) && cs.all fun c => !(decide (c.name = o) && c.commit.noKeyword))
      (cs.flatMap Call.defs) = true) : Regular cs := by
  obtain ⟨h1, h2⟩ := onlyDirect_of nul rank _ (cs.flatMap Call.defs) (fun hd => mem_of_lookup hd) h hr
  refine ⟨?_, hkw, h1, ?_, ?_⟩
  · intro c hc
    simpa using List.all_eq_true.1 hnw c hc
  · intro n s hs
    have := h2 n s hs
    simp only [Bool.and_eq_true, decide_eq_true_eq] at this
    exact this.1
  · rintro n s hs ⟨c, hc, rfl, hk⟩
    have := h2 n _ hs
    simp only [Bool.and_eq_true, List.all_eq_true] at this
    have := this.2 c hc
    simp [hk] at this

theorem straightforward_of {cs : List Call} (nul : Name → Bool) (rank : Name → Nat)
    (hnw : (cs.all fun c => !c.commit.whitespace) = true) (hkw : TextKeywords cs)
    (hpl : (cs.all fun c => c.refs.all fun n => !n.contains colon) = true)
    (h : descends (grammarOf cs) nul rank (cs.flatMap Call.defs) = true)
    (hr : recursion (grammarOf cs) nul (fun o => decide (rootOf cs ≠ some o) && cs.all fun c => !(decide (c.name = o) && c.commit.noKeyword))
      (cs.flatMap Call.defs) = true) : Straightforward cs := by
  refine ⟨regular_of nul rank hnw hkw h hr, .of_noColon fun c hc n hn => ?_⟩
  have := List.all_eq_true.1 (List.all_eq_true.1 hpl c hc) n hn
  simpa [NoColon] using this

end Treerack
