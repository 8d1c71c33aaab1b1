import Verif.Spec.Format
import Verif.Model.Syntax

/-
Laws about expressions with the same meaning.
-/

namespace Treerack
open Spec

def SameItems (a b : DItems) : Prop := ∀ (doc : Document) (input : List Rune) (i j : Nat), MeansItems doc input a i j ↔ MeansItems doc input b i j

def SameOptions (a b : DOptions) : Prop :=
  ∀ (doc : Document) (input : List Rune) (i j : Nat), MeansOptions doc input a i j ↔ MeansOptions doc input b i j

theorem Same.refl (e : DExpr) : Same e e := fun _ _ _ _ => Iff.rfl
theorem Same.symm {a b : DExpr} (h : Same a b) : Same b a := fun d x i j => (h d x i j).symm
theorem Same.trans {a b c : DExpr} (h : Same a b) (h' : Same b c) : Same a c := fun d x i j => (h d x i j).trans (h' d x i j)

theorem MeansTimes.of {doc : Document} {input : List Rune} {a b : DExpr} (h : ∀ i j, Means doc input a i j → Means doc input b i j) :
    ∀ {k i j : Nat}, MeansTimes doc input a k i j → MeansTimes doc input b k i j
  | 0, _, _, .zero => .zero
  | _ + 1, _, _, .succ h1 h2 => .succ (MeansTimes.of h h1) (h _ _ h2)

theorem Same.times {a b : DExpr} (h : Same a b) {doc : Document} {input : List Rune} {k i j : Nat} :
    MeansTimes doc input a k i j ↔ MeansTimes doc input b k i j :=
  ⟨MeansTimes.of fun i j => (h doc input i j).1, MeansTimes.of fun i j => (h doc input i j).2⟩

theorem meansTimes_one {doc : Document} {input : List Rune} {e : DExpr} {i j : Nat} :
    MeansTimes doc input e 1 i j ↔ Means doc input e i j := by
  constructor
  · intro h
    cases h with
    | succ h1 h2 => cases h1; exact h2
  · intro h; exact .succ .zero h

theorem meansItems_cons {doc : Document} {input : List Rune} {e : DExpr} {q : Option Quantifier} {rest : DItems} {i j : Nat} :
    MeansItems doc input (.cons e q rest) i j ↔
      ∃ k m, MeansTimes doc input e k i m ∧ allowed q k ∧ MeansItems doc input rest m j := by
  constructor
  · intro h
    cases h with
    | cons h1 h2 h3 => exact ⟨_, _, h1, h2, h3⟩
  · rintro ⟨k, m, h1, h2, h3⟩
    exact .cons h1 h2 h3

theorem meansItems_nil {doc : Document} {input : List Rune} {i j : Nat} : MeansItems doc input .nil i j ↔ i = j := by
  constructor
  · intro h; cases h; rfl
  · rintro rfl; exact .nil

theorem means_seq {doc : Document} {input : List Rune} {items : DItems} {i j : Nat} :
    Means doc input (.seq items) i j ↔ MeansItems doc input items i j := by
  constructor
  · intro h; cases h; assumption
  · exact .seq

theorem means_choice {doc : Document} {input : List Rune} {os : DOptions} {i j : Nat} :
    Means doc input (.choice os) i j ↔ MeansOptions doc input os i j := by
  constructor
  · intro h; cases h; assumption
  · exact .choice

theorem meansOptions_cons {doc : Document} {input : List Rune} {e : DExpr} {rest : DOptions} {i j : Nat} :
    MeansOptions doc input (.cons e rest) i j ↔ Means doc input e i j ∨ MeansOptions doc input rest i j := by
  constructor
  · intro h
    cases h with
    | here h => exact .inl h
    | there h => exact .inr h
  · rintro (h | h)
    · exact .here h
    · exact .there h

theorem meansOptions_nil {doc : Document} {input : List Rune} {i j : Nat} : ¬ MeansOptions doc input .nil i j := by
  intro h; cases h

theorem SameItems.cons {e e' : DExpr} {q q' : Option Quantifier} {rest rest' : DItems} (h : Same e e')
    (hq : ∀ k, allowed q k ↔ allowed q' k) (hr : SameItems rest rest') : SameItems (.cons e q rest) (.cons e' q' rest') := by
  intro doc input i j
  rw [meansItems_cons, meansItems_cons]
  constructor
  · rintro ⟨k, m, h1, h2, h3⟩
    exact ⟨k, m, (Same.times h).1 h1, (hq k).1 h2, (hr doc input m j).1 h3⟩
  · rintro ⟨k, m, h1, h2, h3⟩
    exact ⟨k, m, (Same.times h).2 h1, (hq k).2 h2, (hr doc input m j).2 h3⟩

theorem Same.seq {a b : DItems} (h : SameItems a b) : Same (.seq a) (.seq b) := by
  intro doc input i j
  rw [means_seq, means_seq]
  exact h doc input i j

theorem Same.choice {a b : DOptions} (h : SameOptions a b) : Same (.choice a) (.choice b) := by
  intro doc input i j
  rw [means_choice, means_choice]
  exact h doc input i j

/-- A sequence of one item that occurs once. -/
theorem Same.once (e : DExpr) : Same (.seq (.cons e none .nil)) e := by
  intro doc input i j
  rw [means_seq, meansItems_cons]
  constructor
  · rintro ⟨k, m, h1, h2, h3⟩
    obtain rfl : k = 1 := h2
    rw [meansItems_nil] at h3
    subst h3
    exact meansTimes_one.1 h1
  · intro h
    exact ⟨1, j, meansTimes_one.2 h, rfl, .nil⟩

/-- A sequence of one item that is an item itself, without a quantifier. -/
theorem SameItems.splice {e e1 : DExpr} {q q1 : Option Quantifier} {rest rest' : DItems} (h : Same (.seq (.cons e1 q1 .nil)) e)
    (hq : ∀ k, allowed q k ↔ k = 1) (hr : SameItems rest' rest) : SameItems (.cons e1 q1 rest') (.cons e q rest) := by
  intro doc input i j
  rw [meansItems_cons, meansItems_cons]
  constructor
  · rintro ⟨k, m, h1, h2, h3⟩
    refine ⟨1, m, meansTimes_one.2 ((h doc input i m).1 ?_), (hq 1).2 rfl, (hr doc input m j).1 h3⟩
    rw [means_seq, meansItems_cons]
    exact ⟨k, m, h1, h2, .nil⟩
  · rintro ⟨k, m, h1, h2, h3⟩
    obtain rfl := (hq k).1 h2
    have h4 := (h doc input i m).2 (meansTimes_one.1 h1)
    rw [means_seq, meansItems_cons] at h4
    obtain ⟨k', m', h5, h6, h7⟩ := h4
    rw [meansItems_nil] at h7
    subst h7
    exact ⟨k', m', h5, h6, (hr doc input m' j).2 h3⟩

def DOptions.append : DOptions → DOptions → DOptions
  | .nil, b => b
  | .cons e rest, b => .cons e (DOptions.append rest b)

theorem meansOptions_append {doc : Document} {input : List Rune} {i j : Nat} : ∀ {a b : DOptions},
    MeansOptions doc input (DOptions.append a b) i j ↔ MeansOptions doc input a i j ∨ MeansOptions doc input b i j
  | .nil, b => by simp [DOptions.append, meansOptions_nil]
  | .cons e rest, b => by
    rw [DOptions.append, meansOptions_cons, meansOptions_append, meansOptions_cons, or_assoc]

/-- A choice among the options of a choice. -/
theorem SameOptions.splice {e : DExpr} {a rest rest' : DOptions} (h : Same (.choice a) e) (hr : SameOptions rest' rest) :
    SameOptions (DOptions.append a rest') (.cons e rest) := by
  intro doc input i j
  rw [meansOptions_append, meansOptions_cons, ← h doc input i j, means_choice, hr doc input i j]

theorem SameOptions.cons {e e' : DExpr} {rest rest' : DOptions} (h : Same e e') (hr : SameOptions rest rest') :
    SameOptions (.cons e rest) (.cons e' rest') := by
  intro doc input i j
  rw [meansOptions_cons, meansOptions_cons, h doc input i j, hr doc input i j]

theorem Same.options_one (e : DExpr) : Same (.choice (.cons e .nil)) e := by
  intro doc input i j
  rw [means_choice, meansOptions_cons]
  simp [meansOptions_nil]

theorem same_char (c : Rune) : Same (.class_ false [c] []) (.chars [c]) := by
  intro doc input i j
  constructor
  · intro h
    cases h with
    | class_ h1 h2 =>
      rename_i t
      have hc : t = c := by simpa [InClass] using h2
      subst hc
      have h3 : (input.drop i).take 1 = [t] := by
        rw [List.take_one, List.head?_drop, h1]; rfl
      exact Means.chars (cs := [t]) h3
  · intro h
    generalize hx : DExpr.chars [c] = x at h
    cases h with
    | chars h1 =>
      obtain rfl := DExpr.chars.inj hx
      have h2 : input[i]? = some c := by
        have := congrArg List.head? h1
        simpa [List.head?_take, List.head?_drop] using this
      exact Means.class_ h2 (by simp [InClass])
    | _ => cases hx

theorem same_any : Same .any (.class_ true [] []) := by
  intro doc input i j
  constructor
  · intro h
    cases h with
    | any h => exact .class_ h (by simp [InClass])
  · intro h
    cases h with
    | class_ h _ => exact .any h

/-! ### Documents -/

theorem SameDocument.symm {a b : Document} (h : SameDocument a b) : SameDocument b a := by
  induction h with
  | nil => exact .nil
  | cons h1 h2 h3 _ ih => exact .cons h1.symm h2.symm (Same.symm h3) ih

theorem SameDocument.mem {a b : Document} (h : SameDocument a b) {d : DDef} (hd : d ∈ a) :
    ∃ d' ∈ b, d.name = d'.name ∧ Same d.expr d'.expr := by
  induction h with
  | nil => cases hd
  | cons h1 h2 h3 _ ih =>
    rcases List.mem_cons.1 hd with rfl | hd
    · exact ⟨_, List.mem_cons_self .., h1, h3⟩
    · obtain ⟨d', h4, h5⟩ := ih hd
      exact ⟨d', List.mem_cons_of_mem _ h4, h5⟩

mutual
theorem Means.document {a b : Document} (h : SameDocument a b) {input : List Rune} :
    ∀ {e : DExpr} {i j : Nat}, Means a input e i j → Means b input e i j
  | _, _, _, .any h1 => .any h1
  | _, _, _, .class_ h1 h2 => .class_ h1 h2
  | _, _, _, .chars h1 => .chars h1
  | _, _, _, .symbol (d := d) hd h1 => by
    obtain ⟨d', h2, h3, h4⟩ := SameDocument.mem h hd
    rw [h3]
    exact .symbol h2 ((h4 _ _ _ _).1 (Means.document h h1))
  | _, _, _, .seq h1 => .seq (MeansItems.document h h1)
  | _, _, _, .choice h1 => .choice (MeansOptions.document h h1)

theorem MeansItems.document {a b : Document} (h : SameDocument a b) {input : List Rune} :
    ∀ {items : DItems} {i j : Nat}, MeansItems a input items i j → MeansItems b input items i j
  | _, _, _, .nil => .nil
  | _, _, _, .cons h1 h2 h3 => .cons (MeansTimes.document h h1) h2 (MeansItems.document h h3)

theorem MeansTimes.document {a b : Document} (h : SameDocument a b) {input : List Rune} :
    ∀ {e : DExpr} {k i j : Nat}, MeansTimes a input e k i j → MeansTimes b input e k i j
  | _, _, _, _, .zero => .zero
  | _, _, _, _, .succ h1 h2 => .succ (MeansTimes.document h h1) (Means.document h h2)

theorem MeansOptions.document {a b : Document} (h : SameDocument a b) {input : List Rune} :
    ∀ {os : DOptions} {i j : Nat}, MeansOptions a input os i j → MeansOptions b input os i j
  | _, _, _, .here h1 => .here (Means.document h h1)
  | _, _, _, .there h1 => .there (MeansOptions.document h h1)
end

end Treerack
