import Verif.Spec.Whitespace

/-
One step of a derivation, and induction over derivations.
-/

namespace Treerack.Spec

variable {N : Type}

inductive TimesOf (D : Nat → Nat → Prop) : Nat → Nat → Nat → Prop
  | zero {i : Nat} : TimesOf D 0 i i
  | succ {k i m j : Nat} : TimesOf D k i m → D m j → TimesOf D (k + 1) i j

inductive ItemsOf (D : N → Nat → Nat → Prop) : List (N × Int × Int) → Nat → Nat → Prop
  | nil {i : Nat} : ItemsOf D [] i i
  | cons {n : N} {mn mx : Int} {items : List (N × Int × Int)} {k i m j : Nat} :
      TimesOf (D n) k i m → InRange mn mx k → ItemsOf D items m j → ItemsOf D ((n, mn, mx) :: items) i j

def ExprStep (D : N → Nat → Nat → Prop) (input : List Rune) (e : Expr N) (i j : Nat) : Prop :=
  match e with
  | .char neg cs rs => ∃ t, input[i]? = some t ∧ InClass neg cs rs t ∧ j = i + 1
  | .choice os => ∃ o ∈ os, D o i j
  | .seq items => ItemsOf D items i j

theorem TimesOf.mono {D E : Nat → Nat → Prop} (h : ∀ i j, D i j → E i j) {k i j : Nat} (t : TimesOf D k i j) :
    TimesOf E k i j := by
  induction t with
  | zero => exact .zero
  | succ _ d ih => exact .succ ih (h _ _ d)

theorem ItemsOf.mono {D E : N → Nat → Nat → Prop} {items : List (N × Int × Int)} {i j : Nat}
    (t : ItemsOf D items i j) (h : ∀ x ∈ items, ∀ i j, D x.1 i j → E x.1 i j) : ItemsOf E items i j := by
  induction t with
  | nil => exact .nil
  | cons h1 h2 _ ih =>
    exact .cons (h1.mono (h _ (List.mem_cons_self ..))) h2 (ih fun x hx => h x (by simp [hx]))

theorem TimesOf.one {D : Nat → Nat → Prop} {i j : Nat} : TimesOf D 1 i j ↔ D i j := by
  constructor
  · intro h
    cases h with
    | succ h1 h2 => cases h1; exact h2
  · intro h; exact .succ .zero h

theorem ItemsOf.append {D : N → Nat → Nat → Prop} : ∀ {xs ys : List (N × Int × Int)} {i j : Nat},
    ItemsOf D (xs ++ ys) i j ↔ ∃ m, ItemsOf D xs i m ∧ ItemsOf D ys m j
  | [], ys, i, j => by
    constructor
    · intro h; exact ⟨i, .nil, h⟩
    · rintro ⟨m, h1, h2⟩; cases h1; exact h2
  | x :: xs, ys, i, j => by
    constructor
    · intro h
      cases h with
      | cons h1 h2 h3 =>
        obtain ⟨m, h4, h5⟩ := ItemsOf.append.1 h3
        exact ⟨m, .cons h1 h2 h4, h5⟩
    · rintro ⟨m, h1, h2⟩
      cases h1 with
      | cons h1 h3 h4 => exact .cons h1 h3 (ItemsOf.append.2 ⟨m, h4, h2⟩)

variable {G : Grammar N} {input : List Rune}

mutual

theorem Derives.induct' {P : N → Nat → Nat → Prop}
    (step : ∀ n d i j, G n = some d →
      ExprStep (fun n i j => Derives G input n i j ∧ P n i j) input d.expr i j → P n i j) :
    ∀ {n i j}, Derives G input n i j → P n i j
  | _, _, _, .char h1 h2 h3 h4 => step _ _ _ _ h1 (by rw [h2]; exact ⟨_, h3, h4, rfl⟩)
  | _, _, _, .choice h1 h2 h3 h4 =>
    step _ _ _ _ h1 (by rw [h2]; exact ⟨_, h3, h4, Derives.induct' step h4⟩)
  | _, _, _, .seq h1 h2 h3 => step _ _ _ _ h1 (by rw [h2]; exact DerivesItems.induct' step h3)

theorem DerivesItems.induct' {P : N → Nat → Nat → Prop}
    (step : ∀ n d i j, G n = some d →
      ExprStep (fun n i j => Derives G input n i j ∧ P n i j) input d.expr i j → P n i j) :
    ∀ {items i j}, DerivesItems G input items i j →
      ItemsOf (fun n i j => Derives G input n i j ∧ P n i j) items i j
  | _, _, _, .nil => .nil
  | _, _, _, .cons h1 h2 h3 => .cons (DerivesTimes.induct' step h1) h2 (DerivesItems.induct' step h3)

theorem DerivesTimes.induct' {P : N → Nat → Nat → Prop}
    (step : ∀ n d i j, G n = some d →
      ExprStep (fun n i j => Derives G input n i j ∧ P n i j) input d.expr i j → P n i j) :
    ∀ {n k i j}, DerivesTimes G input n k i j →
      TimesOf (fun i j => Derives G input n i j ∧ P n i j) k i j
  | _, _, _, _, .zero => .zero
  | _, _, _, _, .succ h1 h2 => .succ (DerivesTimes.induct' step h1) ⟨h2, Derives.induct' step h2⟩

end

theorem derivesTimes_of {n : N} {k i j : Nat} (h : TimesOf (Derives G input n) k i j) :
    DerivesTimes G input n k i j := by
  induction h with
  | zero => exact .zero
  | succ _ d ih => exact .succ ih d

theorem derivesItems_of {items : List (N × Int × Int)} {i j : Nat}
    (h : ItemsOf (Derives G input) items i j) : DerivesItems G input items i j := by
  induction h with
  | nil => exact .nil
  | cons h1 h2 _ ih => exact .cons (derivesTimes_of h1) h2 ih

/-- A derivation is a step with derivations below. -/
theorem derives_iff {n : N} {i j : Nat} :
    Derives G input n i j ↔ ∃ d, G n = some d ∧ ExprStep (Derives G input) input d.expr i j := by
  constructor
  · intro h
    refine Derives.induct' (P := fun n i j => ∃ d, G n = some d ∧ ExprStep (Derives G input) input d.expr i j)
      (fun n d i j hd hs => ⟨d, hd, ?_⟩) h
    cases he : d.expr with
    | char neg cs rs => rw [he] at hs; exact hs
    | choice os => rw [he] at hs; obtain ⟨o, h1, h2, -⟩ := hs; exact ⟨o, h1, h2⟩
    | seq items => rw [he] at hs; exact ItemsOf.mono hs fun _ _ _ _ h => h.1
  · rintro ⟨d, hd, hs⟩
    cases he : d.expr with
    | char neg cs rs => rw [he] at hs; obtain ⟨t, h1, h2, rfl⟩ := hs; exact .char hd he h1 h2
    | choice os => rw [he] at hs; obtain ⟨o, h1, h2⟩ := hs; exact .choice hd he h1 h2
    | seq items => rw [he] at hs; exact .seq hd he (derivesItems_of hs)

variable {W : WGrammar N}

theorem wTimes_of {n : N} {k i j : Nat} (h : TimesOf (WDerives W input n) k i j) : WTimes W input n k i j := by
  induction h with
  | zero => exact .zero
  | succ _ d ih => exact .succ ih d

theorem wTight_of {items : List (N × Int × Int)} {i j : Nat} (h : ItemsOf (WDerives W input) items i j) :
    WTight W input items i j := by
  induction h with
  | nil => exact .nil
  | cons h1 h2 _ ih => exact .cons (wTimes_of h1) h2 ih

theorem Gap.append {i m j : Nat} (h : Gap W input i m) : ∀ {k}, TimesOf (fun i j => ∃ w ∈ W.ws, WDerives W input w i j) k m j →
    Gap W input i j := by
  intro k t
  induction t with
  | zero => exact h
  | succ _ d ih => obtain ⟨w, h1, h2⟩ := d; exact .cons (ih h) h1 h2

theorem gap_of {k i j : Nat} (t : TimesOf (fun i j => ∃ w ∈ W.ws, WDerives W input w i j) k i j) :
    Gap W input i j := Gap.append .nil t

end Treerack.Spec
