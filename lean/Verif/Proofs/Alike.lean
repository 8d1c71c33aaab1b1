import Verif.Proofs.FormatMeaning
import Verif.Spec.SpacedDocument

/-
The changes that `format` makes in an expression, as a relation, and what they mean without and with whitespace.
-/

namespace Treerack
open Spec

mutual

/-- The expressions differ in what `format` changes; `groups` tells whether the groups of a single item are dropped. -/
inductive Alike (groups : Bool) : DExpr → DExpr → Prop
  | refl (e : DExpr) : Alike groups e e
  | symm {a b : DExpr} : Alike groups a b → Alike groups b a
  | trans {a b c : DExpr} : Alike groups a b → Alike groups b c → Alike groups a c
  | once (e : DExpr) : Alike groups (.seq (.cons e none .nil)) e
  | one (e : DExpr) : Alike groups (.choice (.cons e .nil)) e
  | char (c : Rune) : Alike groups (.class_ false [c] []) (.chars [c])
  | any : Alike groups .any (.class_ true [] [])
  | seq {a b : DItems} : AlikeItems groups a b → Alike groups (.seq a) (.seq b)
  | choice {a b : DOptions} : AlikeOptions groups a b → Alike groups (.choice a) (.choice b)

inductive AlikeItems (groups : Bool) : DItems → DItems → Prop
  | nil : AlikeItems groups .nil .nil
  | cons {e e' : DExpr} {q q' : Option Quantifier} {rest rest' : DItems} : Alike groups e e' → (∀ k, allowed q k ↔ allowed q' k) →
      AlikeItems groups rest rest' → AlikeItems groups (.cons e q rest) (.cons e' q' rest')
  | splice {e e1 : DExpr} {q q1 : Option Quantifier} {rest rest' : DItems} : groups = true →
      Alike groups (.seq (.cons e1 q1 .nil)) e → (∀ k, allowed q k ↔ k = 1) → AlikeItems groups rest' rest →
      AlikeItems groups (.cons e1 q1 rest') (.cons e q rest)

inductive AlikeOptions (groups : Bool) : DOptions → DOptions → Prop
  | nil : AlikeOptions groups .nil .nil
  | splice {e : DExpr} {a rest rest' : DOptions} : Alike groups (.choice a) e → AlikeOptions groups rest' rest →
      AlikeOptions groups (DOptions.append a rest') (.cons e rest)

end

theorem DOptions.append_nil : ∀ a : DOptions, DOptions.append a .nil = a
  | .nil => rfl
  | .cons e rest => by rw [DOptions.append, DOptions.append_nil rest]

/-! ### Without whitespace -/

mutual

theorem Alike.same {g : Bool} : ∀ {a b : DExpr}, Alike g a b → Same a b
  | _, _, .refl e => Same.refl e
  | _, _, .symm h => Same.symm (Alike.same h)
  | _, _, .trans h h' => Same.trans (Alike.same h) (Alike.same h')
  | _, _, .once e => Same.once e
  | _, _, .one e => Same.options_one e
  | _, _, .char c => same_char c
  | _, _, .any => same_any
  | _, _, .seq h => Same.seq (AlikeItems.same h)
  | _, _, .choice h => Same.choice (AlikeOptions.same h)

theorem AlikeItems.same {g : Bool} : ∀ {a b : DItems}, AlikeItems g a b → SameItems a b
  | _, _, .nil => fun _ _ _ _ => Iff.rfl
  | _, _, .cons h hq hr => SameItems.cons (Alike.same h) hq (AlikeItems.same hr)
  | _, _, .splice _ h hq hr => SameItems.splice (Alike.same h) hq (AlikeItems.same hr)

theorem AlikeOptions.same {g : Bool} : ∀ {a b : DOptions}, AlikeOptions g a b → SameOptions a b
  | _, _, .nil => fun _ _ _ _ => Iff.rfl
  | _, _, .splice h hr => SameOptions.splice (Alike.same h) (AlikeOptions.same hr)

end

/-! ### With whitespace -/

/-- The same texts, for the same kind of sequences inside and outside. -/
def Even (a b : DExpr) : Prop := ∀ (doc : Document) (input : List Rune) (w : Bool) (i j : Nat),
  MeansWs doc input w w a i j ↔ MeansWs doc input w w b i j

def EvenItems (a b : DItems) : Prop := ∀ (doc : Document) (input : List Rune) (w : Bool) (i j : Nat),
  (TightWs doc input w a i j ↔ TightWs doc input w b i j) ∧
  ∀ first, LooseWs doc input w first a i j ↔ LooseWs doc input w first b i j

def EvenOptions (a b : DOptions) : Prop := ∀ (doc : Document) (input : List Rune) (w : Bool) (i j : Nat),
  OptionsWs doc input w a i j ↔ OptionsWs doc input w b i j

section
variable {doc : Document} {input : List Rune} {w : Bool}

theorem TimesWs.of {a b : DExpr} (h : ∀ i j, MeansWs doc input w w a i j → MeansWs doc input w w b i j) :
    ∀ {k i j : Nat}, TimesWs doc input w a k i j → TimesWs doc input w b k i j
  | _, _, _, .zero => .zero
  | _, _, _, .succ h1 h2 => .succ (TimesWs.of h h1) (h _ _ h2)

theorem OccWs.of {a b : DExpr} (h : ∀ i j, MeansWs doc input w w a i j → MeansWs doc input w w b i j) {first : Bool} :
    ∀ {k i j : Nat}, OccWs doc input w first a k i j → OccWs doc input w first b k i j
  | _, _, _, .zero => .zero
  | _, _, _, .first h1 => .first (h _ _ h1)
  | _, _, _, .succ h1 h2 h3 h4 => .succ (OccWs.of h h1) h2 h3 (h _ _ h4)

theorem tightWs_cons_of {a b : DExpr} {q q' : Option Quantifier} {rest rest' : DItems} {i j : Nat}
    (h : ∀ i j, MeansWs doc input w w a i j → MeansWs doc input w w b i j) (hq : ∀ k, allowed q k → allowed q' k)
    (hr : ∀ i j, TightWs doc input w rest i j → TightWs doc input w rest' i j) (h1 : TightWs doc input w (.cons a q rest) i j) :
    TightWs doc input w (.cons b q' rest') i j := by
  cases h1 with
  | cons h1 h2 h3 => exact .cons (TimesWs.of h h1) (hq _ h2) (hr _ _ h3)

theorem looseWs_cons_of {a b : DExpr} {q q' : Option Quantifier} {rest rest' : DItems} {first : Bool} {i j : Nat}
    (h : ∀ i j, MeansWs doc input w w a i j → MeansWs doc input w w b i j) (hq : ∀ k, allowed q k ↔ allowed q' k)
    (hr : ∀ i j, LooseWs doc input w false rest i j → LooseWs doc input w false rest' i j)
    (h1 : LooseWs doc input w first (.cons a q rest) i j) : LooseWs doc input w first (.cons b q' rest') i j := by
  cases h1 with
  | cons h1 h2 h3 => exact .cons (OccWs.of h h1) ((hq _).1 h2) (hr _ _ h3)
  | absent h1 h2 h3 h4 h5 => exact .absent ((hq _).1 h1) ((hq _).1 h2) (fun hc => h3 ((hq _).2 hc)) h4 (hr _ _ h5)

theorem optionsWs_cons {e : DExpr} {rest : DOptions} {i j : Nat} :
    OptionsWs doc input w (.cons e rest) i j ↔ MeansWs doc input w w e i j ∨ OptionsWs doc input w rest i j := by
  constructor
  · intro h
    cases h with
    | here h => exact .inl h
    | there h => exact .inr h
  · rintro (h | h)
    · exact .here h
    · exact .there h

theorem optionsWs_nil {i j : Nat} : ¬ OptionsWs doc input w .nil i j := by intro h; cases h

theorem optionsWs_append {i j : Nat} : ∀ {a b : DOptions},
    OptionsWs doc input w (DOptions.append a b) i j ↔ OptionsWs doc input w a i j ∨ OptionsWs doc input w b i j
  | .nil, b => by simp [DOptions.append, optionsWs_nil]
  | .cons e rest, b => by
    rw [DOptions.append, optionsWs_cons, optionsWs_append, optionsWs_cons, or_assoc]

theorem meansWs_choice {tight inner : Bool} {os : DOptions} {i j : Nat} :
    MeansWs doc input tight inner (.choice os) i j ↔ OptionsWs doc input inner os i j := by
  constructor
  · intro h; cases h; assumption
  · exact .choice

theorem meansWs_seq {tight inner : Bool} {items : DItems} {i j : Nat} :
    MeansWs doc input tight inner (.seq items) i j ↔
      if tight = true then TightWs doc input inner items i j else LooseWs doc input inner true items i j := by
  cases tight with
  | true =>
    rw [if_pos rfl]
    constructor
    · intro h; cases h; assumption
    · exact .tight
  | false =>
    rw [if_neg (by simp)]
    constructor
    · intro h; cases h; assumption
    · exact .loose

theorem even_once (e : DExpr) : Even (.seq (.cons e none .nil)) e := by
  intro doc input w i j
  rw [meansWs_seq]
  cases w with
  | true =>
    rw [if_pos rfl]
    constructor
    · intro h
      cases h with
      | cons h1 h2 h3 =>
        cases h3
        obtain rfl := h2
        cases h1 with
        | succ h4 h5 => cases h4; exact h5
    · intro h
      exact .cons (k := 1) (.succ .zero h) rfl .nil
  | false =>
    rw [if_neg (by simp)]
    constructor
    · intro h
      cases h with
      | cons h1 h2 h3 =>
        cases h3
        obtain rfl := h2
        cases h1 with
        | first h4 => exact h4
        | succ h4 h5 => exact absurd (h5 rfl) (by decide)
    · intro h
      exact .cons (k := 1) (.first h) rfl .nil

theorem even_char (c : Rune) {tight inner : Bool} {i j : Nat} :
    MeansWs doc input tight inner (.class_ false [c] []) i j ↔ MeansWs doc input tight inner (.chars [c]) i j := by
  constructor
  · intro h
    cases h with
    | class_ h1 h2 =>
      rename_i t
      have hc : t = c := by simpa [InClass] using h2
      subst hc
      have h3 : (input.drop i).take 1 = [t] := by
        rw [List.take_one, List.head?_drop, h1]; rfl
      exact MeansWs.chars (cs := [t]) h3
  · intro h
    generalize hx : DExpr.chars [c] = x at h
    cases h with
    | chars h1 =>
      obtain rfl := DExpr.chars.inj hx
      have h2 : input[i]? = some c := by
        have := congrArg List.head? h1
        simpa [List.head?_take, List.head?_drop] using this
      exact MeansWs.class_ h2 (by simp [InClass])
    | _ => cases hx

end

mutual

theorem Alike.even : ∀ {a b : DExpr}, Alike false a b → Even a b
  | _, _, .refl e => fun _ _ _ _ _ => Iff.rfl
  | _, _, .symm h => fun doc input w i j => (Alike.even h doc input w i j).symm
  | _, _, .trans h h' => fun doc input w i j => (Alike.even h doc input w i j).trans (Alike.even h' doc input w i j)
  | _, _, .once e => even_once e
  | _, _, .one e => fun doc input w i j => by
    rw [meansWs_choice, optionsWs_cons]
    simp [optionsWs_nil]
  | _, _, .char c => fun doc input w i j => even_char c
  | _, _, .any => fun doc input w i j => by
    constructor
    · intro h
      cases h with
      | any h => exact .class_ h (by simp [InClass])
    · intro h
      cases h with
      | class_ h _ => exact .any h
  | _, _, .seq h => fun doc input w i j => by
    rw [meansWs_seq, meansWs_seq]
    split
    · exact (AlikeItems.even h doc input w i j).1
    · exact (AlikeItems.even h doc input w i j).2 true
  | _, _, .choice h => fun doc input w i j => by
    rw [meansWs_choice, meansWs_choice]
    exact AlikeOptions.even h doc input w i j

theorem AlikeItems.even : ∀ {a b : DItems}, AlikeItems false a b → EvenItems a b
  | _, _, .nil => fun _ _ _ _ _ => ⟨Iff.rfl, fun _ => Iff.rfl⟩
  | _, _, .cons h hq hr => by
    have h' := Alike.even h
    have hr' := AlikeItems.even hr
    intro doc input w i j
    refine ⟨⟨tightWs_cons_of (fun i j => (h' doc input w i j).1) (fun k => (hq k).1) (fun i j => (hr' doc input w i j).1.1),
      tightWs_cons_of (fun i j => (h' doc input w i j).2) (fun k => (hq k).2) (fun i j => (hr' doc input w i j).1.2)⟩, fun first =>
      ⟨looseWs_cons_of (fun i j => (h' doc input w i j).1) hq (fun i j => ((hr' doc input w i j).2 false).1),
      looseWs_cons_of (fun i j => (h' doc input w i j).2) (fun k => (hq k).symm) (fun i j => ((hr' doc input w i j).2 false).2)⟩⟩
  | _, _, .splice h _ _ _ => nomatch h

theorem AlikeOptions.even : ∀ {a b : DOptions}, AlikeOptions false a b → EvenOptions a b
  | _, _, .nil => fun _ _ _ _ _ => Iff.rfl
  | _, _, .splice h hr => by
    have h' := Alike.even h
    have hr' := AlikeOptions.even hr
    intro doc input w i j
    rw [optionsWs_append, optionsWs_cons, ← h' doc input w i j, meansWs_choice, hr' doc input w i j]

end

/-- Not a sequence. -/
def DExpr.NotSeq : DExpr → Prop
  | .seq _ => False
  | _ => True

theorem notSeq_tight {e : DExpr} (h : DExpr.NotSeq e) {doc : Document} {input : List Rune} {tight tight' inner : Bool} {i j : Nat}
    (hm : MeansWs doc input tight inner e i j) : MeansWs doc input tight' inner e i j := by
  cases hm with
  | any h => exact .any h
  | class_ h h' => exact .class_ h h'
  | chars h => exact .chars h
  | symbol h => exact .symbol h
  | tight => exact h.elim
  | loose => exact h.elim
  | choice h => exact .choice h

/-- The same texts, also when the outer sequence is of another kind than the inner ones. -/
def Uneven (a b : DExpr) : Prop := ∀ (doc : Document) (input : List Rune) (tight inner : Bool) (i j : Nat),
  MeansWs doc input tight inner a i j ↔ MeansWs doc input tight inner b i j

theorem Alike.uneven {a b : DExpr} (h : Alike false a b) (ha : DExpr.NotSeq a) (hb : DExpr.NotSeq b) : Uneven a b := by
  intro doc input tight inner i j
  constructor
  · intro hm
    exact notSeq_tight hb ((Alike.even h doc input inner i j).1 (notSeq_tight ha hm))
  · intro hm
    exact notSeq_tight ha ((Alike.even h doc input inner i j).2 (notSeq_tight hb hm))

theorem AlikeItems.uneven {a b : DItems} (h : AlikeItems false a b) : Uneven (.seq a) (.seq b) := by
  intro doc input tight inner i j
  rw [meansWs_seq, meansWs_seq]
  split
  · exact (AlikeItems.even h doc input inner i j).1
  · exact (AlikeItems.even h doc input inner i j).2 true

end Treerack
