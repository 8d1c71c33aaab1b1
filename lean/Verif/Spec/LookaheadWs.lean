import Verif.Spec.Whitespace

/-
Specification: grammars with whitespace definitions, for which the next character that is not whitespace tells how to continue.
Nothing in this file refers to the parser.
-/

namespace Treerack.Spec

section

variable {N : Type} (W : WGrammar N)

mutual

/-- A text of `n` may start with the character, when only the items that can be omitted are left out. -/
inductive WFirst : N → Rune → Prop
  | char {n : N} {d : GDef N} {neg : Bool} {chars : List Rune} {ranges : List (Rune × Rune)} {t : Rune} :
      W.G n = some d → d.expr = .char neg chars ranges → InClass neg chars ranges t → WFirst n t
  | choice {n : N} {d : GDef N} {os : List N} {o : N} {t : Rune} :
      W.G n = some d → d.expr = .choice os → o ∈ os → WFirst o t → WFirst n t
  | seq {n : N} {d : GDef N} {items : List (N × Int × Int)} {t : Rune} :
      W.G n = some d → d.expr = .seq items → WFirstItems items t → WFirst n t

inductive WFirstItems : List (N × Int × Int) → Rune → Prop
  | here {x : N} {mn mx : Int} {items : List (N × Int × Int)} {t : Rune} : WFirst x t → WFirstItems ((x, mn, mx) :: items) t
  | next {x : N} {mn mx : Int} {items : List (N × Int × Int)} {t : Rune} :
      mn ≤ 0 → WFirstItems items t → WFirstItems ((x, mn, mx) :: items) t

end

/-- The characters of the whitespace. -/
def SpaceChar (t : Rune) : Prop := ∃ w ∈ W.ws, WFirst W w t

mutual

/-- `WFollow W n g c`: `c` may come behind a text of `n`, with whitespace between them if `g`; `none` is the end of the text. -/
inductive WFollow : N → Bool → Option Rune → Prop
  | root : WFollow W.root true none
  | option {n : N} {d : GDef N} {os : List N} {o : N} {g : Bool} {c : Option Rune} :
      WFollow n g c → W.G n = some d → d.expr = .choice os → o ∈ os → WFollow o g c
  | next {n : N} {d : GDef N} {front back : List (N × Int × Int)} {x : N} {mn mx : Int} {g : Bool} {c : Option Rune} :
      W.G n = some d → d.expr = .seq (front ++ (x, mn, mx) :: back) → WNext n back g c → WFollow x g c
  /-- the same item again -/
  | again {n : N} {d : GDef N} {front back : List (N × Int × Int)} {x : N} {mn mx : Int} {t : Rune} :
      W.G n = some d → d.expr = .seq (front ++ (x, mn, mx) :: back) → mx ≠ 1 → WFirst W x t →
      WFollow x (!W.tight n) (some t)

/-- What may come behind the items of the sequence `n` that are in front of the given ones. -/
inductive WNext : N → List (N × Int × Int) → Bool → Option Rune → Prop
  | here {n : N} {x : N} {mn mx : Int} {items : List (N × Int × Int)} {t : Rune} :
      WFirst W x t → WNext n ((x, mn, mx) :: items) (!W.tight n) (some t)
  | skip {n : N} {x : N} {mn mx : Int} {items : List (N × Int × Int)} {g : Bool} {c : Option Rune} :
      mn ≤ 0 → WNext n items g c → WNext n ((x, mn, mx) :: items) (g || !W.tight n) c
  | done {n : N} {g : Bool} {c : Option Rune} : WFollow n g c → WNext n [] g c

end

/-- The definition matches single characters. -/
inductive Single : N → Prop
  | char {n : N} {d : GDef N} {neg : Bool} {chars : List Rune} {ranges : List (Rune × Rune)} :
      W.G n = some d → d.expr = .char neg chars ranges → Single n
  | choice {n : N} {d : GDef N} {os : List N} :
      W.G n = some d → d.expr = .choice os → (∀ o ∈ os, Single o) → Single n
  | seq {n : N} {d : GDef N} {x : N} :
      W.G n = some d → d.expr = .seq [(x, 1, 1)] → Single x → Single n

/-- The next character that is not whitespace decides which option of a choice to take, and whether there is another occurrence of
an item. -/
structure WLL1 : Prop where
  /-- the whitespace consists of single characters -/
  spaces : ∀ w ∈ W.ws, w ≠ W.root ∧ Single W w
  /-- the root is not used by the definitions -/
  top : ∀ {n d}, W.G n = some d → W.root ∉ d.expr.refs
  /-- every sequence has an item that cannot be omitted; where whitespace is allowed, the first one -/
  solid : ∀ {n d items}, W.G n = some d → d.expr = .seq items → ∃ x ∈ items, 0 < x.2.1
  leads : ∀ {n d x mn mx items}, W.G n = some d → d.expr = .seq ((x, mn, mx) :: items) → W.tight n = false → 0 < mn
  /-- two options do not start with the same character -/
  options : ∀ {n d os o o' t}, W.G n = some d → d.expr = .choice os → o ∈ os → o' ∈ os → o' ≠ o → WFirst W o t → ¬ WFirst W o' t
  /-- an item whose number of occurrences may vary does not start like what may come behind it -/
  items : ∀ {n d front x mn mx back t g}, W.G n = some d → d.expr = .seq (front ++ (x, mn, mx) :: back) → ¬ (0 < mx ∧ mx ≤ mn) →
    WFirst W x t → ¬ WNext W n back g (some t)
  /-- nor like whitespace, if whitespace may come behind it -/
  ends : ∀ {n d front x mn mx back t c}, W.G n = some d → d.expr = .seq (front ++ (x, mn, mx) :: back) → ¬ (0 < mx ∧ mx ≤ mn) →
    W.tight n = true → WFirst W x t → WNext W n back true c → ¬ SpaceChar W t
  /-- where whitespace is allowed between the items, what may come behind such an item does not start like whitespace -/
  after : ∀ {n d front x mn mx back t g}, W.G n = some d → d.expr = .seq (front ++ (x, mn, mx) :: back) → ¬ (0 < mx ∧ mx ≤ mn) →
    W.tight n = false → WNext W n back g (some t) → ¬ SpaceChar W t
  /-- what comes behind whitespace does not start like whitespace -/
  gaps : ∀ {n t}, WFollow W n true (some t) → ¬ SpaceChar W t
  begins : ∀ {t}, WFirst W W.root t → ¬ SpaceChar W t

end

end Treerack.Spec
