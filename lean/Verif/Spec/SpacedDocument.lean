import Verif.Spec.Document

/-
Specification: which texts the definitions of a document with whitespace definitions stand for.  This is `Means`
(Spec/Document.lean) with whitespace between the items of the sequences: in every sequence, except for the ones in
definitions marked `nows`, and for the outer sequence of a definition marked `ws`.  The root definition includes the
whitespace around it.
-/

namespace Treerack.Spec

/-- The definition is the root of the document. -/
def IsRoot (doc : Document) (d : DDef) : Prop := (docRoot doc).map DDef.name = some d.name

mutual

/-- A definition stands for the texts of its expression; the root also for the whitespace around it. -/
inductive DefWs (doc : Document) (input : List Rune) : DDef → Nat → Nat → Prop
  | def_ {d : DDef} {i j : Nat} : d ∈ doc → ¬ IsRoot doc d →
      MeansWs doc input (d.flags.noWhitespace || d.flags.whitespace) d.flags.noWhitespace d.expr i j → DefWs doc input d i j
  | root {d : DDef} {i a b j : Nat} : d ∈ doc → IsRoot doc d → GapWs doc input i a →
      MeansWs doc input (d.flags.noWhitespace || d.flags.whitespace) d.flags.noWhitespace d.expr a b → GapWs doc input b j →
      DefWs doc input d i j

/-- `MeansWs doc input tight inner e i j`: the part of the input from `i` to `j` is one of the texts the expression stands
for, without whitespace between the items of the outer sequence when `tight`, and of the inner ones when `inner`. -/
inductive MeansWs (doc : Document) (input : List Rune) : Bool → Bool → DExpr → Nat → Nat → Prop
  | any {tight inner : Bool} {i : Nat} {t : Rune} : input[i]? = some t → MeansWs doc input tight inner .any i (i + 1)
  | class_ {tight inner : Bool} {neg : Bool} {cs : List Rune} {rs : List (Rune × Rune)} {i : Nat} {t : Rune} :
      input[i]? = some t → InClass neg cs rs t → MeansWs doc input tight inner (.class_ neg cs rs) i (i + 1)
  | chars {tight inner : Bool} {cs : List Rune} {i : Nat} : (input.drop i).take cs.length = cs →
      MeansWs doc input tight inner (.chars cs) i (i + cs.length)
  | symbol {tight inner : Bool} {d : DDef} {i j : Nat} : DefWs doc input d i j → MeansWs doc input tight inner (.symbol d.name) i j
  | tight {inner : Bool} {items : DItems} {i j : Nat} : TightWs doc input inner items i j → MeansWs doc input true inner (.seq items) i j
  | loose {inner : Bool} {items : DItems} {i j : Nat} : LooseWs doc input inner true items i j →
      MeansWs doc input false inner (.seq items) i j
  | choice {tight inner : Bool} {os : DOptions} {i j : Nat} : OptionsWs doc input inner os i j →
      MeansWs doc input tight inner (.choice os) i j

/-- Any number of whitespace definitions. -/
inductive GapWs (doc : Document) (input : List Rune) : Nat → Nat → Prop
  | nil {i : Nat} : GapWs doc input i i
  | cons {d : DDef} {i m j : Nat} : GapWs doc input i m → d.flags.whitespace = true → DefWs doc input d m j → GapWs doc input i j

/-- Items without whitespace. -/
inductive TightWs (doc : Document) (input : List Rune) : Bool → DItems → Nat → Nat → Prop
  | nil {inner : Bool} {i : Nat} : TightWs doc input inner .nil i i
  | cons {inner : Bool} {e : DExpr} {q : Option Quantifier} {rest : DItems} {k i m j : Nat} :
      TimesWs doc input inner e k i m → allowed q k → TightWs doc input inner rest m j → TightWs doc input inner (.cons e q rest) i j

inductive TimesWs (doc : Document) (input : List Rune) : Bool → DExpr → Nat → Nat → Nat → Prop
  | zero {inner : Bool} {e : DExpr} {i : Nat} : TimesWs doc input inner e 0 i i
  | succ {inner : Bool} {e : DExpr} {k i m j : Nat} : TimesWs doc input inner e k i m → MeansWs doc input inner inner e m j →
      TimesWs doc input inner e (k + 1) i j

/-- Items with whitespace between them; the flag tells that these are all the items of the sequence, from the first on. -/
inductive LooseWs (doc : Document) (input : List Rune) : Bool → Bool → DItems → Nat → Nat → Prop
  | nil {inner first : Bool} {i : Nat} : LooseWs doc input inner first .nil i i
  | cons {inner first : Bool} {e : DExpr} {q : Option Quantifier} {rest : DItems} {k i m j : Nat} :
      OccWs doc input inner first e k i m → allowed q k → LooseWs doc input inner false rest m j →
      LooseWs doc input inner first (.cons e q rest) i j
  /-- whitespace is also allowed where an optional item could be, but is not -/
  | absent {inner : Bool} {e : DExpr} {q : Option Quantifier} {rest : DItems} {i m j : Nat} :
      allowed q 0 → allowed q 1 → ¬ allowed q 2 → GapWs doc input i m → LooseWs doc input inner false rest m j →
      LooseWs doc input inner false (.cons e q rest) i j

/-- `k` occurrences, with whitespace before each of them, except before the very first one of the sequence. -/
inductive OccWs (doc : Document) (input : List Rune) : Bool → Bool → DExpr → Nat → Nat → Nat → Prop
  | zero {inner first : Bool} {e : DExpr} {i : Nat} : OccWs doc input inner first e 0 i i
  | first {inner : Bool} {e : DExpr} {i j : Nat} : MeansWs doc input inner inner e i j → OccWs doc input inner true e 1 i j
  | succ {inner first : Bool} {e : DExpr} {k i a b j : Nat} : OccWs doc input inner first e k i a → (first = true → 0 < k) →
      GapWs doc input a b → MeansWs doc input inner inner e b j → OccWs doc input inner first e (k + 1) i j

inductive OptionsWs (doc : Document) (input : List Rune) : Bool → DOptions → Nat → Nat → Prop
  | here {inner : Bool} {e : DExpr} {rest : DOptions} {i j : Nat} : MeansWs doc input inner inner e i j →
      OptionsWs doc input inner (.cons e rest) i j
  | there {inner : Bool} {e : DExpr} {rest : DOptions} {i j : Nat} : OptionsWs doc input inner rest i j →
      OptionsWs doc input inner (.cons e rest) i j

end

end Treerack.Spec
