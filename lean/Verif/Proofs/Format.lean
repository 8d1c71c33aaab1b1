import Verif.Proofs.FormatFaces
import Verif.Proofs.FormatText

/-
The text made by `format` for a definition of a document is a notation of an expression with the same meaning.
-/

namespace Treerack
open Spec

/-! ### The expressions that can be written -/

/-- A choice has several options. -/
def DOptions.Several : DOptions → Prop
  | .cons _ (.cons _ _) => True
  | _ => False

mutual
def DExpr.Proper : DExpr → Prop
  | .symbol m => WrittenSymbol m
  | .seq items => items.Several ∧ DItems.Proper items
  | .choice os => DOptions.Several os ∧ DOptions.Proper os
  | _ => True
def DItems.Proper : DItems → Prop
  | .nil => True
  | .cons e _ rest => DExpr.Proper e ∧ DItems.Proper rest
def DOptions.Proper : DOptions → Prop
  | .nil => True
  | .cons e rest => DExpr.Proper e ∧ DOptions.Proper rest
end

theorem WrittenOptions.cons_form {os : DOptions} {t : List Rune} (h : WrittenOptions os t) : ∃ e rest, os = .cons e rest := by
  cases h <;> exact ⟨_, _, rfl⟩

theorem WrittenItems.cons_form {items : DItems} {t : List Rune} (h : WrittenItems items t) : ∃ e q rest, items = .cons e q rest := by
  cases h <;> exact ⟨_, _, _, rfl⟩

mutual

theorem WrittenPrimary.proper : ∀ {e : DExpr} {t : List Rune}, WrittenPrimary e t → DExpr.Proper e
  | _, _, .any => trivial
  | _, _, .class_ _ => trivial
  | _, _, .classNot _ => trivial
  | _, _, .chars _ => trivial
  | _, _, .symbol h => h
  | _, _, .group _ h _ => WrittenExpr.proper h

theorem WrittenItem.proper : ∀ {e : DExpr} {q : Option Quantifier} {t : List Rune}, WrittenItem e q t → DExpr.Proper e
  | _, _, _, .once h => WrittenPrimary.proper h
  | _, _, _, .many h _ => WrittenPrimary.proper h

theorem WrittenItems.proper : ∀ {items : DItems} {t : List Rune}, WrittenItems items t → DItems.Proper items
  | _, _, .one h => ⟨WrittenItem.proper h, trivial⟩
  | _, _, .cons h _ h' _ => ⟨WrittenItem.proper h, WrittenItems.proper h'⟩

theorem WrittenOption.proper : ∀ {e : DExpr} {t : List Rune}, WrittenOption e t → DExpr.Proper e
  | _, _, .primary h => WrittenPrimary.proper h
  | _, _, .seq h hs => ⟨hs, WrittenItems.proper h⟩

theorem WrittenOptions.proper : ∀ {os : DOptions} {t : List Rune}, WrittenOptions os t → DOptions.Proper os
  | _, _, .one h => ⟨WrittenOption.proper h, trivial⟩
  | _, _, .cons h _ _ h' => ⟨WrittenOption.proper h, WrittenOptions.proper h'⟩

theorem WrittenExpr.proper : ∀ {e : DExpr} {t : List Rune}, WrittenExpr e t → DExpr.Proper e
  | _, _, .option h => WrittenOption.proper h
  | _, _, .choice h _ _ h' => ⟨by obtain ⟨_, _, rfl⟩ := WrittenOptions.cons_form h'; trivial, WrittenOption.proper h, WrittenOptions.proper h'⟩

end

/-! ### Texts of expressions -/

def DItems.One : DItems → Prop
  | .cons _ _ .nil => True
  | _ => False

/-- What `format` returns for an expression. -/
def Shape (b : Bool) : DExpr → List Rune → Prop
  | .seq items, t => ∃ items', WrittenItems items' t ∧ AlikeItems b items' items ∧ (DItems.One items → DItems.One items')
  | .choice os, t => ∃ os', WrittenOptions os' t ∧ AlikeOptions b os' os ∧ DOptions.Several os'
  | e, t => ∃ e', WrittenPrimary e' t ∧ Alike b e' e ∧ DExpr.NotSeq e'

/-- Not a sequence and not a choice. -/
def DExpr.Plain : DExpr → Prop
  | .seq _ => False
  | .choice _ => False
  | _ => True

theorem Shape.plain {b : Bool} {e : DExpr} {t : List Rune} (h : Shape b e t) (hp : DExpr.Plain e) :
    ∃ e', WrittenPrimary e' t ∧ Alike b e' e ∧ DExpr.NotSeq e' := by
  cases e <;> first | exact hp.elim | exact h

theorem shape_plain {b : Bool} {e e' : DExpr} {t : List Rune} (hp : DExpr.Plain e) (h : WrittenPrimary e' t) (hs : Alike b e' e) (hn : DExpr.NotSeq e') : Shape b e t := by
  cases e <;> first | exact hp.elim | exact ⟨e', h, hs, hn⟩

theorem items_option {b : Bool} {items : DItems} {t : List Rune} (h : WrittenItems items t) : ∃ e, WrittenOption e t ∧ Alike b e (.seq items) := by
  cases h with
  | one h =>
    cases h with
    | once h => exact ⟨_, .primary h, .symm (.once _)⟩
    | many h h' => exact ⟨_, .seq (.one (.many h h')) trivial, .refl _⟩
  | cons h hg h' hm =>
    refine ⟨_, .seq (.cons h hg h' hm) ?_, .refl _⟩
    obtain ⟨_, _, _, rfl⟩ := WrittenItems.cons_form h'
    trivial

theorem Shape.option {b : Bool} {e : DExpr} {t : List Rune} (h : Shape b e t) (hp : ∀ os, e ≠ .choice os) : ∃ e', WrittenOption e' t ∧ Alike b e' e := by
  cases e with
  | seq items =>
    obtain ⟨items', h1, h2, -⟩ := h
    obtain ⟨e', h3, h4⟩ := items_option h1
    exact ⟨e', h3, .trans h4 (.seq h2)⟩
  | choice os => exact absurd rfl (hp os)
  | any => obtain ⟨e', h1, h2, -⟩ := h; exact ⟨e', .primary h1, h2⟩
  | class_ neg cs rs => obtain ⟨e', h1, h2, -⟩ := h; exact ⟨e', .primary h1, h2⟩
  | chars cs => obtain ⟨e', h1, h2, -⟩ := h; exact ⟨e', .primary h1, h2⟩
  | symbol m => obtain ⟨e', h1, h2, -⟩ := h; exact ⟨e', .primary h1, h2⟩

theorem options_expr {os : DOptions} {t : List Rune} (h : WrittenOptions os t) (hs : DOptions.Several os) : WrittenExpr (.choice os) t := by
  cases h with
  | one h => exact hs.elim
  | cons h hg hg' h' => exact .choice h hg hg' h'

theorem Shape.expr {b : Bool} {e : DExpr} {t : List Rune} (h : Shape b e t) : ∃ e', WrittenExpr e' t ∧ Alike b e' e := by
  by_cases hc : ∃ os, e = .choice os
  · obtain ⟨os, rfl⟩ := hc
    obtain ⟨os', h1, h2, h3⟩ := h
    exact ⟨_, options_expr h1 h3, .choice h2⟩
  · obtain ⟨e', h1, h2⟩ := Shape.option h fun os ho => hc ⟨os, ho⟩
    exact ⟨e', .option h1, h2⟩

/-- Does the member of a sequence get parentheses? -/
def DExpr.grouped : DExpr → Bool
  | .seq (.cons _ _ (.cons _ _ _)) => true
  | .choice _ => true
  | _ => false

/-- The text of a member of a sequence. -/
theorem Shape.member {b : Bool} {e : DExpr} {t : List Rune} (h : Shape b e t) (hp : DExpr.Proper e) :
    (∃ e', WrittenPrimary e' (if DExpr.grouped e then runes "(" ++ t ++ runes ")" else t) ∧ Alike b e' e) ∨
    (e.Single ∧ DExpr.grouped e = false ∧ ∃ e1 q1, WrittenItem e1 q1 t ∧ Alike b (.seq (.cons e1 q1 .nil)) e) := by
  have group : DExpr.grouped e = true →
      ∃ e', WrittenPrimary e' (if DExpr.grouped e then runes "(" ++ t ++ runes ")" else t) ∧ Alike b e' e := by
    intro hg
    obtain ⟨e', h1, h2⟩ := Shape.expr h
    have := WrittenPrimary.group (g := []) (g' := []) .nil h1 .nil
    rw [hg, if_pos rfl]
    exact ⟨e', by simpa [runes] using this, h2⟩
  match e, h, hp, group with
  | .seq .nil, _, hp, _ => exact hp.1.elim
  | .seq (.cons e q (.cons e' q' rest)), h, hp, group => exact .inl (group rfl)
  | .seq (.cons e q .nil), h, hp, group =>
    right
    obtain ⟨items', h1, h2, h3⟩ := h
    refine ⟨trivial, rfl, ?_⟩
    match items', h1, h2, h3 trivial with
    | .cons e1 q1 .nil, h1, h2, _ =>
      refine ⟨e1, q1, ?_, .seq h2⟩
      clear h
      generalize hx : DItems.cons e1 q1 .nil = x at h1
      cases h1 with
      | one h5 => cases hx; exact h5
      | cons _ _ h5 _ =>
        obtain ⟨_, _, _, rfl⟩ := WrittenItems.cons_form h5
        cases hx
  | .choice os, h, hp, group => exact .inl (group rfl)
  | .any, h, _, _ => obtain ⟨e', h1, h2, -⟩ := h; exact .inl ⟨e', h1, h2⟩
  | .class_ neg cs rs, h, _, _ => obtain ⟨e', h1, h2, -⟩ := h; exact .inl ⟨e', h1, h2⟩
  | .chars cs, h, _, _ => obtain ⟨e', h1, h2, -⟩ := h; exact .inl ⟨e', h1, h2⟩
  | .symbol m, h, _, _ => obtain ⟨e', h1, h2, -⟩ := h; exact .inl ⟨e', h1, h2⟩

theorem WrittenPrimary.ne_nil {e : DExpr} {t : List Rune} (h : WrittenPrimary e t) : t ≠ [] := by
  cases h with
  | symbol h => exact h.nonEmpty
  | _ => simp

theorem WrittenItem.ne_nil {e : DExpr} {q : Option Quantifier} {t : List Rune} (h : WrittenItem e q t) : t ≠ [] := by
  cases h with
  | once h => exact WrittenPrimary.ne_nil h
  | many h _ =>
    intro hc
    exact WrittenPrimary.ne_nil h (List.append_eq_nil_iff.1 hc).1

theorem WrittenItems.ne_nil {items : DItems} {t : List Rune} (h : WrittenItems items t) : t ≠ [] := by
  cases h with
  | one h => exact WrittenItem.ne_nil h
  | cons h _ _ _ => simp [WrittenItem.ne_nil h]

theorem space_layout : Layout [32] := .space rfl .nil

theorem WrittenOptions.append {a b : DOptions} {t u : List Rune} (h : WrittenOptions a t) (h' : WrittenOptions b u) :
    WrittenOptions (DOptions.append a b) (t ++ runes " | " ++ u) := by
  match a, t, h with
  | _, t, .one h =>
    have := WrittenOptions.cons h space_layout space_layout h'
    simpa [runes, DOptions.append] using this
  | _, _, .cons (t := t) (g := g) (g' := g') (u := v) h hg hg' hr =>
    have := WrittenOptions.cons h hg hg' (WrittenOptions.append hr h')
    have e : t ++ g ++ 124 :: g' ++ v ++ runes " | " ++ u = t ++ g ++ 124 :: g' ++ (v ++ runes " | " ++ u) := by simp
    rw [e]
    exact this
termination_by sizeOf a

end Treerack
