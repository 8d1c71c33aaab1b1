import Verif.Spec.Written
import Verif.Spec.Conditions

/-
The symbols in the documents that are written as texts are without colons.
-/

namespace Treerack
open Spec

theorem WrittenSymbol.noColon {t : List Rune} (h : WrittenSymbol t) : NoColon t := by
  intro hc
  have := h.chars _ hc
  revert this
  decide

mutual

theorem WrittenPrimary.symbols : ∀ {e : DExpr} {t : List Rune}, WrittenPrimary e t → ∀ m ∈ e.symbols, NoColon m
  | _, _, .any, m, hm => by simp [DExpr.symbols] at hm
  | _, _, .class_ _, m, hm => by simp [DExpr.symbols] at hm
  | _, _, .classNot _, m, hm => by simp [DExpr.symbols] at hm
  | _, _, .chars _, m, hm => by simp [DExpr.symbols] at hm
  | _, _, .symbol h, m, hm => by
    simp only [DExpr.symbols, List.mem_singleton] at hm
    subst hm
    exact WrittenSymbol.noColon h
  | _, _, .group _ h _, m, hm => WrittenExpr.symbols h m hm

theorem WrittenItem.symbols : ∀ {e : DExpr} {q : Option Quantifier} {t : List Rune}, WrittenItem e q t → ∀ m ∈ e.symbols, NoColon m
  | _, _, _, .once h, m, hm => WrittenPrimary.symbols h m hm
  | _, _, _, .many h _, m, hm => WrittenPrimary.symbols h m hm

theorem WrittenItems.symbols : ∀ {items : DItems} {t : List Rune}, WrittenItems items t → ∀ m ∈ items.symbols, NoColon m
  | _, _, .one h, m, hm => by
    simp only [DItems.symbols, List.append_nil] at hm
    exact WrittenItem.symbols h m hm
  | _, _, .cons h _ h' _, m, hm => by
    simp only [DItems.symbols, List.mem_append] at hm
    rcases hm with hm | hm
    · exact WrittenItem.symbols h m hm
    · exact WrittenItems.symbols h' m hm

theorem WrittenOption.symbols : ∀ {e : DExpr} {t : List Rune}, WrittenOption e t → ∀ m ∈ e.symbols, NoColon m
  | _, _, .primary h, m, hm => WrittenPrimary.symbols h m hm
  | _, _, .seq h _, m, hm => WrittenItems.symbols h m hm

theorem WrittenOptions.symbols : ∀ {os : DOptions} {t : List Rune}, WrittenOptions os t → ∀ m ∈ os.symbols, NoColon m
  | _, _, .one h, m, hm => by
    simp only [DOptions.symbols, List.append_nil] at hm
    exact WrittenOption.symbols h m hm
  | _, _, .cons h _ _ h', m, hm => by
    simp only [DOptions.symbols, List.mem_append] at hm
    rcases hm with hm | hm
    · exact WrittenOption.symbols h m hm
    · exact WrittenOptions.symbols h' m hm

theorem WrittenExpr.symbols : ∀ {e : DExpr} {t : List Rune}, WrittenExpr e t → ∀ m ∈ e.symbols, NoColon m
  | _, _, .option h, m, hm => WrittenOption.symbols h m hm
  | _, _, .choice h _ _ h', m, hm => by
    simp only [DExpr.symbols, DOptions.symbols, List.mem_append] at hm
    rcases hm with hm | hm
    · exact WrittenOption.symbols h m hm
    · exact WrittenOptions.symbols h' m hm

end

theorem WrittenDefinitions.symbols : ∀ {doc : Document} {t : List Rune}, WrittenDefinitions doc t → PlainSymbols doc
  | _, _, .one (.mk h _ _ _ he), d, hd => by
    obtain rfl := List.mem_singleton.1 hd
    exact ⟨WrittenSymbol.noColon h, WrittenExpr.symbols he⟩
  | _, _, .cons (.mk h _ _ _ he) _ hs, d, hd => by
    rcases List.mem_cons.1 hd with rfl | hd
    · exact ⟨WrittenSymbol.noColon h, WrittenExpr.symbols he⟩
    · exact WrittenDefinitions.symbols hs d hd

theorem WrittenDocument.symbols {doc : Document} {t : List Rune} (h : WrittenDocument doc t) : PlainSymbols doc := by
  cases h with
  | empty => intro d hd; cases hd
  | definitions _ h => exact WrittenDefinitions.symbols h

end Treerack
