import Verif.Proofs.FormatDocument
import Verif.Spec.FormatWs

/-
The text made by `format` and the whitespace.
-/

namespace Treerack
open Spec

theorem AlikeItems.len_one {g : Bool} {a b : DItems} (h : AlikeItems g a b) : DItems.One a ↔ DItems.One b := by
  cases h with
  | nil => exact Iff.rfl
  | cons _ _ hr => cases hr <;> exact Iff.rfl
  | splice _ _ _ hr => cases hr <;> exact Iff.rfl

theorem Shape.uneven {e : DExpr} {t : List Rune} (h : Shape false e t) (hs : ¬ e.Single) : ∃ e', WrittenExpr e' t ∧ Uneven e' e := by
  have plain : (∃ e', WrittenPrimary e' t ∧ Alike false e' e ∧ DExpr.NotSeq e') → DExpr.NotSeq e → ∃ e', WrittenExpr e' t ∧ Uneven e' e := by
    rintro ⟨e', h1, h2, h3⟩ hn
    exact ⟨e', .option (.primary h1), Alike.uneven h2 h3 hn⟩
  cases e with
  | seq items =>
    obtain ⟨items', h1, h2, -⟩ := h
    have h3 := AlikeItems.len_one h2
    refine ⟨.seq items', .option (.seq h1 ?_), AlikeItems.uneven h2⟩
    have hne : ¬ DItems.One items := by
      intro ho
      match items, ho with
      | .cons _ _ .nil, _ => exact hs trivial
    obtain ⟨e1, q1, rest, rfl⟩ := WrittenItems.cons_form h1
    cases rest with
    | nil => exact absurd (h3.1 trivial) hne
    | cons _ _ _ => trivial
  | choice os =>
    obtain ⟨os', h1, h2, h3⟩ := h
    exact ⟨_, options_expr h1 h3, Alike.uneven (.choice h2) trivial trivial⟩
  | any => exact plain h trivial
  | class_ neg cs rs => exact plain h trivial
  | chars cs => exact plain h trivial
  | symbol m => exact plain h trivial

theorem Uneven.sameWs {a b : DExpr} (h : Uneven a b) (flags : Commit) : SameWs flags a b := fun doc input i j => h doc input _ _ i j

theorem Even.sameWs {a b : DExpr} (h : Even a b) {flags : Commit} (hf : flags.whitespace = false ∨ flags.noWhitespace = true) :
    SameWs flags a b := by
  intro doc input i j
  have : (flags.noWhitespace || flags.whitespace) = flags.noWhitespace := by
    rcases hf with hf | hf <;> simp [hf]
  rw [this]
  exact h doc input _ i j

/-! ### Documents -/

theorem SameDocumentWs.symm {a b : Document} (h : SameDocumentWs a b) : SameDocumentWs b a := by
  induction h with
  | nil => exact .nil
  | cons h1 h2 h3 _ ih => exact .cons h1.symm h2.symm (h2 ▸ fun doc input i j => (h3 doc input i j).symm) ih

theorem SameDocumentWs.mem {a b : Document} (h : SameDocumentWs a b) {d : DDef} (hd : d ∈ a) :
    ∃ d' ∈ b, d.name = d'.name ∧ d.flags = d'.flags ∧ SameWs d.flags d.expr d'.expr := by
  induction h with
  | nil => cases hd
  | cons h1 h2 h3 _ ih =>
    rcases List.mem_cons.1 hd with rfl | hd
    · exact ⟨_, List.mem_cons_self .., h1, h2, h3⟩
    · obtain ⟨d', h4, h5⟩ := ih hd
      exact ⟨d', List.mem_cons_of_mem _ h4, h5⟩

theorem SameDocumentWs.roots {a b : Document} (h : SameDocumentWs a b) :
    ((a.filter fun d => d.flags.root).head?).map DDef.name = ((b.filter fun d => d.flags.root).head?).map DDef.name := by
  induction h with
  | nil => rfl
  | @cons d d' doc doc' h1 h2 _ _ ih =>
    rw [List.filter_cons, List.filter_cons, ← h2]
    split
    · simp [h1]
    · exact ih

theorem SameDocumentWs.names {a b : Document} (h : SameDocumentWs a b) : a.map DDef.name = b.map DDef.name := by
  induction h with
  | nil => rfl
  | cons h1 _ _ _ ih => rw [List.map_cons, List.map_cons, h1, ih]

theorem SameDocumentWs.root {a b : Document} (h : SameDocumentWs a b) : (docRoot a).map DDef.name = (docRoot b).map DDef.name := by
  have h1 := SameDocumentWs.roots h
  have h2 : (a.getLast?).map DDef.name = (b.getLast?).map DDef.name := by
    rw [← List.getLast?_map, ← List.getLast?_map, SameDocumentWs.names h]
  unfold docRoot
  cases ha : (a.filter fun d => d.flags.root).head? <;> cases hb : (b.filter fun d => d.flags.root).head? <;> rw [ha, hb] at h1
  · exact h2
  · cases h1
  · cases h1
  · exact h1

section
variable {a b : Document} (h : SameDocumentWs a b) {input : List Rune}
include h

mutual

theorem DefWs.document : ∀ {d : DDef} {i j : Nat}, DefWs a input d i j →
    ∃ d' ∈ b, d.name = d'.name ∧ d.flags = d'.flags ∧ DefWs b input d' i j
  | _, _, _, .def_ (d := d) hd hr hm => by
    obtain ⟨d', h1, h2, h3, h4⟩ := SameDocumentWs.mem h hd
    refine ⟨d', h1, h2, h3, .def_ h1 ?_ ?_⟩
    · unfold IsRoot at hr ⊢
      rwa [← SameDocumentWs.root h, ← h2]
    · have := (h4 b input _ _).1 (MeansWs.document hm)
      rwa [h3] at this
  | _, _, _, .root (d := d) hd hr hg hm hg' => by
    obtain ⟨d', h1, h2, h3, h4⟩ := SameDocumentWs.mem h hd
    refine ⟨d', h1, h2, h3, .root h1 ?_ (GapWs.document hg) ?_ (GapWs.document hg')⟩
    · unfold IsRoot at hr ⊢
      rwa [← SameDocumentWs.root h, ← h2]
    · have := (h4 b input _ _).1 (MeansWs.document hm)
      rwa [h3] at this

theorem MeansWs.document : ∀ {tight inner : Bool} {e : DExpr} {i j : Nat}, MeansWs a input tight inner e i j →
    MeansWs b input tight inner e i j
  | _, _, _, _, _, .any h1 => .any h1
  | _, _, _, _, _, .class_ h1 h2 => .class_ h1 h2
  | _, _, _, _, _, .chars h1 => .chars h1
  | _, _, _, _, _, .symbol h1 => by
    obtain ⟨d', -, h2, -, h3⟩ := DefWs.document h1
    rw [h2]
    exact .symbol h3
  | _, _, _, _, _, .tight h1 => .tight (TightWs.document h1)
  | _, _, _, _, _, .loose h1 => .loose (LooseWs.document h1)
  | _, _, _, _, _, .choice h1 => .choice (OptionsWs.document h1)

theorem GapWs.document : ∀ {i j : Nat}, GapWs a input i j → GapWs b input i j
  | _, _, .nil => .nil
  | _, _, .cons h1 h2 h3 => by
    obtain ⟨d', -, -, h4, h5⟩ := DefWs.document h3
    exact .cons (GapWs.document h1) (h4 ▸ h2) h5

theorem TightWs.document : ∀ {inner : Bool} {items : DItems} {i j : Nat}, TightWs a input inner items i j →
    TightWs b input inner items i j
  | _, _, _, _, .nil => .nil
  | _, _, _, _, .cons h1 h2 h3 => .cons (TimesWs.document h1) h2 (TightWs.document h3)

theorem TimesWs.document : ∀ {inner : Bool} {e : DExpr} {k i j : Nat}, TimesWs a input inner e k i j → TimesWs b input inner e k i j
  | _, _, _, _, _, .zero => .zero
  | _, _, _, _, _, .succ h1 h2 => .succ (TimesWs.document h1) (MeansWs.document h2)

theorem LooseWs.document : ∀ {inner first : Bool} {items : DItems} {i j : Nat}, LooseWs a input inner first items i j →
    LooseWs b input inner first items i j
  | _, _, _, _, _, .nil => .nil
  | _, _, _, _, _, .cons h1 h2 h3 => .cons (OccWs.document h1) h2 (LooseWs.document h3)
  | _, _, _, _, _, .absent h1 h2 h3 h4 h5 => .absent h1 h2 h3 (GapWs.document h4) (LooseWs.document h5)

theorem OccWs.document : ∀ {inner first : Bool} {e : DExpr} {k i j : Nat}, OccWs a input inner first e k i j →
    OccWs b input inner first e k i j
  | _, _, _, _, _, _, .zero => .zero
  | _, _, _, _, _, _, .first h1 => .first (MeansWs.document h1)
  | _, _, _, _, _, _, .succ h1 h2 h3 h4 => .succ (OccWs.document h1) h2 (GapWs.document h3) (MeansWs.document h4)

theorem OptionsWs.document : ∀ {inner : Bool} {os : DOptions} {i j : Nat}, OptionsWs a input inner os i j →
    OptionsWs b input inner os i j
  | _, _, _, _, .here h1 => .here (MeansWs.document h1)
  | _, _, _, _, .there h1 => .there (OptionsWs.document h1)

end

end

end Treerack
