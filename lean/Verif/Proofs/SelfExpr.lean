import Verif.Proofs.SelfTokens

/-
The parsers of syntax documents read expressions.
-/

namespace Treerack
open Spec

namespace SelfG

variable {input : List Rune} {i j k : Nat} {s t r : List Rune} {c : Rune} {p q : Ptr}

/-! ### What can follow an expression -/

/-- Layout, and then the end, or one of these characters. -/
def Follow (cs : List Rune) (s : List Rune) : Prop := ∃ s', Lay s' s ∧ Heads (fun c => cs.contains c) s'

theorem Follow.heads {cs : List Rune} {P : Rune → Bool} (h : Follow cs s) (hP : ∀ c, isInner c = true → P c = true) (hc : ∀ c, cs.contains c = true → P c = true) :
    Heads P s := by
  obtain ⟨s', h1, h2⟩ := h
  cases h1 with
  | done => exact h2.mono hc
  | space hs => exact Heads.cons (hP _ (isInner_space hs))
  | line => exact Heads.cons (hP _ (by decide))
  | block => exact Heads.cons (hP _ (by decide))

/-- `)`, `;` and `|` -/
abbrev optionEnd : List Rune := [41, 59, 124]
/-- `)` and `;` -/
abbrev exprEnd : List Rune := [41, 59]

theorem Follow.weaken (h : Follow exprEnd s) : Follow optionEnd s := by
  obtain ⟨s', h1, h2⟩ := h
  exact ⟨s', h1, h2.mono (ascii_imp (Ascii.contains (by decide)) (Ascii.contains (by decide)) (by decide +kernel))⟩

theorem Follow.symbol (h : Follow optionEnd s) : Heads (fun c => !isSymbolChar c) s :=
  h.heads (ascii_imp (Ascii.contains (by decide)) ascii_symbol.not (by decide +kernel)) (ascii_imp (Ascii.contains (by decide)) ascii_symbol.not (by decide +kernel))

/-- `{`, `+`, `*` and `?` -/
def startsQuantifier (c : Rune) : Bool := [123, 43, 42, 63].contains c

theorem Follow.quantifier (h : Follow optionEnd s) : Heads (fun c => !startsQuantifier c) s :=
  h.heads (ascii_imp (Ascii.contains (by decide)) (Ascii.contains (by decide)).not (by decide +kernel))
    (ascii_imp (Ascii.contains (by decide)) (Ascii.contains (by decide)).not (by decide +kernel))

/-- After the layout there is nothing of this kind. -/
theorem Follow.read {cs : List Rune} (h : Follow cs s) (hcs : (cs.all fun c => decide (c < 128)) = true)
    (ho : ((List.range 129).all fun c => !cs.contains c || !isInner c) = true) (ha : At input i s) :
    ∃ j ns s', Star input 194 i j ns ∧ At input j s' ∧ Comments ns ∧ Heads (fun c => cs.contains c) s' := by
  obtain ⟨s', h1, h2⟩ := h
  obtain ⟨j, ns, a, b, c⟩ := lay h1 (h2.mono (ascii_imp (Ascii.contains hcs) ascii_outer ho)) ha
  exact ⟨j, ns, s', a, b, c, h2⟩

theorem Follow.noItem (h : Follow optionEnd s) (ha : At input i s) : RS input 125 i none := by
  obtain ⟨j, ns, s', a, b, _, d⟩ := h.read (by decide) (by decide +kernel) ha
  exact RS.seqNone g125 (IS.star (m := none) (by decide) a (IS.fail (RS.not (Ascii.contains (by decide)) (ps := [124]) (by decide +kernel) b d (by simp) (by decide))) (by decide))

theorem Follow.noOption (h : Follow exprEnd s) (ha : At input i s) : RS input 131 i none := by
  obtain ⟨j, ns, s', a, b, _, d⟩ := h.read (by decide) (by decide +kernel) ha
  exact RS.seqNone g131 (IS.star (m := none) (by decide) a (IS.fail (RS.not (Ascii.contains (by decide)) (ps := [130]) (by decide +kernel) b d (by simp) (by decide))) (by decide))

theorem Follow.layout {g : List Rune} {cs : List Rune} (hg : Layout g) (hc : cs.contains c = true) : Follow cs (g ++ c :: s) :=
  ⟨c :: s, lay_of hg _, Heads.cons hc⟩

/-! ### How expressions start -/

theorem symbol_outer (c : Rune) (h : isSymbolChar c = true) : (!isInner c) = true :=
  ascii_imp ascii_symbol ascii_outer (by decide +kernel) c h

/-- Non-empty texts that do not start with whitespace or a comment. -/
def Starts (t : List Rune) : Prop := ∃ c r, t = c :: r ∧ (!isInner c) = true ∧ (!startsQuantifier c) = true

theorem Starts.append {u : List Rune} (h : Starts t) : Starts (t ++ u) := by
  obtain ⟨c, r, rfl, hc⟩ := h
  exact ⟨c, r ++ u, rfl, hc⟩

theorem Starts.outer (h : Starts t) : Outer (t ++ s) := by
  obtain ⟨c, r, rfl, hc⟩ := h
  exact Heads.cons hc.1

theorem Starts.quantifier (h : Starts t) : Heads (fun c => !startsQuantifier c) (t ++ s) := by
  obtain ⟨c, r, rfl, hc⟩ := h
  exact Heads.cons hc.2

theorem Starts.length (h : Starts t) : 0 < t.length := by
  obtain ⟨c, r, rfl, hc⟩ := h
  simp

theorem primary_starts {e : DExpr} (h : WrittenPrimary e t) : Starts t := by
  cases h with
  | any => exact ⟨_, _, rfl, by decide⟩
  | class_ => exact ⟨_, _, rfl, by decide⟩
  | classNot => exact ⟨_, _, rfl, by decide⟩
  | chars => exact ⟨_, _, rfl, by decide⟩
  | group => exact ⟨_, _, rfl, by decide⟩
  | symbol h =>
    cases t with
    | nil => exact absurd rfl h.nonEmpty
    | cons c t =>
      have hc := h.chars c List.mem_cons_self
      exact ⟨c, t, rfl, symbol_outer c hc, ascii_imp ascii_symbol (Ascii.contains (by decide)).not (by decide +kernel) c hc⟩

theorem item_starts {e : DExpr} {q : Option Quantifier} (h : WrittenItem e q t) : Starts t := by
  cases h with
  | once h => exact primary_starts h
  | many h => exact (primary_starts h).append

theorem items_starts {items : DItems} (h : WrittenItems items t) : Starts t := by
  cases h with
  | one h => exact item_starts h
  | cons h => exact (item_starts h).append.append

theorem option_starts {e : DExpr} (h : WrittenOption e t) : Starts t := by
  cases h with
  | primary h => exact primary_starts h
  | seq h => exact items_starts h

theorem options_starts {os : DOptions} (h : WrittenOptions os t) : Starts t := by
  cases h with
  | one h => exact option_starts h
  | cons h => exact (option_starts h).append.append.append

theorem expr_starts {e : DExpr} (h : WrittenExpr e t) : Starts t := by
  cases h with
  | option h => exact option_starts h
  | choice h => exact (option_starts h).append.append.append

/-! ### Expressions -/

/-- Where a symbol ends, the text does not continue with a further character of symbols. -/
def Apart (t s : List Rune) : Prop := ∀ c, t.getLast? = some c → isSymbolChar c = true → Heads (fun c => !isSymbolChar c) s

theorem Apart.append {u : List Rune} (hu : u ≠ []) (h : Apart (t ++ u) s) : Apart u s := by
  intro c hc
  exact h c (by rw [List.getLast?_append, hc]; rfl)

theorem Follow.apart (h : Follow optionEnd s) : Apart t s := fun _ _ _ => h.symbol

/-- The node stands for the expression. -/
def Expresses (ns : List Node) (e : DExpr) : Prop := ∃ n, core ns = [n] ∧ ExprNode n e

theorem expr_name {n : Node} {e : DExpr} (h : ExprNode n e) : n.name ≠ runes "comment" := by
  cases h with
  | any h => rw [h]; decide
  | class_ h => rw [h]; decide
  | classNot h => rw [h]; decide
  | chars h => rw [h]; decide
  | symbol h => rw [h]; decide
  | seq h => rw [h]; decide
  | choice h => rw [h]; decide

theorem Expresses.one {n : Node} {e : DExpr} (h : ExprNode n e) : Expresses [n] e := ⟨n, core_one (expr_name h), h⟩

/-- The parsers of characters, symbols and groups. -/
theorem primaries {o : Ptr} {m : Match} (hn : never (is c) ([89, 92, 97].filter (· != o)) = true) (hc : decide (c < 128) = true)
    (ho : [89, 92, 97].contains o = true) (h : At input i (c :: s)) (hm : RS input o i m) : OS input [89, 92, 97] i m :=
  OS.pickChar hc hn (by decide) h ho hm

theorem terminals {o : Ptr} {m : Match} (hn : never (is c) ([56, 75, 88].filter (· != o)) = true) (hc : decide (c < 128) = true)
    (ho : [56, 75, 88].contains o = true) (h : At input i (c :: s)) (hm : RS input o i m) : RS input 89 i m :=
  RS.choiceAlias g89 (OS.pickChar hc hn (by decide) h ho hm)

theorem item_once {ns : List Node} (h1 : OS input [89, 92, 97] i (some (j, ns))) (h2 : At input j s) (hq : Heads (fun c => !startsQuantifier c) s) :
    RS input 124 i (some (j, [Node.mk (runes "item") i j input (ns ++ [])])) :=
  RS.seq g124 (IS.one (RS.choiceAlias g123 h1) (by decide)
    (IS.skip (RS.not (Ascii.contains (by decide)).not (ps := [122]) (by decide +kernel) h2 hq (by simp) (by decide)) IS.end_))

mutual

theorem primary {e : DExpr} {t s : List Rune} {i : Nat} : WrittenPrimary e t → Apart t s → At input i (t ++ s) →
    ∃ j ns, OS input [89, 92, 97] i (some (j, ns)) ∧ At input j s ∧ Expresses ns e
  | .any, _, h => ⟨i + 1, _, primaries (by decide +kernel) (by decide) (by decide) h (terminals (o := 56) (by decide +kernel) (by decide) (by decide) h
      (RS.singleNode g56 g55 (by decide) h (by decide))), h.next, .one (.any rfl)⟩
  | .class_ (t := t') hm, _, h => by
    have h : At input i (91 :: t' ++ 93 :: s) := by simpa using h
    obtain ⟨j, n, h1, h2, _, h4⟩ := charClass hm h
    exact ⟨j, [n], primaries (by decide +kernel) (by decide) (by decide) h (terminals (o := 75) (by decide +kernel) (by decide) (by decide) h h1), h2, .one h4⟩
  | .classNot (t := t') hm, _, h => by
    have h : At input i (91 :: 94 :: t' ++ 93 :: s) := by simpa using h
    obtain ⟨j, n, h1, h2, _, h4⟩ := charClassNot hm h
    exact ⟨j, [n], primaries (by decide +kernel) (by decide) (by decide) h (terminals (o := 75) (by decide +kernel) (by decide) (by decide) h h1), h2, .one h4⟩
  | .chars (t := t') hm, _, h => by
    have h : At input i (34 :: t' ++ 34 :: s) := by simpa using h
    obtain ⟨j, n, h1, h2, _, h4⟩ := charSequence hm h
    exact ⟨j, [n], primaries (by decide +kernel) (by decide) (by decide) h (terminals (o := 88) (by decide +kernel) (by decide) (by decide) h h1), h2, .one h4⟩
  | .symbol hw, ha, h => by
    have hs : Heads (fun c => !isSymbolChar c) s := by
      cases hl : t.getLast? with
      | none => exact absurd (List.getLast?_eq_none_iff.1 hl) hw.nonEmpty
      | some c => exact ha c hl (hw.chars c (List.mem_of_getLast? hl))
    obtain ⟨j, n, h1, h2, h3, h4⟩ := symbol hw hs h
    refine ⟨j, [n], OS.pick (o := 92) ascii_symbol (by decide +kernel) (by decide) h ?_ (by decide) h1, h2, .one (.symbol h3 h4)⟩
    cases t with
    | nil => exact absurd rfl hw.nonEmpty
    | cons c t => exact Heads.cons (hw.chars c List.mem_cons_self)
  | .group (g := g) (t := t') (g' := g') hg hw hg', _, h => by
    have h : At input i (40 :: (g ++ (t' ++ (g' ++ 41 :: s)))) := by simpa using h
    obtain ⟨j1, c1, a1, a2, a3⟩ := layout hg (expr_starts hw).outer h.next
    obtain ⟨j2, ns, b1, b2, n, b3, b4⟩ := expr hw (Follow.layout hg' (by decide)) a2
    obtain ⟨j3, c2, d1, d2, d3⟩ := layout hg' (outer_cons (by decide)) b2
    refine ⟨j3 + 1, _, primaries (by decide +kernel) (by decide) (by decide) h (RS.seqAlias (p := 97) g97 (IS.one (RS.lit g94 g93 (by decide) h (by decide)) (by decide)
      (IS.star (by decide) a1 (IS.one b1 (by decide) (IS.star (by decide) d1 (IS.one (RS.lit g96 g95 (by decide) d2 (by decide)) (by decide) IS.end_) (by decide))) (by decide)))),
      d2.next, n, ?_, b4⟩
    simp [core_append, a3.core, d3.core, b3]

theorem item {e : DExpr} {q : Option Quantifier} {t s : List Rune} {i : Nat} : WrittenItem e q t → Apart t s → (q = none → Heads (fun c => !startsQuantifier c) s) →
    At input i (t ++ s) →
    ∃ j n, RS input 124 i (some (j, [n])) ∧ At input j s ∧ n.name = runes "item" ∧ (∀ ns rest, ItemNodes ns rest → ItemNodes (n :: ns) (.cons e q rest)) ∧
      ∃ j0 ns0, OS input [89, 92, 97] i (some (j0, ns0)) ∧ j0 ≤ j ∧ (q.isSome = true → j0 < j)
  | .once hw, ha, hq, h => by
    obtain ⟨j, ns, h1, h2, n, h3, h4⟩ := primary hw ha h
    refine ⟨j, _, item_once h1 h2 (hq rfl), h2, rfl, ?_,
      j, ns, h1, Nat.le_refl _, fun h => by cases h⟩
    intro ms rest hr
    refine .once ?_ h4 hr
    rw [content_mk]
    simpa using h3
  | .many (t := t') (u := u) hw hu, ha, _, h => by
    rw [List.append_assoc] at h
    have hap : Apart t' (u ++ s) := by
      intro _ _ _
      cases hu <;> exact Heads.cons (by decide)
    obtain ⟨j0, ns, h1, h2, n, h3, h4⟩ := primary hw hap h
    obtain ⟨j, x, k1, k2, k3, k4⟩ := quantifier hu h2
    refine ⟨j, _, RS.seq g124 (IS.one (RS.choiceAlias g123 h1) (by decide) (IS.one k1 (by decide) IS.end_)), k2, rfl, ?_,
      j0, ns, h1, Nat.le_of_lt (RS.lt (by decide) k1), fun _ => RS.lt (by decide) k1⟩
    intro ms rest hr
    refine .many ?_ h4 k4 hr
    rw [content_mk]
    simp [core_append, h3, core_one k3]

theorem items {its : DItems} {t s : List Rune} {i : Nat} : WrittenItems its t → Follow optionEnd s → At input i (t ++ s) →
    ∃ k j n ns, RS input 124 i (some (k, [n])) ∧ Star input 125 k j ns ∧ At input j s ∧ n.name = runes "item" ∧ ItemNodes (n :: core ns) its ∧
      ∃ j0 ns0, OS input [89, 92, 97] i (some (j0, ns0)) ∧ (its.Several → j0 < j)
  | .one (q := q) hw, hf, h => by
    obtain ⟨j, n, h1, h2, h3, h4, j0, ns0, h5, h6, h7⟩ := item hw hf.apart (fun _ => hf.quantifier) h
    refine ⟨j, j, n, [], h1, .stop (hf.noItem h2), h2, h3, h4 _ _ .nil, j0, ns0, h5, fun hs => ?_⟩
    cases q with
    | none => exact absurd hs (by simp [DItems.Several])
    | some q => exact h7 rfl
  | .cons (t := t') (g := g) (u := u) hw hg hu hm, hf, h => by
    have h : At input i (t' ++ (g ++ (u ++ s))) := by simpa using h
    have hst := items_starts hu
    have hap : Apart t' (g ++ (u ++ s)) := by
      intro c hc hsy
      have hin : ∀ c, isInner c = true → (!isSymbolChar c) = true := ascii_imp (Ascii.contains (by decide)) ascii_symbol.not (by decide +kernel)
      cases hg with
      | nil =>
        obtain ⟨d, r, rfl, _⟩ := hst
        refine Heads.cons ?_
        cases hd : isSymbolChar d with
        | false => rfl
        | true => exact absurd ⟨⟨c, hc, hsy⟩, d, rfl, hd⟩ (hm rfl)
      | space hc => exact Heads.cons (hin _ (isInner_space hc))
      | line => exact Heads.cons (hin _ (by decide))
      | block => exact Heads.cons (hin _ (by decide))
    obtain ⟨k, n, h1, h2, h3, h4, j0, ns0, h5, h6, h7⟩ := item hw hap (fun _ => layout_heads hg
      (ascii_imp (Ascii.contains (by decide)) (Ascii.contains (by decide)).not (by decide +kernel)) hst.quantifier) h
    obtain ⟨j1, c1, a1, a2, a3⟩ := layout hg hst.outer h2
    obtain ⟨k', j, n', ns', b1, b2, b3, b4, b5, _⟩ := items hu hf a2
    have h125 : RS input 125 k (some (k', c1 ++ [n'])) := by
      have := RS.seqAlias g125 (IS.star (by decide) a1 (IS.one b1 (by decide) IS.end_) (by decide))
      simpa [prepend] using this
    refine ⟨k, j, n, _, h1, Star.step h125 b2, b3, h3, h4 _ _ ?_, j0, ns0, h5, fun _ => ?_⟩
    · rw [core_append, core_append, a3.core, core_one (by rw [b4]; decide)]
      exact b5
    · have := RS.lt (by decide) h125
      have := h2.len; have := b3.len
      have := hst.length
      simp only [List.length_append] at *
      omega

theorem option {e : DExpr} {t s : List Rune} {i : Nat} : WrittenOption e t → Follow optionEnd s → At input i (t ++ s) →
    ∃ j ns, OS input [89, 92, 97, 126] i (some (j, ns)) ∧ At input j s ∧ Expresses ns e
  | .primary hw, hf, h => by
    obtain ⟨j, ns, h1, h2, h3⟩ := primary hw hf.apart h
    have h126 := RS.seq g126 (IS.one (item_once h1 h2 hf.quantifier) (by decide) (IS.star (by decide) (Star.stop (hf.noItem h2)) IS.end_ (by decide)))
    have := OS.append h1 (OS.one h126)
    rw [better_left (show ¬ ((j, ns) : Nat × List Node).1 < j from Nat.lt_irrefl _)] at this
    exact ⟨j, ns, this, h2, h3⟩
  | .seq hw hsev, hf, h => by
    obtain ⟨k, j, n, ns, h1, h2, h3, h4, h5, j0, ns0, h6, h7⟩ := items hw hf h
    have h126 := RS.seq g126 (IS.one h1 (by decide) (IS.star (by decide) h2 IS.end_ (by decide)))
    have := OS.append h6 (OS.one h126)
    rw [better_right (h7 hsev)] at this
    refine ⟨j, _, this, h3, .one (.seq rfl ?_)⟩
    rw [content_mk]
    have : core ([n] ++ (ns ++ [])) = n :: core ns := by rw [List.append_nil]; exact core_cons (by rw [h4]; decide)
    exact this ▸ h5

theorem options {os : DOptions} {t s : List Rune} {i : Nat} : WrittenOptions os t → Follow exprEnd s → At input i (t ++ s) →
    ∃ k j ns ms, RS input 127 i (some (k, ns)) ∧ Star input 131 k j ms ∧ At input j s ∧ OptionNodes (core (ns ++ ms)) os
  | .one hw, hf, h => by
    obtain ⟨j, ns, h1, h2, n, h3, h4⟩ := option hw hf.weaken h
    refine ⟨j, j, ns, [], RS.choiceAlias g127 h1, .stop (hf.noOption h2), h2, ?_⟩
    rw [List.append_nil, h3]
    exact .cons h4 .nil
  | .cons (t := t') (g := g) (g' := g') (u := u) hw hg hg' hu, hf, h => by
    have h : At input i (t' ++ (g ++ 124 :: (g' ++ (u ++ s)))) := by simpa using h
    obtain ⟨j, ns, h1, h2, n, h3, h4⟩ := option hw (Follow.layout hg (by decide)) h
    obtain ⟨j1, c1, a1, a2, a3⟩ := layout hg (outer_cons (by decide)) h2
    obtain ⟨j2, c2, b1, b2, b3⟩ := layout hg' (options_starts hu).outer a2.next
    obtain ⟨k', j', ns', ms', d1, d2, d3, d4⟩ := options hu hf b2
    have h131 := RS.seqAlias g131 (IS.star (by decide) a1 (IS.one (RS.seqAlias g130 (IS.one (RS.lit g129 g128 (by decide) a2 (by decide)) (by decide)
      (IS.star (by decide) b1 (IS.one d1 (by decide) IS.end_) (by decide)))) (by decide) IS.end_) (by decide))
    refine ⟨j, j', ns, _, RS.choiceAlias g127 h1, Star.step h131 d2, d3, ?_⟩
    have : core (ns ++ (c1 ++ (([] ++ (c2 ++ (ns' ++ []))) ++ []) ++ ms')) = n :: core (ns' ++ ms') := by
      simp [core_append, a3.core, b3.core, h3]
    exact this ▸ .cons h4 d4

theorem expr {e : DExpr} {t s : List Rune} {i : Nat} : WrittenExpr e t → Follow exprEnd s → At input i (t ++ s) →
    ∃ j ns, RS input 133 i (some (j, ns)) ∧ At input j s ∧ Expresses ns e
  | .option hw, hf, h => by
    obtain ⟨j, ns, h1, h2, h3⟩ := option hw hf.weaken h
    refine ⟨j, ns, RS.choiceAlias g133 (OS.append (m' := none) h1 (OS.one ?_)), h2, h3⟩
    obtain ⟨j', c, s', a1, a2, _, a4⟩ := hf.read (by decide) (by decide +kernel) h2
    exact RS.seqNone g132 (IS.one (m := none) (RS.choiceAlias g127 h1) (by decide) (IS.star (m := none) (by decide) a1
      (IS.fail (RS.not (Ascii.contains (by decide)) (ps := [130]) (by decide +kernel) a2 a4 (by simp) (by decide))) (by decide)))
  | .choice (t := t') (g := g) (g' := g') (u := u) hw hg hg' hu, hf, h => by
    have h : At input i (t' ++ (g ++ 124 :: (g' ++ (u ++ s)))) := by simpa using h
    obtain ⟨j, ns, h1, h2, n, h3, h4⟩ := option hw (Follow.layout hg (by decide)) h
    obtain ⟨j1, c1, a1, a2, a3⟩ := layout hg (outer_cons (by decide)) h2
    obtain ⟨j2, c2, b1, b2, b3⟩ := layout hg' (options_starts hu).outer a2.next
    obtain ⟨k', j', ns', ms', d1, d2, d3, d4⟩ := options hu hf b2
    have h132 := RS.seq g132 (IS.one (RS.choiceAlias g127 h1) (by decide) (IS.star (by decide) a1 (IS.one (RS.seqAlias g130 (IS.one (RS.lit g129 g128 (by decide) a2 (by decide)) (by decide)
      (IS.star (by decide) b1 (IS.one d1 (by decide) IS.end_) (by decide)))) (by decide) (IS.star (by decide) d2 IS.end_ (by decide))) (by decide)))
    have hlt : j < j' := by
      have := h2.len; have := d3.len
      have := (options_starts hu).length
      simp only [List.length_append, List.length_cons] at *
      omega
    have := OS.append h1 (OS.one h132)
    rw [better_right hlt] at this
    refine ⟨j', _, RS.choiceAlias g133 this, d3, .one (.choice rfl ?_)⟩
    rw [content_mk]
    have : core (ns ++ (c1 ++ (([] ++ (c2 ++ (ns' ++ []))) ++ (ms' ++ [])))) = n :: core (ns' ++ ms') := by
      simp [core_append, a3.core, b3.core, h3]
    exact this ▸ .cons h4 d4

end

end SelfG
end Treerack
