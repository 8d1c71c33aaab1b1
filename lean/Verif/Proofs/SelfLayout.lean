import Verif.Proofs.SelfKit
import Verif.Spec.Written

/-
The parsers of syntax documents read whitespace and comments.
-/

namespace Treerack
open Spec

namespace SelfG

variable {input : List Rune} {i j k : Nat} {s t r : List Rune} {c : Rune} {p q : Ptr}

/-- One option is selected by the next character. -/
theorem OS.pick {o : Ptr} {os : List Ptr} {P : Rune → Bool} {m : Match} (hc : Ascii P) (hn : never P (os.filter (· != o)) = true)
    (ho : os.all ordinary = true) (h : At input i s) (hs : Heads P s) (hmem : os.contains o = true) (hm : RS input o i m) : OS input os i m :=
  OS.only (List.contains_iff_mem.1 hmem) hm fun x hx hne =>
    RS.not hc hn h hs (List.mem_filter.2 ⟨hx, by simpa using hne⟩) (List.all_eq_true.1 ho x hx)

/-- Exactly one character. -/
abbrev is (c : Rune) : Rune → Bool := fun x => [c].contains x

theorem Heads.is : Heads (is c) (c :: s) := Heads.cons (by simp [SelfG.is])

theorem ascii_is (h : decide (c < 128) = true) : Ascii (is c) := Ascii.contains (by simpa using h)

/-- A character fails at another one. -/
theorem RS.notChar (hc : decide (c < 128) = true) (hn : never (is c) [p] = true) (h : At input i (c :: s)) (ho : ordinary p = true) :
    RS input p i none :=
  RS.not (ascii_is hc) hn h Heads.is (List.mem_singleton.2 rfl) ho

theorem OS.pickChar {o : Ptr} {os : List Ptr} {m : Match} (hc : decide (c < 128) = true) (hn : never (is c) (os.filter (· != o)) = true)
    (ho : os.all ordinary = true) (h : At input i (c :: s)) (hmem : os.contains o = true) (hm : RS input o i m) : OS input os i m :=
  OS.pick (ascii_is hc) hn ho h Heads.is hmem hm

/-! ### Spaces -/

theorem isSpace_cases (h : isSpace c = true) : c = 32 ∨ c = 9 ∨ c = 10 ∨ c = 8 ∨ c = 12 ∨ c = 13 ∨ c = 11 := by
  simpa [isSpace, List.contains_cons] using h

theorem space15 (h : At input i (c :: s)) (hc : isSpace c = true) : RS input 15 i (some (i + 1, [])) := by
  rcases isSpace_cases hc with rfl | rfl | rfl | rfl | rfl | rfl | rfl
  · exact RS.choiceAlias g15 (OS.pickChar (o := 2) (by decide) (by decide +kernel) (by decide) h (by decide) (RS.single g2 g1 (by decide) h (by decide)))
  · exact RS.choiceAlias g15 (OS.pickChar (o := 4) (by decide) (by decide +kernel) (by decide) h (by decide) (RS.single g4 g3 (by decide) h (by decide)))
  · exact RS.choiceAlias g15 (OS.pickChar (o := 6) (by decide) (by decide +kernel) (by decide) h (by decide) (RS.single g6 g5 (by decide) h (by decide)))
  · exact RS.choiceAlias g15 (OS.pickChar (o := 8) (by decide) (by decide +kernel) (by decide) h (by decide) (RS.single g8 g7 (by decide) h (by decide)))
  · exact RS.choiceAlias g15 (OS.pickChar (o := 10) (by decide) (by decide +kernel) (by decide) h (by decide) (RS.single g10 g9 (by decide) h (by decide)))
  · exact RS.choiceAlias g15 (OS.pickChar (o := 12) (by decide) (by decide +kernel) (by decide) h (by decide) (RS.single g12 g11 (by decide) h (by decide)))
  · exact RS.choiceAlias g15 (OS.pickChar (o := 14) (by decide) (by decide +kernel) (by decide) h (by decide) (RS.single g14 g13 (by decide) h (by decide)))

theorem space50 (h : At input i (c :: s)) (hc : isSpace c = true) (hn : c ≠ 10) : RS input 50 i (some (i + 1, [])) := by
  rcases isSpace_cases hc with rfl | rfl | rfl | rfl | rfl | rfl | rfl
  · exact RS.choiceAlias g50 (OS.pickChar (o := 39) (by decide) (by decide +kernel) (by decide) h (by decide) (RS.single g39 g38 (by decide) h (by decide)))
  · exact RS.choiceAlias g50 (OS.pickChar (o := 41) (by decide) (by decide +kernel) (by decide) h (by decide) (RS.single g41 g40 (by decide) h (by decide)))
  · exact absurd rfl hn
  · exact RS.choiceAlias g50 (OS.pickChar (o := 43) (by decide) (by decide +kernel) (by decide) h (by decide) (RS.single g43 g42 (by decide) h (by decide)))
  · exact RS.choiceAlias g50 (OS.pickChar (o := 45) (by decide) (by decide +kernel) (by decide) h (by decide) (RS.single g45 g44 (by decide) h (by decide)))
  · exact RS.choiceAlias g50 (OS.pickChar (o := 47) (by decide) (by decide +kernel) (by decide) h (by decide) (RS.single g47 g46 (by decide) h (by decide)))
  · exact RS.choiceAlias g50 (OS.pickChar (o := 49) (by decide) (by decide +kernel) (by decide) h (by decide) (RS.single g49 g48 (by decide) h (by decide)))

theorem space194 (h : At input i (c :: s)) (hc : isSpace c = true) : RS input 194 i (some (i + 1, [])) := by
  refine RS.choiceAlias g194 (OS.only (o := 193) (by simp) ?_ fun x hx hne => absurd (by simpa using hx) hne)
  refine RS.choiceAlias g193 (OS.pick (o := 15) (P := isSpace) (Ascii.contains (by decide)) (by decide +kernel) (by decide) h (Heads.cons hc) (by decide)
    (space15 h hc))

/-! ### Comments -/

/-- Texts that consist of whitespace and comments, up to the rest `s`. -/
inductive Lay (s : List Rune) : List Rune → Prop
  | done : Lay s s
  | space {c : Rune} {r : List Rune} : isSpace c = true → Lay s r → Lay s (c :: r)
  | line {b r : List Rune} : 10 ∉ b → Heads (is 10) r → Lay s r → Lay s (47 :: 47 :: (b ++ r))
  | block {b r : List Rune} : CommentBody b → Lay s r → Lay s (47 :: 42 :: (b ++ 42 :: 47 :: r))

theorem lay_of {g : List Rune} (h : Layout g) (s : List Rune) : Lay s (g ++ s) := by
  induction h with
  | nil => exact .done
  | space hc _ ih => exact .space hc ih
  | @line b g hb _ ih =>
    have := Lay.line hb Heads.is (.space (c := 10) (by decide) ih)
    simpa using this
  | @block b g hb _ ih =>
    have := Lay.block hb ih
    simpa using this

theorem lay_last {e : List Rune} (h : LastComment e) : Lay [] e := by
  cases h with
  | none => exact .done
  | line hb => have := Lay.line hb Heads.nil .done; simpa using this

theorem Lay.trans (h : Lay s r) (h' : Lay t s) : Lay t r := by
  induction h with
  | done => exact h'
  | space hc _ ih => exact .space hc ih
  | line hb hh _ ih => exact .line hb hh ih
  | block hb _ ih => exact .block hb ih

/-- The rest does not continue with whitespace or comments. -/
def isInner (c : Rune) : Bool := [32, 9, 10, 8, 12, 13, 11, 47].contains c

abbrev Outer (s : List Rune) : Prop := Heads (fun c => !isInner c) s

theorem ascii_outer : Ascii fun c => !isInner c := (Ascii.contains (by decide)).not

theorem isInner_space (h : isSpace c = true) : isInner c = true := by
  rcases isSpace_cases h with rfl | rfl | rfl | rfl | rfl | rfl | rfl <;> rfl

theorem lineChars : ∀ {b : List Rune} {i : Nat}, 10 ∉ b → Heads (is 10) r → At input i (b ++ r) →
    ∃ j, Star input 35 i j [] ∧ At input j r := by
  intro b
  induction b with
  | nil => exact fun {i} _ hr h => ⟨i, .stop (RS.not (ascii_is (by decide)) (ps := [35]) (by decide +kernel) h hr (by simp) (by decide)), h⟩
  | cons x b ih =>
    intro i hb hr h
    obtain ⟨j, h1, h2⟩ := ih (fun hm => hb (List.mem_cons_of_mem _ hm)) hr h.next
    have hx : x ≠ 10 := fun he => hb (by simp [he])
    refine ⟨j, ?_, h2⟩
    exact Star.step (ns := []) (RS.single g35 g34 (by decide) h (by simp [matchChar, hx.symm])) h1

theorem star26 (h : At input i (42 :: 47 :: r)) : RS input 26 i none := by
  refine RS.choiceAlias g26 (OS.pickChar (o := 23) (by decide) (by decide +kernel) (by decide) h (by decide) ?_)
  refine RS.seqNone g23 ?_
  have := IS.one (mn := 1) (RS.single g20 g19 (by decide) h (by decide)) (by decide) (IS.fail (mx := 1) (items := []) (RS.singleNone g22 g21 h.next (by decide)))
  exact this

theorem blockChars {b : List Rune} (hb : CommentBody b) : ∀ {i : Nat}, At input i (b ++ 42 :: 47 :: r) →
    ∃ j, Star input 26 i j [] ∧ At input j (42 :: 47 :: r) := by
  induction hb with
  | nil => exact fun {i} h => ⟨i, .stop (star26 h), h⟩
  | @char c b hc _ ih =>
    intro i h
    obtain ⟨j, h1, h2⟩ := ih h.next
    refine ⟨j, Star.step (ns := []) ?_ h1, h2⟩
    refine RS.choiceAlias g26 (OS.only (o := 25) (by simp) (RS.single g25 g24 (by decide) h (by simp [matchChar, Ne.symm hc])) ?_)
    intro x hx hne
    obtain rfl : x = 23 := by simpa [hne] using hx
    exact RS.seqNone g23 (IS.fail (RS.singleNone g20 g19 h (by simp [matchChar, Ne.symm hc])))
  | @star c b hc _ ih =>
    intro i h
    obtain ⟨j, h1, h2⟩ := ih h.next.next
    refine ⟨j, Star.step (ns := []) (k := i + 1 + 1) ?_ h1, h2⟩
    refine RS.choiceAlias g26 (OS.pickChar (o := 23) (by decide) (by decide +kernel) (by decide) h (by decide) ?_)
    exact RS.seqAlias g23 (IS.one (RS.single g20 g19 (by decide) h (by decide)) (by decide)
      (IS.one (RS.single g22 g21 (by decide) h.next (by simp [matchChar, Ne.symm hc])) (by decide) IS.end_))

/-- A comment segment. -/
theorem segment (hl : Lay s r) (hs : Outer s) (hr : Heads (is 47) r) (hne : r ≠ []) (h : At input i r) :
    ∃ j r', RS input 37 i (some (j, [])) ∧ At input j r' ∧ Lay s r' ∧ r'.length < r.length := by
  cases hl with
  | done =>
    exfalso
    cases s with
    | nil => exact hne rfl
    | cons x s =>
      have h1 := hs x rfl
      have h2 := hr x rfl
      have : x = 47 := by simpa [is] using h2
      subst this
      cases h1
  | @space c r hc _ =>
    have h2 := hr c rfl
    have : c = 47 := by simpa [is] using h2
    subst this
    cases hc
  | @line b r hb hh hl =>
    obtain ⟨j, h1, h2⟩ := lineChars hb hh h.next.next
    refine ⟨j, r, ?_, h2, hl, by simp only [List.length_cons, List.length_append]; omega⟩
    refine RS.choiceAlias g37 (OS.only (o := 36) (by simp) ?_ ?_)
    · exact RS.seqAlias g36 (IS.one (RS.seqAlias g33 (IS.one (RS.char g31 h (by decide)) (by decide) (IS.one (RS.char g32 h.next (by decide)) (by decide) IS.end_)))
        (by decide) (IS.star (by decide) h1 IS.end_ (by decide)))
    · intro x hx hne
      obtain rfl : x = 30 := by simpa [hne] using hx
      refine RS.seqNone g30 (IS.fail (RS.seqNone g18 ?_))
      exact IS.one (m := none) (RS.char g16 h (by decide)) (by decide) (IS.fail (RS.noChar g17 h.next (by decide)))
  | @block b r hb hl =>
    obtain ⟨j, h1, h2⟩ := blockChars hb h.next.next
    refine ⟨j + 1 + 1, r, ?_, h2.next.next, hl, by simp only [List.length_cons, List.length_append]; omega⟩
    refine RS.choiceAlias g37 (OS.only (o := 30) (by simp) ?_ ?_)
    · exact RS.seqAlias g30 (IS.one (RS.seqAlias g18 (IS.one (RS.char g16 h (by decide)) (by decide) (IS.one (RS.char g17 h.next (by decide)) (by decide) IS.end_)))
        (by decide) (IS.star (by decide) h1 (IS.one (RS.seqAlias g29 (IS.one (RS.char g27 h2 (by decide)) (by decide)
          (IS.one (RS.char g28 h2.next (by decide)) (by decide) IS.end_))) (by decide) IS.end_) (by decide)))
    · intro x hx hne
      obtain rfl : x = 36 := by simpa [hne] using hx
      refine RS.seqNone g36 (IS.fail (RS.seqNone g33 ?_))
      exact IS.one (m := none) (RS.char g31 h (by decide)) (by decide) (IS.fail (RS.noChar g32 h.next (by decide)))

/-- The characters behind which there is no further space in the same line. -/
def stop50 (c : Rune) : Bool := ![32, 9, 8, 12, 13, 11].contains c

theorem spaces (hl : Lay s r) (hs : Outer s) : ∀ {i : Nat}, At input i r →
    ∃ j r', Star input 50 i j [] ∧ At input j r' ∧ Lay s r' ∧ r'.length ≤ r.length ∧ Heads stop50 r' := by
  have fin : ∀ {i : Nat} {r : List Rune}, Lay s r → At input i r → Heads stop50 r →
      ∃ j r', Star input 50 i j [] ∧ At input j r' ∧ Lay s r' ∧ r'.length ≤ r.length ∧ Heads stop50 r' := fun {i} {r} hl h hr =>
    ⟨i, r, .stop (RS.not ((Ascii.contains (by decide)).not) (ps := [50]) (by decide +kernel) h hr (by simp) (by decide)), h, hl, Nat.le_refl _, hr⟩
  induction hl with
  | done =>
    intro i h
    refine fin .done h (hs.mono fun c hc => ?_)
    simp only [isInner, stop50, Bool.not_eq_true', List.contains_cons, List.contains_nil, Bool.or_eq_false_iff, beq_eq_false_iff_ne] at hc ⊢
    simp [hc]
  | @space c r hc hl ih =>
    intro i h
    by_cases hn : c = 10
    · subst hn
      exact fin (.space hc hl) h (Heads.cons (by decide))
    · obtain ⟨j, r', h1, h2, h3, h4, h5⟩ := ih h.next
      exact ⟨j, r', Star.step (ns := []) (space50 h hc hn) h1, h2, h3, by simp only [List.length_cons]; omega, h5⟩
  | line hb hh hl => exact fun h => fin (.line hb hh hl) h (Heads.cons (by decide))
  | block hb hl => exact fun h => fin (.block hb hl) h (Heads.cons (by decide))

theorem newLine (hl : Lay s r) (hs : Outer s) (h : At input i r) :
    ∃ j r', (∀ {items m}, IS input items 0 j m → IS input ((52, 0, 1) :: items) 0 i m) ∧
      At input j r' ∧ Lay s r' ∧ r'.length ≤ r.length := by
  by_cases hh : Heads (fun c => !is 10 c) r
  · exact ⟨i, r, fun hi => IS.skip (RS.not (ascii_is (by decide)).not (ps := [52]) (by decide +kernel) h hh (by simp) (by decide)) hi, h, hl, Nat.le_refl _⟩
  · cases r with
    | nil => exact absurd Heads.nil hh
    | cons c r =>
      by_cases hc : c = 10
      · subst hc
        have hn : Lay s r := by
          cases hl with
          | done => exact absurd (hs 10 rfl) (by decide)
          | space _ hl => exact hl
        exact ⟨i + 1, r, fun hi => by
          have := IS.one (mn := 0) (RS.single g52 g51 (by decide) h (by decide)) (by decide) hi
          rwa [prepend_nil] at this, h.next, hn, by simp⟩
      · exact absurd (Heads.cons (by simpa [is] using hc)) hh

/-- The further segments of a comment. -/
theorem segments (hs : Outer s) : ∀ (n : Nat) {r : List Rune} {i : Nat}, r.length ≤ n → Lay s r → At input i r →
    ∃ j r', Star input 53 i j [] ∧ At input j r' ∧ Lay s r' ∧ r'.length ≤ r.length := by
  intro n
  induction n with
  | zero =>
    intro r i hn hl h
    cases r with
    | cons x r => simp at hn
    | nil => exact ⟨i, [], .stop (RS.not (ascii_is (c := 0) (by decide)) (ps := [53]) (by decide +kernel) h Heads.nil (by simp) (by decide)), h, hl, Nat.le_refl _⟩
  | succ n ih =>
    intro r i hn hl h
    obtain ⟨j1, r1, a1, a2, a3, a4, _⟩ := spaces hl hs h
    obtain ⟨j2, r2, b1, b2, b3, b4⟩ := newLine a3 hs a2
    obtain ⟨j3, r3, c1, c2, c3, c4, _⟩ := spaces b3 hs b2
    have key : ∀ {m}, RS input 37 j3 m → RS input 53 i m := fun {m} hm => by
      refine RS.seqAlias g53 ?_
      have e : IS input [(37, 1, 1)] 0 j3 m := by
        cases m with
        | none => exact IS.fail hm
        | some x =>
          have := IS.one (mn := 1) hm (by decide) IS.end_
          simpa [prepend] using this
      have := IS.star (mn := 0) (by decide) a1 (b1 (IS.star (mn := 0) (by decide) c1 e (by decide))) (k := 0) (by decide)
      rwa [prepend_nil, prepend_nil] at this
    by_cases hh : Heads (fun c => !is 47 c) r3
    · exact ⟨i, r, .stop (key (RS.not (ascii_is (by decide)).not (ps := [37]) (by decide +kernel) c2 hh (by simp) (by decide))), h, hl, Nat.le_refl _⟩
    · have h47 : Heads (is 47) r3 ∧ r3 ≠ [] := by
        cases r3 with
        | nil => exact absurd Heads.nil hh
        | cons c r3 =>
          by_cases hc : c = 47
          · subst hc; exact ⟨Heads.is, by simp⟩
          · exact absurd (Heads.cons (by simpa [is] using hc)) hh
      obtain ⟨j4, r4, d1, d2, d3, d4⟩ := segment c3 hs h47.1 h47.2 c2
      obtain ⟨j5, r5, e1, e2, e3, e4⟩ := ih (by omega) d3 d2
      exact ⟨j5, r5, Star.step (ns := []) (key d1) e1, e2, e3, by omega⟩

/-- The nodes are comments. -/
def Comments (ns : List Node) : Prop := ∀ n ∈ ns, n.name = runes "comment"

theorem Comments.nil : Comments [] := fun _ h => by cases h

/-- The nodes other than comments. -/
def core (ns : List Node) : List Node := ns.filter fun m => m.name != runes "comment"

theorem Comments.core {ns : List Node} (h : Comments ns) : core ns = [] := by
  simp only [SelfG.core, List.filter_eq_nil_iff]
  intro n hn
  simp [h n hn]

theorem core_append (ns ms : List Node) : core (ns ++ ms) = core ns ++ core ms := List.filter_append ..

theorem content_mk (n : Name) (i j : Nat) (ns : List Node) : content (Node.mk n i j input ns) = core ns := rfl

/-- Whitespace and comments are read up to the rest. -/
theorem lay_star (hs : Outer s) : ∀ (n : Nat) {r : List Rune} {i : Nat}, r.length ≤ n → Lay s r → At input i r →
    ∃ j ns, Star input 194 i j ns ∧ At input j s ∧ Comments ns := by
  intro n
  induction n with
  | zero =>
    intro r i hn hl h
    cases r with
    | cons x r => simp at hn
    | nil =>
      have : s = [] := by cases hl; rfl
      subst this
      exact ⟨i, [], .stop (RS.not ascii_outer (ps := [194]) (by decide +kernel) h hs (by simp) (by decide)), h, .nil⟩
  | succ n ih =>
    intro r i hn hl h
    have com : Heads (is 47) r → r ≠ [] → ∃ j ns, Star input 194 i j ns ∧ At input j s ∧ Comments ns := by
      intro h47 hne
      obtain ⟨j1, r1, a1, a2, a3, a4⟩ := segment hl hs h47 hne h
      obtain ⟨j2, r2, b1, b2, b3, b4⟩ := segments hs r1.length (Nat.le_refl _) a3 a2
      obtain ⟨j3, ns, c1, c2, c3⟩ := ih (by omega) b3 b2
      refine ⟨j3, _, Star.step (ns := [Node.mk (runes "comment") i j2 input []]) ?_ c1, c2, ?_⟩
      · refine RS.choiceAlias g194 (OS.only (o := 193) (by simp) ?_ fun x hx hne => absurd (by simpa using hx) hne)
        refine RS.choiceAlias g193 (OS.pick (o := 54) (ascii_is (by decide)) (by decide +kernel) (by decide) h h47 (by decide) ?_)
        exact RS.seq g54 (IS.one a1 (by decide) (IS.star (by decide) b1 IS.end_ (by decide)))
      · intro n hn
        rcases List.mem_append.1 hn with hn | hn
        · rw [List.mem_singleton.1 hn]; rfl
        · exact c3 n hn
    cases hl with
    | done => exact ⟨i, [], .stop (RS.not ascii_outer (ps := [194]) (by decide +kernel) h hs (by simp) (by decide)), h, .nil⟩
    | @space c r hc hl =>
      obtain ⟨j, ns, h1, h2, h3⟩ := ih (by simp only [List.length_cons] at hn; omega) hl h.next
      exact ⟨j, ns, Star.step (ns := []) (space194 h hc) h1, h2, h3⟩
    | line => exact com Heads.is (by simp)
    | block => exact com Heads.is (by simp)

theorem lay (hl : Lay s r) (hs : Outer s) (h : At input i r) : ∃ j ns, Star input 194 i j ns ∧ At input j s ∧ Comments ns :=
  lay_star hs r.length (Nat.le_refl _) hl h

theorem layout {g : List Rune} (hg : Layout g) (hs : Outer s) (h : At input i (g ++ s)) :
    ∃ j ns, Star input 194 i j ns ∧ At input j s ∧ Comments ns :=
  lay (lay_of hg s) hs h

end SelfG
end Treerack
