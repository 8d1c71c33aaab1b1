import Verif.Proofs.SelfTokens
import Verif.Props.Escape

/-
What a text looks like, when the parsers of syntax documents match it: tools, whitespace and comments.
-/

namespace Treerack
open Spec

namespace SelfG

variable {input : List Rune} {i j k : Nat} {s t r : List Rune} {c : Rune} {p q : Ptr}

/-! ### Parts of the input -/

/-- The text between two positions. -/
structure Span (input : List Rune) (i j : Nat) (t : List Rune) : Prop where
  drop : input.drop i = t ++ input.drop j
  len : i + t.length = j
  le : j ≤ input.length

theorem Span.refl (h : i ≤ input.length) : Span input i i [] := ⟨rfl, rfl, h⟩

theorem Span.one (h : input[i]? = some c) : Span input i (i + 1) [c] := by
  obtain ⟨hi, rfl⟩ := List.getElem?_eq_some_iff.1 h
  exact ⟨by rw [List.drop_eq_getElem_cons hi]; rfl, rfl, hi⟩

theorem Span.trans {t' : List Rune} (h : Span input i j t) (h' : Span input j k t') : Span input i k (t ++ t') :=
  ⟨by rw [h.drop, h'.drop, List.append_assoc], by rw [List.length_append, ← Nat.add_assoc, h.len, h'.len], h'.le⟩

theorem Span.cons (h : input[i]? = some c) (h' : Span input (i + 1) j t) : Span input i j (c :: t) := (Span.one h).trans h'

theorem Span.head (h : Span input i j (c :: t)) : input[i]? = some c := by
  have := congrArg List.head? h.drop
  simpa [List.head?_drop] using this

theorem Span.all (h : Span input 0 input.length t) : t = input := by
  have := h.drop
  simpa using this.symm

theorem Span.lt (h : Span input i j t) (ht : t ≠ []) : i < j := by
  have := h.len
  have : 0 < t.length := List.length_pos_iff.2 ht
  omega

theorem Span.same (h : Span input i i t) : t = [] := by
  have := h.len
  exact List.eq_nil_of_length_eq_zero (by omega)

theorem Span.ge (h : Span input i j t) : i ≤ j := by have := h.len; omega

theorem at_pos (h : i ≤ input.length) : At input i (input.drop i) := ⟨rfl, h⟩

theorem at_head (h : input[i]? = some c) : ∃ s, At input i (c :: s) := by
  obtain ⟨hi, rfl⟩ := List.getElem?_eq_some_iff.1 h
  exact ⟨_, by rw [← List.drop_eq_getElem_cons hi], Nat.le_of_lt hi⟩

/-! ### Matches without their nodes -/

/-- The parser matches the text between the positions. -/
def M (input : List Rune) (p : Ptr) (i j : Nat) : Prop := ∃ ns, RS input p i (some (j, ns))

def IM (input : List Rune) (items : List (Ptr × Int × Int)) (i j : Nat) : Prop := ∃ ns, IS input items 0 i (some (j, ns))

inductive St (input : List Rune) (p : Ptr) : Nat → Nat → Prop
  | stop {i : Nat} : RS input p i none → St input p i i
  | step {i k j : Nat} : M input p i k → St input p k j → St input p i j

theorem M.le (h : M input p i j) : i ≤ j := by
  obtain ⟨ns, h⟩ := h
  exact (h.bounded _ rfl).1

theorem M.lt (h : M input p i j) (ho : ordinary p = true) : i < j ∧ j ≤ input.length := by
  obtain ⟨ns, h⟩ := h
  have h1 := RS.lt ho h
  exact ⟨h1, (h.bounded _ rfl).2 h1⟩

theorem M.seq {n : Name} {al : Bool} {items : List (Ptr × Int × Int)} (h : M input p i j)
    (hg : selfEnv.grammar p = some ⟨n, al, .seq items⟩) : IM input items i j := by
  obtain ⟨ns, h⟩ := h
  generalize hm : (some (j, ns) : Match) = m at h
  cases h with
  | char h1 h2 => rw [hg] at h1; cases h1; cases h2
  | noChar => cases hm
  | choice h1 h2 => rw [hg] at h1; cases h1; cases h2
  | noBase => cases hm
  | grow h1 h2 => rw [hg] at h1; cases h1; cases h2
  | @seq _ _ _ _ m h1 h2 h3 =>
    rw [hg] at h1; cases h1; cases h2
    cases m with
    | none => cases hm
    | some x => simp only [Option.map_some, Option.some.injEq, Prod.mk.injEq] at hm; exact ⟨x.2, by rw [hm.1]; exact h3⟩
  | blocked => cases hm

theorem better_some {a b : Match} {x : Nat × List Node} (h : better a b = some x) : a = some x ∨ b = some x := by
  match a, b with
  | none, _ => exact .inr h
  | some _, none => exact .inl h
  | some y, some z =>
    simp only [better] at h
    split at h
    · exact .inr h
    · exact .inl h

theorem OS.mem : ∀ {os : List Ptr} {m : Match} {x : Nat × List Node}, OS input os i m → m = some x → ∃ o ∈ os, RS input o i (some x)
  | [], _, _, .nil, h => by cases h
  | o :: os, _, x, .cons h1 h2, h => by
    rcases better_some h with h | h
    · exact ⟨o, List.mem_cons_self, h ▸ h1⟩
    · obtain ⟨o', h3, h4⟩ := OS.mem h2 h
      exact ⟨o', List.mem_cons_of_mem _ h3, h4⟩

theorem M.choice {n : Name} {al : Bool} {os : List Ptr} (h : M input p i j)
    (hg : selfEnv.grammar p = some ⟨n, al, .choice os⟩) : ∃ o ∈ os, M input o i j := by
  obtain ⟨ns, h⟩ := h
  generalize hm : (some (j, ns) : Match) = m at h
  cases h with
  | char h1 h2 => rw [hg] at h1; cases h1; cases h2
  | noChar => cases hm
  | @choice _ _ _ _ m h1 h2 _ h3 =>
    rw [hg] at h1; cases h1; cases h2
    cases m with
    | none => cases hm
    | some x =>
      simp only [Option.map_some, Option.some.injEq, Prod.mk.injEq] at hm
      obtain ⟨o, h4, h5⟩ := OS.mem h3 rfl
      exact ⟨o, h4, x.2, by rw [hm.1]; exact h5⟩
  | noBase => cases hm
  | grow _ _ h3 => obtain ⟨x, h3⟩ := h3; exact absurd h3 (self_not_recurs _ _)
  | seq h1 h2 => rw [hg] at h1; cases h1; cases h2
  | blocked => cases hm

theorem M.char {n : Name} {al neg : Bool} {cs : List Rune} {rs : List (Rune × Rune)} (h : M input p i j)
    (hg : selfEnv.grammar p = some ⟨n, al, .char neg cs rs⟩) : ∃ c, input[i]? = some c ∧ matchChar cs rs neg c = true ∧ j = i + 1 := by
  obtain ⟨ns, h⟩ := h
  generalize hm : (some (j, ns) : Match) = m at h
  cases h with
  | char h1 h2 h3 h4 =>
    rw [hg] at h1; cases h1; cases h2
    simp only [Option.some.injEq, Prod.mk.injEq] at hm
    exact ⟨_, h3, (matchChar_iff ..).2 h4, hm.1⟩
  | noChar => cases hm
  | choice h1 h2 => rw [hg] at h1; cases h1; cases h2
  | noBase => cases hm
  | grow h1 h2 => rw [hg] at h1; cases h1; cases h2
  | seq h1 h2 => rw [hg] at h1; cases h1; cases h2
  | blocked => cases hm

theorem prepend_some {ns : List Node} {m : Match} {ms : List Node} (h : prepend ns m = some (j, ms)) : ∃ ms', m = some (j, ms') := by
  cases m with
  | none => cases h
  | some x => simp only [prepend, Option.map_some, Option.some.injEq, Prod.mk.injEq] at h; exact ⟨x.2, by rw [← h.1]⟩

theorem IM.nil (h : IM input [] i j) : i = j := by
  obtain ⟨ns, h⟩ := h
  cases h
  rfl

/-- Exactly one. -/
theorem IM.one {items : List (Ptr × Int × Int)} (h : IM input ((p, 1, 1) :: items) i j) : ∃ k, M input p i k ∧ IM input items k j := by
  obtain ⟨ns, h⟩ := h
  generalize hm : (some (j, ns) : Match) = m at h
  cases h with
  | fail => cases hm
  | done _ h => exact absurd h (by decide)
  | empty h1 h2 =>
    obtain ⟨ms, rfl⟩ := prepend_some hm.symm
    exact ⟨_, ⟨_, h1⟩, _, h2⟩
  | last h1 _ _ _ h2 =>
    obtain ⟨ms, rfl⟩ := prepend_some hm.symm
    exact ⟨_, ⟨_, h1⟩, _, h2⟩
  | more _ _ h => exact absurd ⟨by decide, rfl⟩ h

/-- One or none. -/
theorem IM.maybe {items : List (Ptr × Int × Int)} (h : IM input ((p, 0, 1) :: items) i j) :
    IM input items i j ∨ ∃ k, M input p i k ∧ IM input items k j := by
  obtain ⟨ns, h⟩ := h
  generalize hm : (some (j, ns) : Match) = m at h
  cases h with
  | fail => cases hm
  | done _ _ h => subst hm; exact .inl ⟨_, h⟩
  | empty h1 h2 =>
    obtain ⟨ms, rfl⟩ := prepend_some hm.symm
    exact .inr ⟨_, ⟨_, h1⟩, _, h2⟩
  | last h1 _ _ _ h2 =>
    obtain ⟨ms, rfl⟩ := prepend_some hm.symm
    exact .inr ⟨_, ⟨_, h1⟩, _, h2⟩
  | more _ _ h => exact absurd ⟨by decide, rfl⟩ h

theorem IS.unstar {items : List (Ptr × Int × Int)} {mn : Int} (ho : ordinary p = true) : ∀ (d i n : Nat) {ns : List Node}, input.length - i ≤ d →
    IS input ((p, mn, -1) :: items) n i (some (j, ns)) → ∃ k, St input p i k ∧ IM input items k j
  | d, i, n, ns, hd, h => by
    generalize hm : (some (j, ns) : Match) = m at h
    cases h with
    | fail => cases hm
    | done h1 _ h2 => subst hm; exact ⟨i, .stop h1, _, h2⟩
    | empty h1 _ => exact absurd (RS.lt ho h1) (Nat.lt_irrefl _)
    | last _ _ h => exact absurd h (by decide)
    | @more _ _ _ _ _ _ k _ _ h1 hlt _ h2 =>
      obtain ⟨ms, rfl⟩ := prepend_some hm.symm
      have hb := (M.lt ⟨_, h1⟩ ho).2
      match d, hd with
      | 0, hd => omega
      | d + 1, hd =>
        obtain ⟨l, h3, h4⟩ := IS.unstar ho d k _ (by omega) h2
        exact ⟨l, .step ⟨_, h1⟩ h3, h4⟩

/-- Any number of them. -/
theorem IM.star {items : List (Ptr × Int × Int)} (ho : ordinary p = true) (h : IM input ((p, 0, -1) :: items) i j) :
    ∃ k, St input p i k ∧ IM input items k j := by
  obtain ⟨ns, h⟩ := h
  exact IS.unstar ho _ _ _ (Nat.le_refl _) h

/-- One or more. -/
theorem IM.plus {items : List (Ptr × Int × Int)} (ho : ordinary p = true) (h : IM input ((p, 1, -1) :: items) i j) :
    ∃ k l, M input p i k ∧ St input p k l ∧ IM input items l j := by
  obtain ⟨ns, h⟩ := h
  obtain ⟨l, h1, h2⟩ := IS.unstar ho _ _ _ (Nat.le_refl _) h
  cases h1 with
  | step h3 h4 => exact ⟨_, _, h3, h4, h2⟩
  | stop h3 =>
    exfalso
    generalize hm : (some (j, ns) : Match) = m at h
    cases h with
    | fail => cases hm
    | done _ h => exact absurd h (by decide)
    | empty h => exact absurd (RS.lt ho h) (Nat.lt_irrefl _)
    | last h => exact absurd (h3.unique h) (by simp)
    | more h => exact absurd (h3.unique h) (by simp)

/-- A literal character. -/
theorem M.lit {n m : Name} {al al' neg : Bool} {cs : List Rune} {rs : List (Rune × Rune)} (h : M input p i j)
    (hg : selfEnv.grammar p = some ⟨n, al, .seq [(q, 1, 1)]⟩) (hq : selfEnv.grammar q = some ⟨m, al', .char neg cs rs⟩) :
    ∃ c, input[i]? = some c ∧ matchChar cs rs neg c = true ∧ j = i + 1 := by
  obtain ⟨k, h1, h2⟩ := (h.seq hg).one
  obtain rfl := h2.nil
  exact h1.char hq

theorem matchChar_one {d : Rune} (h : matchChar [d] [] false c = true) : c = d := by
  have := (matchChar_iff ..).1 h
  simpa [InClass] using this

theorem M.the {n m : Name} {al al' : Bool} (h : M input p i j)
    (hg : selfEnv.grammar p = some ⟨n, al, .seq [(q, 1, 1)]⟩) (hq : selfEnv.grammar q = some ⟨m, al', .char false [c] []⟩) :
    input[i]? = some c ∧ j = i + 1 := by
  obtain ⟨d, h1, h2, h3⟩ := h.lit hg hq
  exact ⟨by rw [h1, matchChar_one h2], h3⟩

theorem M.theSpan {n m : Name} {al al' : Bool} (h : M input p i j)
    (hg : selfEnv.grammar p = some ⟨n, al, .seq [(q, 1, 1)]⟩) (hq : selfEnv.grammar q = some ⟨m, al', .char false [c] []⟩) :
    Span input i j [c] := by
  obtain ⟨h1, rfl⟩ := h.the hg hq
  exact Span.one h1

theorem St.le (h : St input p i j) : i ≤ j := by
  induction h with
  | stop => exact Nat.le_refl _
  | step h _ ih => exact Nat.le_trans h.le ih

theorem St.end_ (h : St input p i j) : RS input p j none := by
  induction h with
  | stop h => exact h
  | step _ _ ih => exact ih

/-! ### Whitespace and comments -/

/-- Whitespace and comments; a line comment continues up to a new line or the end of the input. -/
inductive Pieces (input : List Rune) (j : Nat) : Nat → Prop
  | nil : Pieces input j j
  | space {i : Nat} {c : Rune} : input[i]? = some c → isSpace c = true → Pieces input j (i + 1) → Pieces input j i
  | block {i k : Nat} {b : List Rune} : Span input i k (47 :: 42 :: b ++ [42, 47]) → CommentBody b → Pieces input j k → Pieces input j i
  | line {i k : Nat} {b : List Rune} : Span input i k (47 :: 47 :: b) → 10 ∉ b → (∀ c, input[k]? = some c → c = 10) → Pieces input j k →
      Pieces input j i

theorem Pieces.trans (h : Pieces input j i) (h' : Pieces input k j) : Pieces input k i := by
  induction h with
  | nil => exact h'
  | space h1 h2 _ ih => exact .space h1 h2 ih
  | block h1 h2 _ ih => exact .block h1 h2 ih
  | line h1 h2 h3 _ ih => exact .line h1 h2 h3 ih

theorem M.space15 (h : M input 15 i j) : ∃ c, input[i]? = some c ∧ isSpace c = true ∧ j = i + 1 := by
  obtain ⟨o, ho, h⟩ := h.choice g15
  simp only [List.mem_cons, List.not_mem_nil, or_false] at ho
  rcases ho with rfl | rfl | rfl | rfl | rfl | rfl | rfl
  · exact ⟨_, (h.the g2 g1).1, by decide, (h.the g2 g1).2⟩
  · exact ⟨_, (h.the g4 g3).1, by decide, (h.the g4 g3).2⟩
  · exact ⟨_, (h.the g6 g5).1, by decide, (h.the g6 g5).2⟩
  · exact ⟨_, (h.the g8 g7).1, by decide, (h.the g8 g7).2⟩
  · exact ⟨_, (h.the g10 g9).1, by decide, (h.the g10 g9).2⟩
  · exact ⟨_, (h.the g12 g11).1, by decide, (h.the g12 g11).2⟩
  · exact ⟨_, (h.the g14 g13).1, by decide, (h.the g14 g13).2⟩

theorem M.space50 (h : M input 50 i j) : Pieces input j i := by
  obtain ⟨o, ho, h⟩ := h.choice g50
  have key : ∀ {c}, input[i]? = some c ∧ j = i + 1 → isSpace c = true → Pieces input j i := fun h hc => .space h.1 hc (h.2 ▸ .nil)
  simp only [List.mem_cons, List.not_mem_nil, or_false] at ho
  rcases ho with rfl | rfl | rfl | rfl | rfl | rfl
  · exact key (h.the g39 g38) (by decide)
  · exact key (h.the g41 g40) (by decide)
  · exact key (h.the g43 g42) (by decide)
  · exact key (h.the g45 g44) (by decide)
  · exact key (h.the g47 g46) (by decide)
  · exact key (h.the g49 g48) (by decide)

theorem St.pieces (hp : ∀ {i j}, M input p i j → Pieces input j i) (h : St input p i j) : Pieces input j i := by
  induction h with
  | stop => exact .nil
  | step h _ ih => exact (hp h).trans ih

theorem St.body (h : St input 26 i j) : i ≤ input.length → ∃ b, Span input i j b ∧ CommentBody b := by
  induction h with
  | stop => exact fun hi => ⟨[], .refl hi, .nil⟩
  | step h _ ih =>
    intro hi
    obtain ⟨b, h1, h2⟩ := ih (h.lt (by decide)).2
    obtain ⟨o, ho, h⟩ := h.choice g26
    simp only [List.mem_cons, List.not_mem_nil, or_false] at ho
    rcases ho with rfl | rfl
    · obtain ⟨k, h3, h4⟩ := (h.seq g23).one
      obtain ⟨l, h5, h6⟩ := h4.one
      obtain rfl := h6.nil
      obtain ⟨c, h7, h8, rfl⟩ := h5.lit g22 g21
      refine ⟨_, ((h3.theSpan g20 g19).trans (Span.one h7)).trans h1, .star ?_ h2⟩
      have := (matchChar_iff ..).1 h8
      simpa [InClass] using this
    · obtain ⟨c, h7, h8, rfl⟩ := h.lit g25 g24
      refine ⟨_, (Span.one h7).trans h1, .char ?_ h2⟩
      have := (matchChar_iff ..).1 h8
      simpa [InClass] using this

theorem St.lineBody (h : St input 35 i j) : i ≤ input.length → ∃ b, Span input i j b ∧ 10 ∉ b := by
  induction h with
  | stop => exact fun hi => ⟨[], .refl hi, by simp⟩
  | step h _ ih =>
    intro hi
    obtain ⟨b, h1, h2⟩ := ih (h.lt (by decide)).2
    obtain ⟨c, h7, h8, rfl⟩ := h.lit g35 g34
    refine ⟨_, (Span.one h7).trans h1, ?_⟩
    have := (matchChar_iff ..).1 h8
    simp only [InClass] at this
    simp only [List.singleton_append, List.mem_cons, not_or]
    exact ⟨by simpa [eq_comm] using this, h2⟩

theorem M.comment37 (h : M input 37 i j) : Pieces input j i := by
  obtain ⟨o, ho, h⟩ := h.choice g37
  simp only [List.mem_cons, List.not_mem_nil, or_false] at ho
  rcases ho with rfl | rfl
  · obtain ⟨k, h1, h2⟩ := (h.seq g36).one
    obtain ⟨l, h3, h4⟩ := h2.star (by decide)
    obtain rfl := h4.nil
    obtain ⟨m, h5, h6⟩ := (h1.seq g33).one
    obtain ⟨m', h7, h8⟩ := h6.one
    obtain rfl := h8.nil
    obtain ⟨e1, rfl⟩ : input[i]? = some 47 ∧ m = i + 1 := by
      obtain ⟨c, a, b, d⟩ := h5.char g31
      exact ⟨by rw [a, matchChar_one b], d⟩
    obtain ⟨e2, rfl⟩ : input[i + 1]? = some 47 ∧ m' = i + 1 + 1 := by
      obtain ⟨c, a, b, d⟩ := h7.char g32
      exact ⟨by rw [a, matchChar_one b], d⟩
    obtain ⟨b, h9, h10⟩ := St.lineBody h3 (h1.lt (by decide)).2
    refine .line (.cons e1 (.cons e2 h9)) h10 ?_ .nil
    intro c hc
    by_cases h10 : c = 10
    · exact h10
    · obtain ⟨s, hs⟩ := at_head hc
      have := RS.single g35 g34 (by decide) hs (by simp [matchChar, Ne.symm h10])
      exact absurd (h3.end_.unique this) (by simp)
  · obtain ⟨k, h1, h2⟩ := (h.seq g30).one
    obtain ⟨l, h3, h4⟩ := h2.star (by decide)
    obtain ⟨m, h5, h6⟩ := h4.one
    obtain rfl := h6.nil
    obtain ⟨a, h7, h8⟩ := (h1.seq g18).one
    obtain ⟨b, h9, h10⟩ := h8.one
    obtain rfl := h10.nil
    obtain ⟨c, h11, h12⟩ := (h5.seq g29).one
    obtain ⟨d, h13, h14⟩ := h12.one
    obtain rfl := h14.nil
    obtain ⟨t, h15, h16⟩ := St.body h3 (h1.lt (by decide)).2
    have one : ∀ {p x y z}, M input p x y → selfEnv.grammar p = some ⟨runes "", true, .char false [z] []⟩ → Span input x y [z] := by
      intro p x y z h hg
      obtain ⟨c, a, b, rfl⟩ := h.char hg
      rw [matchChar_one b] at a
      exact Span.one a
    have := (((one h7 g16).trans (one h9 g17)).trans h15).trans ((one h11 g27).trans (one h13 g28))
    exact .block (by simpa using this) h16 .nil

theorem M.comment54 (h : M input 54 i j) : Pieces input j i := by
  obtain ⟨k, h1, h2⟩ := (h.seq g54).one
  obtain ⟨l, h3, h4⟩ := h2.star (by decide)
  obtain rfl := h4.nil
  refine (M.comment37 h1).trans (St.pieces ?_ h3)
  intro i j h
  obtain ⟨a, h5, h6⟩ := (h.seq g53).star (by decide)
  have p1 := St.pieces M.space50 h5
  rcases h6.maybe with h6 | ⟨b, h7, h8⟩
  · obtain ⟨b, h7, h8⟩ := h6.star (by decide)
    obtain ⟨c, h9, h10⟩ := h8.one
    obtain rfl := h10.nil
    exact (p1.trans (St.pieces M.space50 h7)).trans (M.comment37 h9)
  · obtain ⟨c, h9, h10⟩ := h8.star (by decide)
    obtain ⟨d, h11, h12⟩ := h10.one
    obtain rfl := h12.nil
    obtain ⟨e1, rfl⟩ := h7.the g52 g51
    exact ((p1.trans (.space e1 (by decide) .nil)).trans (St.pieces M.space50 h9)).trans (M.comment37 h11)

theorem M.ws (h : M input 194 i j) : Pieces input j i := by
  obtain ⟨o, ho, h⟩ := h.choice g194
  obtain rfl := List.mem_singleton.1 ho
  obtain ⟨o, ho, h⟩ := h.choice g193
  simp only [List.mem_cons, List.not_mem_nil, or_false] at ho
  rcases ho with rfl | rfl
  · obtain ⟨c, h1, h2, rfl⟩ := h.space15
    exact .space h1 h2 .nil
  · exact h.comment54

theorem Pieces.layout (h : Pieces input j i) (hj : j ≤ input.length) (hn : input[j]? ≠ some 10) :
    ∃ g e, Span input i j (g ++ e) ∧ Layout g ∧ LastComment e ∧ (e ≠ [] → j = input.length) := by
  induction h with
  | nil => exact ⟨[], [], .refl hj, .nil, .none, fun h => absurd rfl h⟩
  | space h1 h2 _ ih =>
    obtain ⟨g, e, h3, h4, h5, h6⟩ := ih
    exact ⟨_ :: g, e, .cons h1 h3, .space h2 h4, h5, h6⟩
  | @block i k b h1 h2 _ ih =>
    obtain ⟨g, e, h3, h4, h5, h6⟩ := ih
    refine ⟨47 :: 42 :: b ++ 42 :: 47 :: g, e, ?_, .block h2 h4, h5, h6⟩
    have := h1.trans h3
    simpa using this
  | @line i k b h1 h2 h3 _ ih =>
    obtain ⟨g, e, h4, h5, h6, h7⟩ := ih
    cases hk : input[k]? with
    | none =>
      have hk := List.getElem?_eq_none_iff.1 hk
      have e1 : k = input.length := Nat.le_antisymm h1.le hk
      have e2 : j = k := by have := h4.ge; omega
      rw [e2] at h4
      have := h4.same
      simp only [List.append_eq_nil_iff] at this
      obtain ⟨rfl, rfl⟩ := this
      exact ⟨[], _, by rw [e2]; exact h1, .nil, .line h2, fun _ => by rw [e2, e1]⟩
    | some c =>
      obtain rfl := h3 c hk
      have : ∃ g', g = 10 :: g' ∧ Layout g' := by
        cases h5 with
        | nil =>
          exfalso
          cases h6 with
          | none =>
            have := h4.len
            simp only [List.append_nil, List.length_nil, Nat.add_zero] at this
            exact hn (this ▸ hk)
          | line => have := h4.head; rw [hk] at this; cases this
        | space h8 h9 => have := h4.head; rw [hk] at this; cases this; exact ⟨_, rfl, h9⟩
        | line => have := Span.head (t := _) h4; rw [hk] at this; cases this
        | block => have := Span.head (t := _) h4; rw [hk] at this; cases this
      obtain ⟨g', rfl, h8⟩ := this
      refine ⟨47 :: 47 :: b ++ 10 :: g', e, ?_, .line h2 h8, h6, h7⟩
      have := h1.trans h4
      simpa using this

/-- Whitespace and comments, possibly at the end of the document. -/
theorem St.layout (h : St input 194 i j) (hi : i ≤ input.length) :
    ∃ g e, Span input i j (g ++ e) ∧ Layout g ∧ LastComment e ∧ (e ≠ [] → j = input.length) := by
  have hj : j ≤ input.length := by
    induction h with
    | stop => exact hi
    | step h _ ih => exact ih (h.lt (by decide)).2
  refine (St.pieces M.ws h).layout hj ?_
  intro he
  obtain ⟨s, hs⟩ := at_head he
  exact absurd (h.end_.unique (space194 hs (by decide))) (by simp)

/-- Whitespace and comments with something behind. -/
theorem St.inside (h : St input 194 i j) (hj : j < input.length) : ∃ g, Span input i j g ∧ Layout g := by
  obtain ⟨g, e, h1, h2, h3, h4⟩ := St.layout h (by have := h.le; omega)
  have : e = [] := Classical.byContradiction fun he => by have := h4 he; omega
  subst this
  exact ⟨g, by simpa using h1, h2⟩

theorem layout_append {g g' : List Rune} (h : Layout g) (h' : Layout g') : Layout (g ++ g') := by
  induction h with
  | nil => exact h'
  | space hc _ ih => exact .space hc ih
  | @line b g hb _ ih => have := Layout.line hb ih; simpa using this
  | @block b g hb _ ih => have := Layout.block hb ih; simpa using this

end SelfG
end Treerack
