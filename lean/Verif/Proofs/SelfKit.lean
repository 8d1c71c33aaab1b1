import Verif.Proofs.SelfGrammar

/-
Tools for following the parsers of syntax documents through a text.
-/

namespace Treerack
open Spec

namespace SelfG

/-- The rest of the input at the position. -/
structure At (input : List Rune) (i : Nat) (s : List Rune) : Prop where
  drop : input.drop i = s
  le : i ≤ input.length

variable {input : List Rune} {i j k : Nat} {s t : List Rune} {c : Rune} {p q : Ptr}

theorem At.start : At input 0 input := ⟨rfl, Nat.zero_le _⟩

theorem At.len (h : At input i s) : i + s.length = input.length := by
  have := congrArg List.length h.drop
  have := h.le
  simp only [List.length_drop] at *
  omega

theorem At.inj (h : At input i s) (h' : At input j s) : i = j := by
  have := h.len; have := h'.len; omega

theorem At.lt (h : At input i s) (h' : At input j t) (hl : t.length < s.length) : i < j := by
  have := h.len; have := h'.len; omega

theorem At.head (h : At input i (c :: s)) : input[i]? = some c := by
  have := congrArg List.head? h.drop
  simpa [List.head?_drop] using this

theorem At.eof (h : At input i []) : input[i]? = none := by
  have := h.len
  exact List.getElem?_eq_none (by simp at this; omega)

theorem At.next (h : At input i (c :: s)) : At input (i + 1) s := by
  refine ⟨?_, ?_⟩
  · rw [← List.drop_drop, h.drop]; rfl
  · have := h.len; simp only [List.length_cons] at this; omega

theorem At.append (h : At input i (t ++ s)) : At input (i + t.length) s := by
  refine ⟨?_, ?_⟩
  · rw [← List.drop_drop, h.drop, List.drop_left]
  · have := h.len; simp only [List.length_append] at this; omega

/-- The text between two positions. -/
theorem At.text (h : At input i (t ++ s)) (h' : At input j s) : (input.take j).drop i = t := by
  obtain rfl := h'.inj h.append
  rw [List.drop_take, h.drop]
  simp

theorem At.node_text (h : At input i (t ++ s)) (h' : At input j s) (n : Name) (ns : List Node) :
    (Node.mk n i j input ns).text = .ok t := by
  have h1 := h.len
  have h2 := h'.len
  simp only [List.length_append] at h1
  have h3 : i ≤ j ∧ j ≤ input.length := by omega
  show (if i ≤ j ∧ j ≤ input.length then Res.ok ((input.take j).drop i) else .panic) = _
  rw [if_pos h3, h.text h']

/-! ### The reference semantics of these parsers -/

abbrev RS (input : List Rune) (p : Ptr) (i : Nat) (m : Match) : Prop := Ref selfEnv.grammar (selfEnv.blocked input) input p i m
abbrev OS (input : List Rune) (os : List Ptr) (i : Nat) (m : Match) : Prop := RefOptions selfEnv.grammar (selfEnv.blocked input) input os i m
abbrev IS (input : List Rune) (items : List (Ptr × Int × Int)) (k i : Nat) (m : Match) : Prop :=
  RefItems selfEnv.grammar (selfEnv.blocked input) input items k i m

theorem self_blocked : ¬ selfEnv.blocked input p i j := fun ⟨_, k, hk, _⟩ => by cases hk

/-- A parser of the table that does not match the empty text. -/
def ordinary (p : Ptr) : Bool := decide (1 ≤ p ∧ p ≤ 194)

theorem ordinary_reach (h : ordinary p = true) : Reach selfEnv selfRoot p := by
  simp only [ordinary, decide_eq_true_eq] at h
  exact self_reach h.1 (Nat.le_trans h.2 (by decide))

theorem RS.total (h : ordinary p = true) (i : Nat) : ∃ m, RS input p i m := by
  obtain ⟨f, hf⟩ := self_linked.refs self_straight.free self_straight.grows input
  exact ⟨_, hf (ordinary_reach h) i⟩

theorem RS.lt {ns : List Node} (h : ordinary p = true) (hr : RS input p i (some (j, ns))) : i < j := by
  have hb := (hr.bounded _ rfl).1
  simp only at hb
  rcases Nat.lt_or_eq_of_le hb with hb | rfl
  · exact hb
  · have := self_nullable (hr.nullable _ rfl)
    simp only [selfNul, Bool.or_eq_true, beq_iff_eq] at this
    simp only [ordinary, decide_eq_true_eq] at h
    rcases this with rfl | rfl <;> exact absurd h.2 (by decide)

/-- The text ends, or continues with one of these characters. -/
def Heads (P : Rune → Bool) (s : List Rune) : Prop := ∀ c, s.head? = some c → P c = true

theorem Heads.nil {P : Rune → Bool} : Heads P [] := fun _ h => by cases h
theorem Heads.cons {P : Rune → Bool} (h : P c = true) : Heads P (c :: s) := fun _ h' => by cases h'; exact h
theorem Heads.append {P : Rune → Bool} (h : Heads P t) (hs : t = [] → Heads P s) : Heads P (t ++ s) := by
  cases t with
  | nil => exact hs rfl
  | cons x t => exact fun c hc => h c (by simpa using hc)
theorem Heads.mono {P Q : Rune → Bool} (h : Heads P s) (hpq : ∀ c, P c = true → Q c = true) : Heads Q s := fun c hc => hpq c (h c hc)

/-- A predicate that does not distinguish the characters from 128 on. -/
def Ascii (P : Rune → Bool) : Prop := ∀ c, P (cat c) = P c

theorem Ascii.contains {cs : List Rune} (h : (cs.all fun c => decide (c < 128)) = true) : Ascii fun c => cs.contains c := by
  intro c
  have h := fun x hx => of_decide_eq_true (List.all_eq_true.1 h x hx)
  unfold cat
  split
  · rfl
  · rename_i hc
    have h1 : ∀ u : Rune, ¬ u < 128 → cs.contains u = false := by
      intro u hu
      simp only [List.contains_eq_mem, decide_eq_false_iff_not]
      exact fun hm => hu (h u hm)
    simp only [h1 _ hc, h1 128 (by decide)]

theorem Ascii.not {P : Rune → Bool} (h : Ascii P) : Ascii fun c => !P c := fun c => by simp only [h c]
theorem Ascii.or {P Q : Rune → Bool} (h : Ascii P) (h' : Ascii Q) : Ascii fun c => P c || Q c := fun c => by simp only [h c, h' c]
theorem Ascii.and {P Q : Rune → Bool} (h : Ascii P) (h' : Ascii Q) : Ascii fun c => P c && Q c := fun c => by simp only [h c, h' c]

/-- No character of `P` starts one of the parsers. -/
def never (P : Rune → Bool) (ps : List Ptr) : Bool := (List.range 129).all fun c => !P c || ps.all fun p => !mayStart 11 p c

theorem RS.not {P : Rune → Bool} {ps : List Ptr} (hc : Ascii P) (hn : never P ps = true) (h : At input i s) (hs : Heads P s)
    (hp : p ∈ ps) (ho : ordinary p = true) : RS input p i none := by
  obtain ⟨m, hm⟩ := RS.total (input := input) ho i
  cases m with
  | none => exact hm
  | some x =>
    obtain ⟨t, ht, hf⟩ := hm.first self_not_recurs x.1 x.2 rfl (RS.lt ho hm)
    have hr : selfRanks.getD p 0 ≤ 11 := by
      have key : ∀ p < 197, selfRanks.getD p 0 ≤ 11 := by decide +kernel
      simp only [ordinary, decide_eq_true_eq] at ho
      exact key p (Nat.lt_of_le_of_lt ho.2 (by decide))
    have hms := mayStart_of hf 11 hr
    cases s with
    | nil => rw [h.eof] at ht; cases ht
    | cons c s =>
      rw [h.head] at ht
      obtain rfl := Option.some.inj ht
      have hP := hs c rfl
      have := List.all_eq_true.1 hn (cat c) (List.mem_range.2 (cat_lt c))
      rw [hc c, hP] at this
      simp only [Bool.not_true, Bool.false_or] at this
      have := List.all_eq_true.1 this p hp
      rw [mayStart_cat, hms] at this
      cases this

/-! ### Items -/

theorem IS.one {mn : Int} {items : List (Ptr × Int × Int)} {ns : List Node} {m : Match} (h : RS input p i (some (j, ns)))
    (ho : ordinary p = true) (hi : IS input items 0 j m) : IS input ((p, mn, 1) :: items) 0 i (prepend ns m) :=
  .last h (RS.lt ho h) (by decide) (by decide) hi

theorem IS.skip {mx : Int} {items : List (Ptr × Int × Int)} {m : Match} (h : RS input p i none)
    (hi : IS input items 0 i m) : IS input ((p, 0, mx) :: items) 0 i m :=
  .done h (Int.le_refl _) hi

theorem IS.fail {mx : Int} {items : List (Ptr × Int × Int)} (h : RS input p i none) : IS input ((p, 1, mx) :: items) 0 i none :=
  RefItems.fail h (by decide)

/-- As many matches as there are. -/
inductive Star (input : List Rune) (p : Ptr) : Nat → Nat → List Node → Prop
  | stop {i : Nat} : RS input p i none → Star input p i i []
  | step {i k j : Nat} {ns ms : List Node} : RS input p i (some (k, ns)) → Star input p k j ms → Star input p i j (ns ++ ms)

theorem prepend_append (ns ms : List Node) (m : Match) : prepend ns (prepend ms m) = prepend (ns ++ ms) m := by
  cases m <;> simp [prepend]

theorem prepend_nil (m : Match) : prepend [] m = m := by cases m <;> simp [prepend]

theorem IS.star {mn : Int} {items : List (Ptr × Int × Int)} {ns : List Node} {m : Match} (ho : ordinary p = true) (h : Star input p i j ns)
    (hi : IS input items 0 j m) : ∀ {k : Nat}, mn ≤ k → IS input ((p, mn, -1) :: items) k i (prepend ns m) := by
  induction h with
  | stop h => intro k hk; rw [prepend_nil]; exact .done h hk hi
  | step h _ ih =>
    intro k hk
    rw [← prepend_append]
    exact .more h (RS.lt ho h) (by omega) (ih hi (by omega))

theorem IS.plus {items : List (Ptr × Int × Int)} {ns ms : List Node} {m : Match} (ho : ordinary p = true) (h : RS input p i (some (k, ns)))
    (hs : Star input p k j ms) (hi : IS input items 0 j m) : IS input ((p, 1, -1) :: items) 0 i (prepend (ns ++ ms) m) := by
  rw [← prepend_append]
  exact .more h (RS.lt ho h) (by omega) (IS.star ho hs hi (by decide))

theorem IS.end_ : IS input [] 0 i (some (i, [])) := .nil

/-! ### Parsers -/

variable {n : Name} {al : Bool}

theorem RS.seq {items : List (Ptr × Int × Int)} {ns : List Node} (hg : selfEnv.grammar p = some ⟨n, false, .seq items⟩)
    (h : IS input items 0 i (some (j, ns))) : RS input p i (some (j, [Node.mk n i j input ns])) :=
  Ref.seq hg rfl h fun _ _ => self_blocked

theorem RS.seqAlias {items : List (Ptr × Int × Int)} {m : Match} (hg : selfEnv.grammar p = some ⟨n, true, .seq items⟩)
    (h : IS input items 0 i m) : RS input p i m := by
  have := Ref.seq hg rfl h fun _ _ => self_blocked
  cases m with
  | none => exact this
  | some x => exact this

theorem RS.seqNone {items : List (Ptr × Int × Int)} (hg : selfEnv.grammar p = some ⟨n, al, .seq items⟩)
    (h : IS input items 0 i none) : RS input p i none :=
  Ref.seq hg rfl h fun _ _ => self_blocked

theorem RS.choice {os : List Ptr} {ns : List Node} (hg : selfEnv.grammar p = some ⟨n, false, .choice os⟩)
    (h : OS input os i (some (j, ns))) : RS input p i (some (j, [Node.mk n i j input ns])) :=
  Ref.choice hg rfl (fun _ => self_not_recurs _ _) h

theorem RS.choiceAlias {os : List Ptr} {m : Match} (hg : selfEnv.grammar p = some ⟨n, true, .choice os⟩)
    (h : OS input os i m) : RS input p i m := by
  have := Ref.choice hg rfl (fun _ => self_not_recurs _ _) h
  cases m with
  | none => exact this
  | some x => exact this

theorem RS.char {neg : Bool} {cs : List Rune} {rs : List (Rune × Rune)} (hg : selfEnv.grammar p = some ⟨n, al, .char neg cs rs⟩)
    (h : At input i (c :: s)) (hc : matchChar cs rs neg c = true) : RS input p i (some (i + 1, [])) :=
  Ref.char hg rfl h.head ((matchChar_iff ..).1 hc)

theorem RS.noChar {neg : Bool} {cs : List Rune} {rs : List (Rune × Rune)} (hg : selfEnv.grammar p = some ⟨n, al, .char neg cs rs⟩)
    (h : At input i (c :: s)) (hc : matchChar cs rs neg c = false) : RS input p i none :=
  Ref.noChar hg rfl fun t ht hi => by
    rw [h.head] at ht
    obtain rfl := Option.some.inj ht
    rw [(matchChar_iff ..).2 hi] at hc
    cases hc

/-- A parser of one character. -/
theorem RS.single {m : Name} {neg : Bool} {cs : List Rune} {rs : List (Rune × Rune)} {al : Bool}
    (hg : selfEnv.grammar p = some ⟨n, true, .seq [(q, 1, 1)]⟩)
    (hq : selfEnv.grammar q = some ⟨m, al, .char neg cs rs⟩) (ho : ordinary q = true) (h : At input i (c :: s))
    (hc : matchChar cs rs neg c = true) : RS input p i (some (i + 1, [])) :=
  RS.seqAlias hg (IS.one (RS.char hq h hc) ho IS.end_)

theorem RS.singleNone {m : Name} {neg : Bool} {cs : List Rune} {rs : List (Rune × Rune)} {al' : Bool}
    (hg : selfEnv.grammar p = some ⟨n, al', .seq [(q, 1, 1)]⟩)
    (hq : selfEnv.grammar q = some ⟨m, al, .char neg cs rs⟩) (h : At input i (c :: s))
    (hc : matchChar cs rs neg c = false) : RS input p i none :=
  RS.seqNone hg (IS.fail (RS.noChar hq h hc))

theorem RS.singleNode {m : Name} {neg : Bool} {cs : List Rune} {rs : List (Rune × Rune)} {al : Bool}
    (hg : selfEnv.grammar p = some ⟨n, false, .seq [(q, 1, 1)]⟩)
    (hq : selfEnv.grammar q = some ⟨m, al, .char neg cs rs⟩) (ho : ordinary q = true) (h : At input i (c :: s))
    (hc : matchChar cs rs neg c = true) : RS input p i (some (i + 1, [Node.mk n i (i + 1) input []])) :=
  RS.seq hg (IS.one (RS.char hq h hc) ho IS.end_)

/-- When a single option matches. -/
theorem OS.only {o : Ptr} {m : Match} : ∀ {os : List Ptr}, o ∈ os → RS input o i m → (∀ x ∈ os, x ≠ o → RS input x i none) → OS input os i m
  | [], h, _, _ => by cases h
  | x :: os, h, hm, hn => by
    by_cases hx : x = o
    · subst hx
      by_cases hmem : x ∈ os
      · have := RefOptions.cons hm (OS.only hmem hm fun y hy => hn y (List.mem_cons_of_mem _ hy))
        have hb : better m m = m := by cases m <;> simp [better]
        rwa [hb] at this
      · have hrest : OS input os i none := OS.allNone fun y hy => hn y (List.mem_cons_of_mem _ hy) fun he => hmem (he ▸ hy)
        have := RefOptions.cons hm hrest
        have hb : better m none = m := by cases m <;> simp [better]
        rwa [hb] at this
    · have hmem : o ∈ os := (List.mem_cons.1 h).resolve_left fun he => hx he.symm
      exact RefOptions.cons (hn x List.mem_cons_self hx) (OS.only hmem hm fun y hy => hn y (List.mem_cons_of_mem _ hy))
where
  OS.allNone : ∀ {os : List Ptr}, (∀ x ∈ os, RS input x i none) → OS input os i none
    | [], _ => .nil
    | x :: os, h => RefOptions.cons (m := none) (h x List.mem_cons_self) (OS.allNone fun y hy => h y (List.mem_cons_of_mem _ hy))

end SelfG
end Treerack
