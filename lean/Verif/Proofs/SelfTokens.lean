import Verif.Proofs.SelfLayout

/-
The parsers of syntax documents read characters, classes, symbols, numbers and quantifiers.
-/

namespace Treerack
open Spec

namespace SelfG

variable {input : List Rune} {i j k : Nat} {s t r : List Rune} {c : Rune} {p q : Ptr}

theorem better_assoc (a b c : Match) : better (better a b) c = better a (better b c) := by
  match a, b, c with
  | none, _, _ => rfl
  | some _, none, _ => rfl
  | some x, some y, none =>
    simp only [better]
    by_cases h1 : x.1 < y.1
    · simp only [if_pos h1, better]
    · simp only [if_neg h1, better]
  | some x, some y, some z =>
    simp only [better]
    by_cases h1 : x.1 < y.1 <;> by_cases h2 : y.1 < z.1
    · simp only [if_pos h1, if_pos h2, better]; rw [if_pos (by omega)]
    · simp only [if_pos h1, if_neg h2, better]
    · simp only [if_neg h1, if_pos h2, better]
    · simp only [if_neg h1, if_neg h2, better]; rw [if_neg (by omega)]

theorem OS.append : ∀ {os os' : List Ptr} {m m' : Match}, OS input os i m → OS input os' i m' → OS input (os ++ os') i (better m m')
  | [], _, _, _, .nil, h => h
  | _ :: _, _, _, _, .cons h1 h2, h => by rw [better_assoc]; exact .cons h1 (OS.append h2 h)

theorem OS.one {o : Ptr} {m : Match} (h : RS input o i m) : OS input [o] i m := by
  have := RefOptions.cons h .nil
  cases m <;> simpa [better] using this

theorem OS.two {o o' : Ptr} {m m' : Match} (h : RS input o i m) (h' : RS input o' i m') : OS input [o, o'] i (better m m') :=
  OS.append (OS.one h) (OS.one h')

theorem better_left {x y : Nat × List Node} (h : ¬ x.1 < y.1) : better (some x) (some y) = some x := by simp only [better, if_neg h]
theorem better_right {x y : Nat × List Node} (h : x.1 < y.1) : better (some x) (some y) = some y := by simp only [better, if_pos h]

/-- Implications between properties of characters are checked on the first 129. -/
theorem ascii_imp {P Q : Rune → Bool} (hP : Ascii P) (hQ : Ascii Q) (h : ((List.range 129).all fun c => !P c || Q c) = true) (c : Rune)
    (hc : P c = true) : Q c = true := by
  have := List.all_eq_true.1 h (cat c) (List.mem_range.2 (cat_lt c))
  rw [hP, hQ, hc] at this
  simpa using this

/-! ### Literals -/

theorem RS.lit {p q : Ptr} {n m : Name} {al : Bool} {cs : List Rune} {rs : List (Rune × Rune)} {neg : Bool}
    (hg : selfEnv.grammar p = some ⟨n, true, .seq [(q, 1, 1)]⟩) (hq : selfEnv.grammar q = some ⟨m, al, .char neg cs rs⟩)
    (ho : ordinary q = true) (h : At input i (c :: s)) (hc : matchChar cs rs neg c = true) :
    RS input p i (some (i + 1, [])) :=
  RS.single hg hq ho h hc

/-! ### Characters -/

theorem quoteChar {t : List Rune} (hw : WrittenChar quoteSpecial c t) (h : At input i (t ++ s)) :
    ∃ j n, RS input 83 i (some (j, [n])) ∧ At input j s ∧ n.name = runes "sequence-char" ∧ CharNode n c := by
  cases hw with
  | plain hc =>
    have h92 : c ≠ 92 := fun he => hc (by simp [he, quoteSpecial])
    have h34 : c ≠ 34 := fun he => hc (by simp [he, quoteSpecial])
    refine ⟨i + 1, _, RS.choice g83 (OS.only (o := 77) (by simp) (RS.single g77 g76 (by decide) h (by simp [matchChar, h92.symm, h34.symm])) ?_), h.next, rfl,
      .inl ⟨⟨rfl, h.node_text h.next _ _⟩, h92⟩⟩
    intro x hx hne
    obtain rfl : x = 82 := by simpa [hne] using hx
    exact RS.seqNone g82 (IS.fail (RS.singleNone g79 g78 h (by simp [matchChar, h92.symm])))
  | @escaped x _ hd =>
    have h' : At input i (92 :: x :: s) := h
    refine ⟨i + 1 + 1, _, RS.choice (ns := []) g83 (OS.pickChar (o := 82) (by decide) (by decide +kernel) (by decide) h' (by decide) ?_), h'.next.next, rfl,
      .inr ⟨x, ⟨rfl, At.node_text (t := [92, x]) h h'.next.next _ _⟩, hd⟩⟩
    exact RS.seqAlias g82 (IS.one (RS.single g79 g78 (by decide) h' (by decide)) (by decide)
      (IS.one (RS.single g81 g80 (by decide) h'.next (by simp [matchChar])) (by decide) IS.end_))

theorem classChar {t : List Rune} (hw : WrittenChar classSpecial c t) (h : At input i (t ++ s)) :
    ∃ j n, RS input 66 i (some (j, [n])) ∧ At input j s ∧ n.name = runes "class-char" ∧ CharNode n c := by
  cases hw with
  | plain hc =>
    simp only [classSpecial, List.mem_cons, List.not_mem_nil, or_false, not_or] at hc
    obtain ⟨a1, a2, a3, a4, a5⟩ := hc
    refine ⟨i + 1, _, RS.choice g66 (OS.only (o := 60) (by simp)
      (RS.single g60 g59 (by decide) h (by simp [matchChar, Ne.symm a1, Ne.symm a2, Ne.symm a3, Ne.symm a4, Ne.symm a5])) ?_), h.next, rfl,
      .inl ⟨⟨rfl, h.node_text h.next _ _⟩, a1⟩⟩
    intro x hx hne
    obtain rfl : x = 65 := by simpa [hne] using hx
    exact RS.seqNone g65 (IS.fail (RS.singleNone g62 g61 h (by simp [matchChar, Ne.symm a1])))
  | @escaped x _ hd =>
    have h' : At input i (92 :: x :: s) := h
    refine ⟨i + 1 + 1, _, RS.choice (ns := []) g66 (OS.pickChar (o := 65) (by decide) (by decide +kernel) (by decide) h' (by decide) ?_), h'.next.next, rfl,
      .inr ⟨x, ⟨rfl, At.node_text (t := [92, x]) h h'.next.next _ _⟩, hd⟩⟩
    exact RS.seqAlias g65 (IS.one (RS.single g62 g61 (by decide) h' (by decide)) (by decide)
      (IS.one (RS.single g64 g63 (by decide) h'.next (by simp [matchChar])) (by decide) IS.end_))

theorem core_cons {n : Node} {ns : List Node} (h : n.name ≠ runes "comment") : core (n :: ns) = n :: core ns := by
  simp [core, h]

theorem core_one {n : Node} (h : n.name ≠ runes "comment") : core [n] = [n] := core_cons h

theorem quoteChars {cs t : List Rune} (hw : WrittenChars cs t) : ∀ {i : Nat}, At input i (t ++ 34 :: s) →
    ∃ j ns, Star input 83 i j ns ∧ At input j (34 :: s) ∧ core ns = ns ∧ CharNodes ns cs := by
  induction hw with
  | nil =>
    exact fun {i} h => ⟨i, [], .stop (RS.notChar (by decide) (by decide +kernel) h (by decide)), h, rfl, .nil⟩
  | @cons c cs t ts hc _ ih =>
    intro i h
    rw [List.append_assoc] at h
    obtain ⟨k, n, h1, h2, h3, h4⟩ := quoteChar hc h
    obtain ⟨j, ns, k1, k2, k3, k4⟩ := ih h2
    refine ⟨j, n :: ns, Star.step h1 k1, k2, ?_, .cons h4 k4⟩
    rw [core_cons (by rw [h3]; decide), k3]

theorem charSequence {cs t : List Rune} (hw : WrittenChars cs t) (h : At input i (34 :: t ++ 34 :: s)) :
    ∃ j n, RS input 88 i (some (j, [n])) ∧ At input j s ∧ n.name = runes "char-sequence" ∧ ExprNode n (.chars cs) := by
  obtain ⟨j, ns, h1, h2, h3, h4⟩ := quoteChars hw h.next
  refine ⟨j + 1, _, RS.seq g88 (IS.one (RS.lit g85 g84 (by decide) h (by decide)) (by decide)
    (IS.star (by decide) h1 (IS.one (RS.lit g87 g86 (by decide) h2 (by decide)) (by decide) IS.end_) (by decide))), h2.next, rfl, .chars rfl ?_⟩
  rw [content_mk]
  simpa [core_append, h3] using h4

theorem members_head {cs : List Rune} {rs : List (Rune × Rune)} {t : List Rune} (hw : WrittenMembers cs rs t) :
    Heads (fun c => ![45, 94].contains c) (t ++ 93 :: s) := by
  have key : ∀ {c : Rune} {t u : List Rune}, WrittenChar classSpecial c t → Heads (fun c => ![45, 94].contains c) (t ++ u) := by
    intro c t u hw
    cases hw with
    | plain hc =>
      refine Heads.cons ?_
      simp only [classSpecial, List.mem_cons, List.not_mem_nil, or_false, not_or] at hc
      simp [hc]
    | escaped => exact Heads.cons (by decide)
  cases hw with
  | nil => exact Heads.cons (by decide)
  | char hc => rw [List.append_assoc]; exact key hc
  | range hc => rw [List.append_assoc, List.append_assoc]; exact key hc

theorem members {cs : List Rune} {rs : List (Rune × Rune)} {t : List Rune} (hw : WrittenMembers cs rs t) : ∀ {i : Nat}, At input i (t ++ 93 :: s) →
    ∃ j ns, Star input 72 i j ns ∧ At input j (93 :: s) ∧ core ns = ns ∧ ClassNodes ns cs rs := by
  induction hw with
  | nil =>
    exact fun {i} h => ⟨i, [], .stop (RS.notChar (by decide) (by decide +kernel) h (by decide)), h, rfl, .nil⟩
  | @char c cs rs t ts hc hm ih =>
    intro i h
    rw [List.append_assoc] at h
    obtain ⟨k, n, h1, h2, h3, h4⟩ := classChar hc h
    obtain ⟨j, ns, k1, k2, k3, k4⟩ := ih h2
    refine ⟨j, n :: ns, Star.step (ns := [n]) (RS.choiceAlias g72 ?_) k1, k2, ?_, .char h3 h4 k4⟩
    · refine OS.two (m := some (k, [n])) (m' := none) h1 (RS.seqNone g69 ?_)
      refine IS.one (m := none) h1 (by decide) (IS.fail ?_)
      refine RS.not (P := fun c => ![45, 94].contains c) (ps := [68]) (Ascii.contains (by decide)).not (by decide +kernel) h2 (members_head hm) (by simp) (by decide)
    · rw [core_cons (by rw [h3]; decide), k3]
  | @range a b cs rs t u ts ha hb hm ih =>
    intro i h
    have h : At input i (t ++ (45 :: (u ++ (ts ++ 93 :: s)))) := by simpa using h
    obtain ⟨k, n, h1, h2, h3, h4⟩ := classChar ha h
    obtain ⟨k', n', h1', h2', h3', h4'⟩ := classChar hb h2.next
    obtain ⟨j, ns, k1, k2, k3, k4⟩ := ih h2'
    have hr : RS input 69 i (some (k', [Node.mk (runes "char-range") i k' input [n, n']])) :=
      RS.seq g69 (IS.one h1 (by decide) (IS.one (RS.lit g68 g67 (by decide) h2 (by decide)) (by decide) (IS.one h1' (by decide) IS.end_)))
    have hlt : k < k' := Nat.lt_of_succ_lt (RS.lt (by decide) h1')
    refine ⟨j, _, Star.step (ns := [Node.mk (runes "char-range") i k' input [n, n']]) (RS.choiceAlias g72 ?_) k1, k2, ?_, ?_⟩
    · have := OS.two h1 hr
      rwa [better_right hlt] at this
    · rw [List.singleton_append, core_cons (by show runes "char-range" ≠ _; decide), k3]
    · refine .range rfl ?_ h4 h4' k4
      rw [content_mk, core_cons (by rw [h3]; decide), core_one (by rw [h3']; decide)]

theorem charClass {cs : List Rune} {rs : List (Rune × Rune)} {t : List Rune} (hw : WrittenMembers cs rs t) (h : At input i (91 :: t ++ 93 :: s)) :
    ∃ j n, RS input 75 i (some (j, [n])) ∧ At input j s ∧ n.name = runes "char-class" ∧ ExprNode n (.class_ false cs rs) := by
  obtain ⟨j, ns, h1, h2, h3, h4⟩ := members hw h.next
  refine ⟨j + 1, _, RS.seq g75 (IS.one (RS.lit g71 g70 (by decide) h (by decide)) (by decide) (IS.skip
    (RS.not (P := fun c => ![45, 94].contains c) (ps := [58]) (Ascii.contains (by decide)).not (by decide +kernel) h.next (members_head hw) (by simp) (by decide))
    (IS.star (by decide) h1 (IS.one (RS.lit g74 g73 (by decide) h2 (by decide)) (by decide) IS.end_) (by decide)))), h2.next, rfl, .class_ rfl ?_⟩
  rw [content_mk]
  simpa [core_append, h3] using h4

theorem charClassNot {cs : List Rune} {rs : List (Rune × Rune)} {t : List Rune} (hw : WrittenMembers cs rs t) (h : At input i (91 :: 94 :: t ++ 93 :: s)) :
    ∃ j n, RS input 75 i (some (j, [n])) ∧ At input j s ∧ n.name = runes "char-class" ∧ ExprNode n (.class_ true cs rs) := by
  obtain ⟨j, ns, h1, h2, h3, h4⟩ := members hw h.next.next
  refine ⟨j + 1, _, RS.seq g75 (IS.one (RS.lit g71 g70 (by decide) h (by decide)) (by decide) (IS.one (RS.singleNode g58 g57 (by decide) h.next (by decide)) (by decide)
    (IS.star (by decide) h1 (IS.one (RS.lit g74 g73 (by decide) h2 (by decide)) (by decide) IS.end_) (by decide)))), h2.next, rfl,
    .classNot (x := Node.mk (runes "class-not") (i + 1) (i + 1 + 1) input []) rfl ?_ rfl h4⟩
  show core ([Node.mk (runes "class-not") (i + 1) (i + 1 + 1) input []] ++ (ns ++ ([] ++ []))) = _
  rw [List.singleton_append, core_cons (by show runes "class-not" ≠ _; decide), core_append, h3]
  simp [core]

/-! ### Symbols -/

theorem ascii_symbol : Ascii isSymbolChar := (Ascii.contains (by decide)).not

theorem symbolChar (h : At input i (c :: s)) (hc : isSymbolChar c = true) : RS input 91 i (some (i + 1, [])) := by
  refine RS.single g91 g90 (by decide) h ?_
  have : ∀ c, matchChar [92, 32, 10, 9, 8, 12, 13, 11, 47, 46, 91, 93, 34, 123, 125, 94, 43, 42, 63, 124, 40, 41, 58, 61, 59] [] true c = isSymbolChar c := by
    intro c
    have e : (runes "\\ \n\t\x08\x0c\r\x0b/.[]\"{}^+*?|():=;") =
      [92, 32, 10, 9, 8, 12, 13, 11, 47, 46, 91, 93, 34, 123, 125, 94, 43, 42, 63, 124, 40, 41, 58, 61, 59] := by decide
    rw [isSymbolChar, e]
    rw [Bool.eq_iff_iff, matchChar_iff]
    simp [InClass]
  rw [this, hc]

theorem symbolChars : ∀ {t : List Rune} {i : Nat}, (∀ c ∈ t, isSymbolChar c = true) → Heads (fun c => !isSymbolChar c) s → At input i (t ++ s) →
    ∃ j, Star input 91 i j [] ∧ At input j s := by
  intro t
  induction t with
  | nil =>
    exact fun {i} _ hs h => ⟨i, .stop (RS.not ascii_symbol.not (ps := [91]) (by decide +kernel) h hs (by simp) (by decide)), h⟩
  | cons c t ih =>
    intro i hc hs h
    obtain ⟨j, h1, h2⟩ := ih (fun x hx => hc x (List.mem_cons_of_mem _ hx)) hs h.next
    exact ⟨j, Star.step (ns := []) (symbolChar h (hc c List.mem_cons_self)) h1, h2⟩

theorem symbol {t : List Rune} (hw : WrittenSymbol t) (hs : Heads (fun c => !isSymbolChar c) s) (h : At input i (t ++ s)) :
    ∃ j n, RS input 92 i (some (j, [n])) ∧ At input j s ∧ n.name = runes "symbol" ∧ Leaf n t := by
  cases t with
  | nil => exact absurd rfl hw.nonEmpty
  | cons c t =>
    obtain ⟨j, h1, h2⟩ := symbolChars (fun x hx => hw.chars x (List.mem_cons_of_mem _ hx)) hs h.next
    exact ⟨j, _, RS.seq g92 (IS.plus (by decide) (symbolChar h (hw.chars c List.mem_cons_self)) h1 IS.end_), h2, rfl, rfl, h.node_text h2 _ _⟩

/-! ### Numbers -/

def isDigit (c : Rune) : Bool := [48, 49, 50, 51, 52, 53, 54, 55, 56, 57].contains c

theorem ascii_digit : Ascii isDigit := Ascii.contains (by decide)

theorem digitChar (h : At input i (c :: s)) (hc : 48 ≤ c ∧ c ≤ 57) : RS input 99 i (some (i + 1, [])) :=
  RS.single g99 g98 (by decide) h ((matchChar_iff ..).2 (by simpa [InClass] using hc))

theorem digitChars : ∀ {t : List Rune} {i : Nat}, (∀ c ∈ t, 48 ≤ c ∧ c ≤ 57) → Heads (fun c => !isDigit c) s → At input i (t ++ s) →
    ∃ j, Star input 99 i j [] ∧ At input j s := by
  intro t
  induction t with
  | nil =>
    exact fun {i} _ hs h => ⟨i, .stop (RS.not ascii_digit.not (ps := [99]) (by decide +kernel) h hs (by simp) (by decide)), h⟩
  | cons c t ih =>
    intro i hc hs h
    obtain ⟨j, h1, h2⟩ := ih (fun x hx => hc x (List.mem_cons_of_mem _ hx)) hs h.next
    exact ⟨j, Star.step (ns := []) (digitChar h (hc c List.mem_cons_self)) h1, h2⟩

theorem number {t : List Rune} {v : Nat} (hw : WrittenNumber v t) (hs : Heads (fun c => !isDigit c) s) (h : At input i (t ++ s)) :
    ∃ j, RS input 100 i (some (j, [])) ∧ At input j s ∧ ∀ n, NumberNode (Node.mk n i j input []) v := by
  obtain ⟨h0, hd, hv⟩ := hw
  cases t with
  | nil => exact absurd rfl h0
  | cons c t =>
    obtain ⟨j, h1, h2⟩ := digitChars (fun x hx => hd x (List.mem_cons_of_mem _ hx)) hs h.next
    refine ⟨j, RS.seqAlias g100 (IS.plus (by decide) (digitChar h (hd c List.mem_cons_self)) h1 IS.end_), h2, fun n => ⟨_, ⟨rfl, h.node_text h2 _ _⟩, h0, hd, hv⟩⟩

/-! ### Quantifiers -/

/-- Layout ends at a text that starts with this character. -/
theorem outer_cons (h : (!isInner c) = true) : Outer (c :: s) := Heads.cons h

theorem number_outer {t : List Rune} {v : Nat} (hw : WrittenNumber v t) : Outer (t ++ s) := by
  cases t with
  | nil => exact absurd rfl hw.nonEmpty
  | cons c t =>
    refine Heads.cons ?_
    have := hw.digits c List.mem_cons_self
    simp only [isInner, Bool.not_eq_true', List.contains_eq_mem, decide_eq_false_iff_not]
    intro hm
    simp only [List.mem_cons, List.not_mem_nil, or_false] at hm
    have h1 := this.1
    rcases hm with rfl | rfl | rfl | rfl | rfl | rfl | rfl | rfl <;> exact absurd h1 (by decide)

theorem layout_heads {g : List Rune} {P : Rune → Bool} (hg : Layout g) (hP : ∀ c, isInner c = true → P c = true) (hs : Heads P s) : Heads P (g ++ s) := by
  cases hg with
  | nil => exact hs
  | space hc => exact Heads.cons (hP _ (isInner_space hc))
  | line => exact Heads.cons (hP _ (by decide))
  | block => exact Heads.cons (hP _ (by decide))

theorem inner_not_digit (c : Rune) (h : isInner c = true) : (!isDigit c) = true :=
  ascii_imp (Ascii.contains (by decide)) ascii_digit.not (by decide +kernel) c h

/-- An optional number with layout around it. -/
theorem limitSome {nm : Name} {g g' t : List Rune} {v : Nat} (hp : selfEnv.grammar p = some ⟨nm, false, .seq [(100, 1, 1)]⟩) (ho : ordinary p = true)
    (hn : nm ≠ runes "comment") (hg : Layout g) (hw : WrittenNumber v t) (hg' : Layout g') (hs : Outer s) (hd : Heads (fun c => !isDigit c) s)
    (h : At input i (g ++ (t ++ (g' ++ s)))) :
    ∃ j n ns, (∀ {items m}, IS input items 0 j m → IS input ((194, 0, -1) :: (p, 0, 1) :: (194, 0, -1) :: items) 0 i (prepend ns m)) ∧
      At input j s ∧ core ns = [n] ∧ n.name = nm ∧ NumberNode n v := by
  obtain ⟨j1, c1, a1, a2, a3⟩ := layout hg (number_outer hw) h
  obtain ⟨j2, b1, b2, b3⟩ := number hw (layout_heads hg' inner_not_digit hd) a2
  obtain ⟨j3, c2, d1, d2, d3⟩ := layout hg' hs b2
  refine ⟨j3, Node.mk nm j1 j2 input [], c1 ++ ([Node.mk nm j1 j2 input []] ++ c2), fun hi => ?_, d2, ?_, rfl, b3 _⟩
  · rw [← prepend_append, ← prepend_append]
    exact IS.star (by decide) a1 (IS.one (RS.seq hp (IS.one b1 (by decide) IS.end_)) ho (IS.star (by decide) d1 hi (by decide))) (by decide)
  · rw [core_append, core_append, a3.core, d3.core, core_one (n := Node.mk nm j1 j2 input []) hn]
    rfl

theorem limitNone {nm : Name} {g : List Rune} (hp : selfEnv.grammar p = some ⟨nm, false, .seq [(100, 1, 1)]⟩)
    (hg : Layout g) (hs : Outer s) (hd : Heads (fun c => !isDigit c) s) (h : At input i (g ++ s)) :
    ∃ j ns, (∀ {items m}, IS input items 0 j m → IS input ((194, 0, -1) :: (p, 0, 1) :: (194, 0, -1) :: items) 0 i (prepend ns m)) ∧
      At input j s ∧ core ns = [] := by
  obtain ⟨j1, c1, a1, a2, a3⟩ := layout hg hs h
  have h100 : RS input 100 j1 none := RS.not ascii_digit.not (ps := [100]) (by decide +kernel) a2 hd (by simp) (by decide)
  have h194 : Star input 194 j1 j1 [] := .stop (RS.not ascii_outer (ps := [194]) (by decide +kernel) a2 hs (by simp) (by decide))
  refine ⟨j1, c1, fun {items m} hi => ?_, a2, a3.core⟩
  refine IS.star (by decide) a1 (IS.skip (RS.seqNone hp (IS.fail h100)) ?_) (by decide)
  have := IS.star (mn := 0) (by decide) h194 hi (k := 0) (by decide)
  rwa [prepend_nil] at this

theorem braces {o : Ptr} {m : Match} (h : At input i (123 :: s)) (ho : o = 106 ∨ o = 115) (hm : RS input o i m)
    (hn : ∀ x, x = 106 ∨ x = 115 → x ≠ o → RS input x i none) : RS input 122 i m := by
  refine RS.choiceAlias g122 (OS.only (o := o) (by rcases ho with rfl | rfl <;> simp) hm ?_)
  intro x hx hne
  have hx' : (x = 106 ∨ x = 115) ∨ x ∈ [117, 119, 121] := by simpa [or_assoc] using hx
  clear hx
  rcases hx' with hx | hx
  · exact hn x hx hne
  · exact RS.not (ascii_is (by decide)) (by decide +kernel) h Heads.is hx (by clear hne; revert hx; revert x; decide)

theorem count_fail {g t g' : List Rune} {v : Nat} (hg : Layout g) (hw : WrittenNumber v t) (hg' : Layout g') (h : At input i (123 :: (g ++ (t ++ (g' ++ 44 :: s))))) :
    RS input 106 i none := by
  obtain ⟨j1, c1, a1, a2, a3⟩ := layout hg (number_outer hw) h.next
  obtain ⟨j2, b1, b2, b3⟩ := number hw (layout_heads hg' inner_not_digit (Heads.cons (by decide))) a2
  obtain ⟨j3, c2, d1, d2, d3⟩ := layout hg' (outer_cons (by decide)) b2
  exact RS.seqNone g106 (IS.one (m := none) (RS.lit g103 g102 (by decide) h (by decide)) (by decide) (IS.star (m := none) (by decide) a1
      (IS.one (m := none) (RS.seq g101 (IS.one b1 (by decide) IS.end_)) (by decide) (IS.star (m := none) (by decide) d1
      (IS.fail (RS.notChar (by decide) (by decide +kernel) d2 (by decide))) (by decide))) (by decide)))

theorem count_fail' {g : List Rune} (hg : Layout g) (h : At input i (123 :: (g ++ 44 :: s))) : RS input 106 i none := by
  obtain ⟨j1, c1, a1, a2, a3⟩ := layout hg (outer_cons (by decide)) h.next
  exact RS.seqNone g106 (IS.one (m := none) (RS.lit g103 g102 (by decide) h (by decide)) (by decide) (IS.star (m := none) (by decide) a1
      (IS.fail (RS.notChar (by decide) (by decide +kernel) a2 (by decide))) (by decide)))

theorem range_only {m : Match} (h : At input i (123 :: s)) (h6 : RS input 106 i none) (hm : RS input 115 i m) : RS input 122 i m :=
  braces h (.inr rfl) hm fun x hx hne => by
    obtain rfl : x = 106 := hx.resolve_right hne
    exact h6

theorem quantifier {q : Quantifier} {t : List Rune} (hw : WrittenQuantifier q t) (h : At input i (t ++ s)) :
    ∃ j n, RS input 122 i (some (j, [n])) ∧ At input j s ∧ n.name ≠ runes "comment" ∧ QuantifierNode n q := by
  have hrn : runes "range-quantifier" ≠ runes "comment" := by decide
  cases hw with
  | @exactly n g t g' hg ht hg' =>
    have h : At input i (123 :: (g ++ (t ++ (g' ++ 125 :: s)))) := by simpa using h
    have hd : Heads (fun c => !isDigit c) (g' ++ 125 :: s) := layout_heads hg' inner_not_digit (Heads.cons (by decide))
    obtain ⟨j1, c1, a1, a2, a3⟩ := layout hg (number_outer ht) h.next
    obtain ⟨j2, b1, b2, b3⟩ := number ht hd a2
    obtain ⟨j3, c2, d1, d2, d3⟩ := layout hg' (outer_cons (by decide)) b2
    have h106 := RS.seq g106 (IS.one (RS.lit g103 g102 (by decide) h (by decide)) (by decide) (IS.star (by decide) a1
      (IS.one (RS.seq g101 (IS.one b1 (by decide) IS.end_)) (by decide) (IS.star (by decide) d1
      (IS.one (RS.lit g105 g104 (by decide) d2 (by decide)) (by decide) IS.end_) (by decide))) (by decide)))
    have h115 : RS input 115 i none := RS.seqNone g115 (IS.one (m := none) (RS.lit g110 g109 (by decide) h (by decide)) (by decide) (IS.star (m := none) (by decide) a1
      (IS.one (m := none) (RS.seq g107 (IS.one b1 (by decide) IS.end_)) (by decide) (IS.star (m := none) (by decide) d1
      (IS.fail (RS.notChar (by decide) (by decide +kernel) d2 (by decide))) (by decide))) (by decide)))
    refine ⟨_, _, braces h (.inl rfl) h106 fun x hx hne => ?_, d2.next, (by show runes "count-quantifier" ≠ _; decide), ?_⟩
    · obtain rfl : x = 115 := hx.resolve_left hne
      exact h115
    · refine .exactly (c := Node.mk (runes "count") j1 j2 input []) rfl ?_ (b3 _)
      rw [content_mk]
      simp only [List.nil_append, List.append_nil, core_append, a3.core, d3.core]
      rfl
  | @between n m g a g1 g2 b g3 hg ha hg1 hg2 hb hg3 =>
    have h : At input i (123 :: (g ++ (a ++ (g1 ++ 44 :: (g2 ++ (b ++ (g3 ++ 125 :: s))))))) := by simpa using h
    obtain ⟨j1, n1, ns1, a1, a2, a3, a4, a5⟩ := limitSome g107 (by decide) (by decide) hg ha hg1 (outer_cons (by decide)) (Heads.cons (by decide)) h.next
    obtain ⟨j2, n2, ns2, b1, b2, b3, b4, b5⟩ := limitSome g108 (by decide) (by decide) hg2 hb hg3 (outer_cons (by decide)) (Heads.cons (by decide)) a2.next
    refine ⟨_, _, range_only h (count_fail hg ha hg1 h) (RS.seq g115 (IS.one (RS.lit g110 g109 (by decide) h (by decide)) (by decide)
      (a1 (IS.one (RS.lit g112 g111 (by decide) a2 (by decide)) (by decide) (b1 (IS.one (RS.lit g114 g113 (by decide) b2 (by decide)) (by decide) IS.end_)))))),
      b2.next, hrn, .between rfl ?_ a4 a5 b4 b5⟩
    rw [content_mk]
    simp [core_append, a3, b3]
  | @atLeast n g a g1 g2 hg ha hg1 hg2 =>
    have h : At input i (123 :: (g ++ (a ++ (g1 ++ 44 :: (g2 ++ 125 :: s))))) := by simpa using h
    obtain ⟨j1, n1, ns1, a1, a2, a3, a4, a5⟩ := limitSome g107 (by decide) (by decide) hg ha hg1 (outer_cons (by decide)) (Heads.cons (by decide)) h.next
    obtain ⟨j2, ns2, b1, b2, b3⟩ := limitNone g108 hg2 (outer_cons (by decide)) (Heads.cons (by decide)) a2.next
    refine ⟨_, _, range_only h (count_fail hg ha hg1 h) (RS.seq g115 (IS.one (RS.lit g110 g109 (by decide) h (by decide)) (by decide)
      (a1 (IS.one (RS.lit g112 g111 (by decide) a2 (by decide)) (by decide) (b1 (IS.one (RS.lit g114 g113 (by decide) b2 (by decide)) (by decide) IS.end_)))))),
      b2.next, hrn, .atLeast rfl ?_ a4 a5⟩
    rw [content_mk]
    simp [core_append, a3, b3]
  | @atMost m g g2 b g3 hg hg2 hb hg3 =>
    have h : At input i (123 :: (g ++ 44 :: (g2 ++ (b ++ (g3 ++ 125 :: s))))) := by simpa using h
    obtain ⟨j1, ns1, a1, a2, a3⟩ := limitNone g107 hg (outer_cons (by decide)) (Heads.cons (by decide)) h.next
    obtain ⟨j2, n2, ns2, b1, b2, b3, b4, b5⟩ := limitSome g108 (by decide) (by decide) hg2 hb hg3 (outer_cons (by decide)) (Heads.cons (by decide)) a2.next
    refine ⟨_, _, range_only h (count_fail' hg h) (RS.seq g115 (IS.one (RS.lit g110 g109 (by decide) h (by decide)) (by decide)
      (a1 (IS.one (RS.lit g112 g111 (by decide) a2 (by decide)) (by decide) (b1 (IS.one (RS.lit g114 g113 (by decide) b2 (by decide)) (by decide) IS.end_)))))),
      b2.next, hrn, .atMost rfl ?_ b4 b5⟩
    rw [content_mk]
    simp [core_append, a3, b3]
  | @unbounded g g2 hg hg2 =>
    have h : At input i (123 :: (g ++ 44 :: (g2 ++ 125 :: s))) := by simpa using h
    obtain ⟨j1, ns1, a1, a2, a3⟩ := limitNone g107 hg (outer_cons (by decide)) (Heads.cons (by decide)) h.next
    obtain ⟨j2, ns2, b1, b2, b3⟩ := limitNone g108 hg2 (outer_cons (by decide)) (Heads.cons (by decide)) a2.next
    refine ⟨_, _, range_only h (count_fail' hg h) (RS.seq g115 (IS.one (RS.lit g110 g109 (by decide) h (by decide)) (by decide)
      (a1 (IS.one (RS.lit g112 g111 (by decide) a2 (by decide)) (by decide) (b1 (IS.one (RS.lit g114 g113 (by decide) b2 (by decide)) (by decide) IS.end_)))))),
      b2.next, hrn, .unbounded rfl ?_⟩
    rw [content_mk]
    simp [core_append, a3, b3]
  | oneOrMore =>
    exact ⟨_, _, RS.choiceAlias g122 (OS.pickChar (o := 117) (by decide) (by decide +kernel) (by decide) h (by decide)
      (RS.singleNode g117 g116 (by decide) h (by decide))), h.next, (by show runes "one-or-more" ≠ _; decide), .oneOrMore rfl⟩
  | zeroOrMore =>
    exact ⟨_, _, RS.choiceAlias g122 (OS.pickChar (o := 119) (by decide) (by decide +kernel) (by decide) h (by decide)
      (RS.singleNode g119 g118 (by decide) h (by decide))), h.next, (by show runes "zero-or-more" ≠ _; decide), .zeroOrMore rfl⟩
  | zeroOrOne =>
    exact ⟨_, _, RS.choiceAlias g122 (OS.pickChar (o := 121) (by decide) (by decide +kernel) (by decide) h (by decide)
      (RS.singleNode g121 g120 (by decide) h (by decide))), h.next, (by show runes "zero-or-one" ≠ _; decide), .zeroOrOne rfl⟩

end SelfG
end Treerack
