import Verif.Spec.Written

/-
A reader for the notation of documents.  It is not part of the model: it serves for showing that a concrete text is the notation
of a document (`readDocument_sound`).
-/

namespace Treerack

open Spec

/-! ### Whitespace and comments -/

/-- The text behind the first new line. -/
def skipLine : List Rune → Option (List Rune)
  | [] => none
  | c :: t => if c = 10 then some t else skipLine t

theorem skipLine_sound {t r : List Rune} (h : skipLine t = some r) : ∃ b, t = b ++ 10 :: r ∧ 10 ∉ b := by
  induction t with
  | nil => cases h
  | cons c t ih =>
    simp only [skipLine] at h
    by_cases hc : c = 10
    · rw [if_pos hc] at h
      cases h
      exact ⟨[], by simp [hc], by simp⟩
    · rw [if_neg hc] at h
      obtain ⟨b, rfl, hb⟩ := ih h
      exact ⟨c :: b, rfl, by simp only [List.mem_cons, not_or]; exact ⟨fun e => hc e.symm, hb⟩⟩

/-- The text behind the end of a block comment. -/
def skipBlock : Nat → List Rune → Option (List Rune)
  | 0, _ => none
  | n + 1, t =>
    match t with
    | 42 :: c :: t => if c = 47 then some t else skipBlock n t
    | c :: t => if c = 42 then none else skipBlock n t
    | [] => none

theorem skipBlock_sound {n : Nat} {t r : List Rune} (h : skipBlock n t = some r) :
    ∃ b, t = b ++ 42 :: 47 :: r ∧ CommentBody b := by
  induction n generalizing t with
  | zero => cases h
  | succ n ih =>
    unfold skipBlock at h
    split at h
    · rename_i c t
      by_cases hc : c = 47
      · rw [if_pos hc] at h
        cases h
        exact ⟨[], by simp [hc], .nil⟩
      · rw [if_neg hc] at h
        obtain ⟨b, rfl, hb⟩ := ih h
        exact ⟨42 :: c :: b, rfl, .star hc hb⟩
    · rename_i c t _
      by_cases hc : c = 42
      · rw [if_pos hc] at h; cases h
      · rw [if_neg hc] at h
        obtain ⟨b, rfl, hb⟩ := ih h
        exact ⟨c :: b, rfl, .char hc hb⟩
    · cases h

/-- The text behind whitespace and comments. -/
def readLayout : Nat → List Rune → List Rune
  | 0, t => t
  | n + 1, t =>
    match t with
    | [] => []
    | 47 :: 47 :: u =>
      match skipLine u with
      | some r => readLayout n r
      | none => t
    | 47 :: 42 :: u =>
      match skipBlock n u with
      | some r => readLayout n r
      | none => t
    | c :: u => if isSpace c then readLayout n u else t

theorem readLayout_sound (n : Nat) (t : List Rune) : ∃ g, t = g ++ readLayout n t ∧ Layout g := by
  induction n generalizing t with
  | zero => exact ⟨[], rfl, .nil⟩
  | succ n ih =>
    unfold readLayout
    split
    · exact ⟨[], rfl, .nil⟩
    · rename_i u
      split
      · rename_i r hr
        obtain ⟨b, rfl, hb⟩ := skipLine_sound hr
        obtain ⟨g, e, hg⟩ := ih r
        refine ⟨_, ?_, .line hb hg⟩
        simp only [List.cons_append, List.append_assoc]
        rw [← e]
      · exact ⟨[], rfl, .nil⟩
    · rename_i u
      split
      · rename_i r hr
        obtain ⟨b, rfl, hb⟩ := skipBlock_sound hr
        obtain ⟨g, e, hg⟩ := ih r
        refine ⟨_, ?_, .block hb hg⟩
        simp only [List.cons_append, List.append_assoc]
        rw [← e]
      · exact ⟨[], rfl, .nil⟩
    · rename_i c u _ _
      by_cases hs : isSpace c = true
      · rw [if_pos hs]
        obtain ⟨g, e, hg⟩ := ih u
        exact ⟨c :: g, congrArg (c :: ·) e, .space hs hg⟩
      · rw [if_neg hs]
        exact ⟨[], rfl, .nil⟩

/-! ### Characters and numbers -/

/-- The character that an escaped character stands for. -/
def denoted (x : Rune) : Rune :=
  match controls.find? (fun p => p.1 == x) with
  | some p => p.2
  | none => x

theorem denoted_sound (x : Rune) : Denotes x (denoted x) := by
  unfold denoted
  split
  · rename_i p h
    have h1 := List.find?_some h
    have h2 := List.mem_of_find?_eq_some h
    have h1 : p.1 = x := by simpa using h1
    subst h1
    exact .inl h2
  · rename_i h
    refine .inr ⟨?_, rfl⟩
    intro d hd
    have := List.find?_eq_none.1 h _ hd
    simp at this

/-- A character, and the text behind it. -/
def readChar (special : List Rune) : List Rune → Option (Rune × List Rune)
  | [] => none
  | c :: t =>
    if c ∈ special then
      match c, t with
      | 92, x :: u => some (denoted x, u)
      | _, _ => none
    else some (c, t)

theorem readChar_sound {special t r : List Rune} {c : Rune} (h : readChar special t = some (c, r)) :
    ∃ u, t = u ++ r ∧ WrittenChar special c u := by
  unfold readChar at h
  split at h
  · cases h
  · rename_i d t
    by_cases hd : d ∈ special
    · rw [if_pos hd] at h
      split at h
      · cases h
        exact ⟨_, rfl, .escaped (denoted_sound _)⟩
      · cases h
    · rw [if_neg hd] at h
      cases h
      exact ⟨_, rfl, .plain hd⟩

/-- The characters up to the closing quote, and the text behind it. -/
def readChars : Nat → List Rune → Option (List Rune × List Rune)
  | 0, _ => none
  | n + 1, t =>
    match t with
    | 34 :: r => some ([], r)
    | t =>
      match readChar quoteSpecial t with
      | some (c, r) =>
        match readChars n r with
        | some (cs, r) => some (c :: cs, r)
        | none => none
      | none => none

theorem readChars_sound {n : Nat} {t r cs : List Rune} (h : readChars n t = some (cs, r)) :
    ∃ u, t = u ++ 34 :: r ∧ WrittenChars cs u := by
  induction n generalizing t cs with
  | zero => cases h
  | succ n ih =>
    unfold readChars at h
    split at h
    · cases h
      exact ⟨[], rfl, .nil⟩
    · split at h
      · rename_i c r1 hc
        split at h
        · rename_i cs r2 hr
          cases h
          obtain ⟨u, rfl, hu⟩ := readChar_sound hc
          obtain ⟨v, rfl, hv⟩ := ih hr
          exact ⟨_, by simp, .cons hu hv⟩
        · cases h
      · cases h

/-- The members of a class up to the closing bracket, and the text behind it. -/
def readMembers : Nat → List Rune → Option (List Rune × List (Rune × Rune) × List Rune)
  | 0, _ => none
  | n + 1, t =>
    match t with
    | 93 :: r => some ([], [], r)
    | t =>
      match readChar classSpecial t with
      | some (a, 45 :: r) =>
        match readChar classSpecial r with
        | some (b, r) =>
          match readMembers n r with
          | some (cs, rs, r) => some (cs, (a, b) :: rs, r)
          | none => none
        | none => none
      | some (a, r) =>
        match readMembers n r with
        | some (cs, rs, r) => some (a :: cs, rs, r)
        | none => none
      | none => none

theorem readMembers_sound {n : Nat} {t r cs : List Rune} {rs : List (Rune × Rune)} (h : readMembers n t = some (cs, rs, r)) :
    ∃ u, t = u ++ 93 :: r ∧ WrittenMembers cs rs u := by
  induction n generalizing t cs rs with
  | zero => cases h
  | succ n ih =>
    unfold readMembers at h
    split at h
    · cases h
      exact ⟨[], rfl, .nil⟩
    · split at h
      · rename_i a r1 ha
        split at h
        · rename_i b r2 hb
          split at h
          · rename_i cs rs r3 hr
            cases h
            obtain ⟨u, rfl, hu⟩ := readChar_sound ha
            obtain ⟨v, rfl, hv⟩ := readChar_sound hb
            obtain ⟨w, rfl, hw⟩ := ih hr
            exact ⟨_, by simp, .range hu hv hw⟩
          · cases h
        · cases h
      · rename_i a r1 _ ha
        split at h
        · rename_i cs rs r3 hr
          cases h
          obtain ⟨u, rfl, hu⟩ := readChar_sound ha
          obtain ⟨w, rfl, hw⟩ := ih hr
          exact ⟨_, by simp, .char hu hw⟩
        · cases h
      · cases h

/-- A number, and the text behind it. -/
def readNumber (t : List Rune) : Option (Nat × List Rune) :=
  match t.takeWhile (fun c => decide (48 ≤ c ∧ c ≤ 57)) with
  | [] => none
  | ds => some (decimal ds, t.dropWhile (fun c => decide (48 ≤ c ∧ c ≤ 57)))

theorem of_takeWhile {α : Type} {p : α → Bool} {l : List α} {a : α} (h : a ∈ l.takeWhile p) : p a = true := by
  induction l with
  | nil => cases h
  | cons b l ih =>
    rw [List.takeWhile_cons] at h
    split at h
    · rename_i hb
      rcases List.mem_cons.1 h with rfl | h
      · exact hb
      · exact ih h
    · cases h

theorem readNumber_sound {t r : List Rune} {v : Nat} (h : readNumber t = some (v, r)) : ∃ u, t = u ++ r ∧ WrittenNumber v u := by
  unfold readNumber at h
  split at h
  · cases h
  · rename_i hne
    cases h
    refine ⟨_, List.takeWhile_append_dropWhile.symm, hne, ?_, rfl⟩
    intro d hd
    simpa using of_takeWhile hd

/-- A symbol, and the text behind it. -/
def readSymbol (t : List Rune) : Option (Name × List Rune) :=
  match t.takeWhile isSymbolChar with
  | [] => none
  | s => some (s, t.dropWhile isSymbolChar)

theorem readSymbol_sound {t r : List Rune} {s : Name} (h : readSymbol t = some (s, r)) : t = s ++ r ∧ WrittenSymbol s := by
  unfold readSymbol at h
  split at h
  · cases h
  · rename_i hne
    cases h
    exact ⟨List.takeWhile_append_dropWhile.symm, hne, fun c hc => of_takeWhile hc⟩

/-! ### Expressions -/

/-- The quantifier behind an item, when there is one, and the text behind it. -/
def readQuantifier (n : Nat) : List Rune → Option (Option Quantifier × List Rune)
  | 43 :: r => some (some .oneOrMore, r)
  | 42 :: r => some (some .zeroOrMore, r)
  | 63 :: r => some (some .zeroOrOne, r)
  | 123 :: r =>
    let r := readLayout n r
    match readNumber r with
    | some (v, r) =>
      match readLayout n r with
      | 125 :: r => some (some (.exactly v), r)
      | 44 :: r =>
        let r := readLayout n r
        match readNumber r with
        | some (m, r) =>
          match readLayout n r with
          | 125 :: r => some (some (.between v m), r)
          | _ => none
        | none =>
          match r with
          | 125 :: r => some (some (.atLeast v), r)
          | _ => none
      | _ => none
    | none =>
      match r with
      | 44 :: r =>
        let r := readLayout n r
        match readNumber r with
        | some (m, r) =>
          match readLayout n r with
          | 125 :: r => some (some (.atMost m), r)
          | _ => none
        | none =>
          match r with
          | 125 :: r => some (some .unbounded, r)
          | _ => none
      | _ => none
  | t => some (none, t)

/-- An optional quantifier. -/
inductive WrittenQuantity : Option Quantifier → List Rune → Prop
  | none : WrittenQuantity none []
  | some {q : Quantifier} {u : List Rune} : WrittenQuantifier q u → WrittenQuantity (some q) u

theorem readQuantifier_sound {n : Nat} {t r : List Rune} {q : Option Quantifier} (h : readQuantifier n t = some (q, r)) :
    ∃ u, t = u ++ r ∧ WrittenQuantity q u := by
  unfold readQuantifier at h
  split at h
  · cases h; exact ⟨_, rfl, .some .oneOrMore⟩
  · cases h; exact ⟨_, rfl, .some .zeroOrMore⟩
  · cases h; exact ⟨_, rfl, .some .zeroOrOne⟩
  · rename_i r0
    obtain ⟨g0, e0, hg0⟩ := readLayout_sound n r0
    generalize readLayout n r0 = r1 at h e0
    subst e0
    dsimp only at h
    split at h
    · rename_i v r2 hv
      obtain ⟨a, rfl, ha⟩ := readNumber_sound hv
      obtain ⟨g1, e1, hg1⟩ := readLayout_sound n r2
      generalize readLayout n r2 = r3 at h e1
      subst e1
      split at h
      · cases h
        exact ⟨_, by simp, .some (.exactly hg0 ha hg1)⟩
      · rename_i r4
        obtain ⟨g2, e2, hg2⟩ := readLayout_sound n r4
        generalize readLayout n r4 = r5 at h e2
        subst e2
        split at h
        · rename_i m r6 hm
          obtain ⟨b, rfl, hb⟩ := readNumber_sound hm
          obtain ⟨g3, e3, hg3⟩ := readLayout_sound n r6
          generalize readLayout n r6 = r7 at h e3
          subst e3
          split at h
          · cases h
            exact ⟨_, by simp, .some (.between hg0 ha hg1 hg2 hb hg3)⟩
          · cases h
        · split at h
          · cases h
            exact ⟨_, by simp, .some (.atLeast hg0 ha hg1 hg2)⟩
          · cases h
      · cases h
    · split at h
      · rename_i r4 _
        obtain ⟨g2, e2, hg2⟩ := readLayout_sound n r4
        generalize readLayout n r4 = r5 at h e2
        subst e2
        split at h
        · rename_i m r6 hm
          obtain ⟨b, rfl, hb⟩ := readNumber_sound hm
          obtain ⟨g3, e3, hg3⟩ := readLayout_sound n r6
          generalize readLayout n r6 = r7 at h e3
          subst e3
          split at h
          · cases h
            exact ⟨_, by simp, .some (.atMost hg0 hg2 hb hg3)⟩
          · cases h
        · split at h
          · cases h
            exact ⟨_, by simp, .some (.unbounded hg0 hg2)⟩
          · cases h
      · cases h
  · cases h
    exact ⟨[], rfl, .none⟩

/-- The characters with which an item can begin. -/
def beginsItem (c : Rune) : Bool := c == 46 || c == 91 || c == 34 || c == 40 || isSymbolChar c

/-- The item is a symbol without a quantifier. -/
def endsInSymbol : DExpr → Option Quantifier → Bool
  | .symbol _, none => true
  | _, _ => false

/-- An item without a quantifier stands for itself. -/
def asOption : DItems → DExpr
  | .cons e none .nil => e
  | is => .seq is

mutual

def readPrimary : Nat → List Rune → Option (DExpr × List Rune)
  | 0, _ => none
  | n + 1, t =>
    match t with
    | 46 :: r => some (.any, r)
    | 91 :: 94 :: r =>
      match readMembers n r with
      | some (cs, rs, r) => some (.class_ true cs rs, r)
      | none => none
    | 91 :: r =>
      match readMembers n r with
      | some (cs, rs, r) => some (.class_ false cs rs, r)
      | none => none
    | 34 :: r =>
      match readChars n r with
      | some (cs, r) => some (.chars cs, r)
      | none => none
    | 40 :: r =>
      match readExpr n (readLayout n r) with
      | some (e, r) =>
        match readLayout n r with
        | 41 :: r => some (e, r)
        | _ => none
      | none => none
    | t =>
      match readSymbol t with
      | some (s, r) => some (.symbol s, r)
      | none => none

def readItems : Nat → List Rune → Option (DItems × List Rune)
  | 0, _ => none
  | n + 1, t =>
    match readPrimary n t with
    | none => none
    | some (e, r) =>
      match readQuantifier n r with
      | none => none
      | some (q, r) =>
        match readLayout n r with
        | c :: u =>
          if beginsItem c then
            if endsInSymbol e q && isSymbolChar c && r.length == (c :: u).length then none
            else
              match readItems n (c :: u) with
              | some (is, r) => some (.cons e q is, r)
              | none => none
          else some (.cons e q .nil, r)
        | [] => some (.cons e q .nil, r)

def readOptions : Nat → List Rune → Option (DOptions × List Rune)
  | 0, _ => none
  | n + 1, t =>
    match readItems n t with
    | none => none
    | some (is, r) =>
      let e := asOption is
      match readLayout n r with
      | 124 :: u =>
        match readOptions n (readLayout n u) with
        | some (os, r) => some (.cons e os, r)
        | none => none
      | _ => some (.cons e .nil, r)

def readExpr : Nat → List Rune → Option (DExpr × List Rune)
  | 0, _ => none
  | n + 1, t =>
    match readOptions n t with
    | some (.cons e .nil, r) => some (e, r)
    | some (os, r) => some (.choice os, r)
    | none => none

end

theorem WrittenQuantifier.last {q : Quantifier} {u : List Rune} (h : WrittenQuantifier q u) :
    ∃ v c, u = v ++ [c] ∧ isSymbolChar c = false := by
  cases h
  all_goals first
    | exact ⟨_, 125, rfl, by decide⟩
    | exact ⟨[], 43, rfl, by decide⟩
    | exact ⟨[], 42, rfl, by decide⟩
    | exact ⟨[], 63, rfl, by decide⟩

theorem WrittenPrimary.last {e : DExpr} {t : List Rune} (h : WrittenPrimary e t) :
    (∃ s, e = .symbol s) ∨ ∃ v c, t = v ++ [c] ∧ isSymbolChar c = false := by
  cases h
  · exact .inr ⟨[], 46, rfl, by decide⟩
  · exact .inr ⟨_, 93, rfl, by decide⟩
  · exact .inr ⟨_, 93, rfl, by decide⟩
  · exact .inr ⟨_, 34, rfl, by decide⟩
  · exact .inl ⟨_, rfl⟩
  · exact .inr ⟨_, 41, rfl, by decide⟩

theorem readExprs_sound (n : Nat) :
    (∀ t e r, readPrimary n t = some (e, r) → ∃ u, t = u ++ r ∧ WrittenPrimary e u) ∧
    (∀ t is r, readItems n t = some (is, r) → ∃ u, t = u ++ r ∧ WrittenItems is u) ∧
    (∀ t os r, readOptions n t = some (os, r) → ∃ u, t = u ++ r ∧ WrittenOptions os u) ∧
    (∀ t e r, readExpr n t = some (e, r) → ∃ u, t = u ++ r ∧ WrittenExpr e u) := by
  induction n with
  | zero =>
    refine ⟨?_, ?_, ?_, ?_⟩ <;> intro t x r h
    · simp [readPrimary] at h
    · simp [readItems] at h
    · simp [readOptions] at h
    · simp [readExpr] at h
  | succ n ih =>
    obtain ⟨ihP, ihI, ihO, ihE⟩ := ih
    refine ⟨?_, ?_, ?_, ?_⟩
    · intro t e r h
      unfold readPrimary at h
      split at h
      · cases h
        exact ⟨_, rfl, .any⟩
      · split at h
        · rename_i cs rs r1 hm
          cases h
          obtain ⟨u, rfl, hu⟩ := readMembers_sound hm
          exact ⟨_, by simp, .classNot hu⟩
        · cases h
      · split at h
        · rename_i cs rs r1 hm
          cases h
          obtain ⟨u, rfl, hu⟩ := readMembers_sound hm
          exact ⟨_, by simp, .class_ hu⟩
        · cases h
      · split at h
        · rename_i cs r1 hm
          cases h
          obtain ⟨u, rfl, hu⟩ := readChars_sound hm
          exact ⟨_, by simp, .chars hu⟩
        · cases h
      · rename_i r0
        obtain ⟨g, eg, hg⟩ := readLayout_sound n r0
        split at h
        · rename_i e1 r1 he
          obtain ⟨u, eu, hu⟩ := ihE _ _ _ he
          obtain ⟨g', eg', hg'⟩ := readLayout_sound n r1
          split at h
          · rename_i r2 hr
            cases h
            rw [hr] at eg'
            refine ⟨_, ?_, .group hg hu hg'⟩
            rw [eg, eu, eg']
            simp
          · cases h
        · cases h
      · split at h
        · rename_i s r1 hs
          cases h
          obtain ⟨rfl, hw⟩ := readSymbol_sound hs
          exact ⟨_, rfl, .symbol hw⟩
        · cases h
    · intro t is r h
      unfold readItems at h
      split at h
      · cases h
      · rename_i e r1 he
        obtain ⟨u, rfl, hu⟩ := ihP _ _ _ he
        split at h
        · cases h
        · rename_i q r2 hq
          obtain ⟨v, rfl, hv⟩ := readQuantifier_sound hq
          have hitem : WrittenItem e q (u ++ v) := by
            cases hv with
            | none => simpa using WrittenItem.once hu
            | some hv => exact .many hu hv
          obtain ⟨g, eg, hg⟩ := readLayout_sound n r2
          split at h
          · rename_i c w hw
            rw [hw] at eg
            split at h
            · split at h
              · cases h
              · rename_i hmerge
                split at h
                · rename_i is' r3 hr
                  cases h
                  obtain ⟨x, ex, hx⟩ := ihI _ _ _ hr
                  refine ⟨_, ?_, .cons hitem hg hx ?_⟩
                  · rw [eg, ex]; simp
                  · rintro rfl ⟨⟨a, ha, has⟩, b, hb, hbs⟩
                    apply hmerge
                    have hlen : (r2.length == (c :: w).length) = true := by rw [eg]; simp
                    have hc : isSymbolChar c = true := by
                      cases x with
                      | nil => cases hb
                      | cons d x =>
                        simp only [List.head?_cons, Option.some.injEq] at hb
                        subst hb
                        simp only [List.cons_append, List.cons.injEq] at ex
                        rw [ex.1]
                        exact hbs
                    have he : endsInSymbol e q = true := by
                      cases hv with
                      | some hv =>
                        obtain ⟨v', c', rfl, hc'⟩ := WrittenQuantifier.last hv
                        rw [← List.append_assoc, List.getLast?_concat] at ha
                        cases ha
                        rw [hc'] at has
                        cases has
                      | none =>
                        rcases WrittenPrimary.last hu with ⟨s, rfl⟩ | ⟨v', c', rfl, hc'⟩
                        · rfl
                        · rw [List.append_nil, List.getLast?_concat] at ha
                          cases ha
                          rw [hc'] at has
                          cases has
                    rw [he, hc, hlen]
                    rfl
                · cases h
            · cases h
              exact ⟨_, by simp, .one hitem⟩
          · cases h
            exact ⟨_, by simp, .one hitem⟩
    · intro t os r h
      unfold readOptions at h
      split at h
      · cases h
      · rename_i is r1 hi
        obtain ⟨u, rfl, hu⟩ := ihI _ _ _ hi
        have hopt : WrittenOption (asOption is) u := by
          clear h hi
          unfold asOption
          split
          · cases hu with
            | one hi =>
              cases hi with
              | once hp => exact .primary hp
            | cons _ _ hu _ => cases hu
          · rename_i is hne
            refine .seq hu ?_
            cases hu with
            | one hi =>
              cases hi with
              | once hp => exact absurd rfl (hne _)
              | many => exact trivial
            | cons _ _ hu _ => cases hu <;> exact trivial
        generalize asOption is = e at h hopt
        dsimp only at h
        obtain ⟨g, eg, hg⟩ := readLayout_sound n r1
        split at h
        · rename_i w hw
          rw [hw] at eg
          obtain ⟨g', eg', hg'⟩ := readLayout_sound n w
          split at h
          · rename_i os' r2 ho
            cases h
            obtain ⟨x, ex, hx⟩ := ihO _ _ _ ho
            refine ⟨_, ?_, .cons hopt hg hg' hx⟩
            rw [eg, eg', ex]
            simp
          · cases h
        · cases h
          exact ⟨_, rfl, .one hopt⟩
    · intro t e r h
      unfold readExpr at h
      split at h
      · rename_i e' r' ho
        cases h
        obtain ⟨u, rfl, hu⟩ := ihO _ _ _ ho
        cases hu with
        | one hu => exact ⟨_, rfl, .option hu⟩
        | cons _ _ _ hu => cases hu
      · rename_i os r' hne ho
        cases h
        obtain ⟨u, rfl, hu⟩ := ihO _ _ _ ho
        cases hu with
        | one hu => exact absurd rfl (fun h => hne _ h)
        | cons h1 h2 h3 h4 => exact ⟨_, rfl, .choice h1 h2 h3 h4⟩
      · cases h

/-! ### Definitions -/

/-- The flags, and the text behind them. -/
def readFlags : Nat → List Rune → Option (List Name × List Rune)
  | 0, _ => none
  | n + 1, t =>
    match t with
    | 58 :: r =>
      match readSymbol r with
      | some (f, r) =>
        if f ∈ flagNames then
          match readFlags n r with
          | some (fs, r) => some (f :: fs, r)
          | none => none
        else none
      | none => none
    | t => some ([], t)

theorem readFlags_sound {n : Nat} {t r : List Rune} {fs : List Name} (h : readFlags n t = some (fs, r)) :
    t = fs.flatMap (fun f => 58 :: f) ++ r ∧ ∀ f ∈ fs, f ∈ flagNames := by
  induction n generalizing t fs with
  | zero => cases h
  | succ n ih =>
    unfold readFlags at h
    split at h
    · split at h
      · rename_i f r1 hf
        obtain ⟨rfl, -⟩ := readSymbol_sound hf
        split at h
        · rename_i hm
          split at h
          · rename_i fs r2 hr
            cases h
            obtain ⟨rfl, hfs⟩ := ih hr
            exact ⟨by simp, by simpa using ⟨hm, hfs⟩⟩
          · cases h
        · cases h
      · cases h
    · cases h
      exact ⟨rfl, by simp⟩

/-- A definition, and the text behind it. -/
def readDefinition (n : Nat) (t : List Rune) : Option (DDef × List Rune) :=
  match readSymbol t with
  | some (name, r) =>
    match readFlags n r with
    | some (fs, r) =>
      match readLayout n r with
      | 61 :: r =>
        match readExpr n (readLayout n r) with
        | some (e, r) => some (⟨name, flagsOf fs, e⟩, r)
        | none => none
      | _ => none
    | none => none
  | none => none

theorem readDefinition_sound {n : Nat} {t r : List Rune} {d : DDef} (h : readDefinition n t = some (d, r)) :
    ∃ u, t = u ++ r ∧ WrittenDefinition d u := by
  unfold readDefinition at h
  split at h
  · rename_i name r1 hs
    obtain ⟨rfl, hsym⟩ := readSymbol_sound hs
    split at h
    · rename_i fs r2 hf
      obtain ⟨rfl, hflags⟩ := readFlags_sound hf
      obtain ⟨g, eg, hg⟩ := readLayout_sound n r2
      split at h
      · rename_i r3 hr
        rw [hr] at eg
        obtain ⟨g', eg', hg'⟩ := readLayout_sound n r3
        split at h
        · rename_i e r4 he
          cases h
          obtain ⟨u, eu, hu⟩ := (readExprs_sound n).2.2.2 _ _ _ he
          refine ⟨_, ?_, .mk hsym hflags hg hg' hu⟩
          rw [eg, eg', eu]
          simp
        · cases h
      · cases h
    · cases h
  · cases h

/-- The number of semicolons, and the text behind them. -/
def readBetween : Nat → List Rune → Nat × List Rune
  | 0, t => (0, t)
  | n + 1, t =>
    match readLayout n t with
    | 59 :: r => ((readBetween n r).1 + 1, (readBetween n r).2)
    | r => (0, r)

theorem readBetween_sound (n : Nat) (t : List Rune) : ∃ u, t = u ++ (readBetween n t).2 ∧ Between (readBetween n t).1 u := by
  induction n generalizing t with
  | zero => exact ⟨[], rfl, .layout .nil⟩
  | succ n ih =>
    obtain ⟨g, eg, hg⟩ := readLayout_sound n t
    unfold readBetween
    split
    · rename_i r hr
      rw [hr] at eg
      obtain ⟨u, eu, hu⟩ := ih r
      refine ⟨_, ?_, .semicolon hg hu⟩
      rw [eg]
      simp only [List.append_assoc, List.cons_append]
      rw [← eu]
    · exact ⟨g, eg, .layout hg⟩

/-- The definitions, and the text behind them. -/
def readDefinitions : Nat → List Rune → Option (Document × List Rune)
  | 0, _ => none
  | n + 1, t =>
    match readDefinition n t with
    | none => none
    | some (d, r) =>
      match readBetween n r with
      | (_ + 1, c :: u) =>
        if isSymbolChar c then
          match readDefinitions n (c :: u) with
          | some (ds, r) => some (d :: ds, r)
          | none => none
        else some ([d], r)
      | _ => some ([d], r)

theorem readDefinitions_sound {n : Nat} {t r : List Rune} {ds : Document} (h : readDefinitions n t = some (ds, r)) :
    ∃ u, t = u ++ r ∧ WrittenDefinitions ds u := by
  induction n generalizing t ds with
  | zero => cases h
  | succ n ih =>
    unfold readDefinitions at h
    split at h
    · cases h
    · rename_i d r1 hd
      obtain ⟨u, rfl, hu⟩ := readDefinition_sound hd
      obtain ⟨b, eb, hb⟩ := readBetween_sound n r1
      split at h
      · rename_i k c w hr
        rw [hr] at eb hb
        split at h
        · split at h
          · rename_i ds r2 hds
            cases h
            obtain ⟨x, ex, hx⟩ := ih hds
            refine ⟨_, ?_, .cons hu hb hx⟩
            rw [eb]
            simp only at ex ⊢
            rw [ex]
            simp
          · cases h
        · cases h
          exact ⟨_, rfl, .one hu⟩
      · cases h
        exact ⟨_, rfl, .one hu⟩

/-- The document written as the text. -/
def readDocument (n : Nat) (t : List Rune) : Option Document :=
  match (readBetween n t).2 with
  | [] => some []
  | r =>
    match readDefinitions n r with
    | some (ds, r) => if (readBetween n r).2 = [] then some ds else none
    | none => none

theorem readDocument_sound {n : Nat} {t : List Rune} {doc : Document} (h : readDocument n t = some doc) :
    WrittenDocument doc t := by
  unfold readDocument at h
  obtain ⟨u, eu, hu⟩ := readBetween_sound n t
  split at h
  · rename_i hr
    cases h
    rw [hr] at eu
    rw [eu]
    exact .empty hu .none
  · split at h
    · rename_i ds r hds
      split at h
      · rename_i he
        cases h
        obtain ⟨v, ev, hv⟩ := readDefinitions_sound hds
        obtain ⟨w, ew, hw⟩ := readBetween_sound n r
        rw [he, List.append_nil] at ew
        rw [eu, ev, ew, ← List.append_assoc, ← List.append_nil (u ++ v ++ w)]
        exact .definitions hu hv hw .none
      · cases h
    · cases h

end Treerack
