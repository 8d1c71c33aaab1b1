import Verif.Spec.Lookahead

/-
A test for the grammars for which one character of lookahead is enough.  A failed test tells nothing.
-/

namespace Treerack
open Spec

/-- A character class: negated or not, the characters, and the ranges. -/
abbrev Class := Bool × List Rune × List (Rune × Rune)

def Class.Has (c : Class) (t : Rune) : Prop := InClass c.1 c.2.1 c.2.2 t

def Class.spans (c : Class) : List (Rune × Rune) := c.2.1.map (fun t => (t, t)) ++ c.2.2

theorem Class.has_iff {c : Class} {t : Rune} : c.Has t ↔ ((∃ r ∈ c.spans, r.1 ≤ t ∧ t ≤ r.2) ↔ c.1 = false) := by
  have : (t ∈ c.2.1 ∨ ∃ r ∈ c.2.2, r.1 ≤ t ∧ t ≤ r.2) ↔ ∃ r ∈ c.spans, r.1 ≤ t ∧ t ≤ r.2 := by
    simp only [Class.spans, List.mem_append, List.mem_map]
    constructor
    · rintro (h | ⟨r, h, h'⟩)
      · exact ⟨(t, t), .inl ⟨t, h, rfl⟩, Nat.le_refl _, Nat.le_refl _⟩
      · exact ⟨r, .inr h, h'⟩
    · rintro ⟨r, ⟨u, hu, rfl⟩ | h, h1, h2⟩
      · obtain rfl : t = u := Nat.le_antisymm h2 h1
        exact .inl hu
      · exact .inr ⟨r, h, h1, h2⟩
  simp only [Class.Has, InClass, this]

/-- The classes have no character in common. -/
def Class.apart (a b : Class) : Bool :=
  match a.1, b.1 with
  | false, false => a.spans.all fun v => b.spans.all fun w => decide (v.2 < w.1) || decide (w.2 < v.1)
  | false, true => a.spans.all fun v => b.spans.any fun w => decide (w.1 ≤ v.1) && decide (v.2 ≤ w.2)
  | true, false => b.spans.all fun v => a.spans.any fun w => decide (w.1 ≤ v.1) && decide (v.2 ≤ w.2)
  | true, true => false

theorem Class.apart_sound {a b : Class} (h : a.apart b = true) {t : Rune} (ha : a.Has t) (hb : b.Has t) : False := by
  rw [Class.has_iff] at ha hb
  unfold Class.apart at h
  split at h
  · rename_i h1 h2
    obtain ⟨v, hv, v1, v2⟩ := ha.2 h1
    obtain ⟨w, hw, w1, w2⟩ := hb.2 h2
    have := List.all_eq_true.1 (List.all_eq_true.1 h v hv) w hw
    simp only [Bool.or_eq_true, decide_eq_true_eq] at this
    rcases this with h | h
    · exact absurd (Nat.lt_of_lt_of_le h w1) (Nat.not_lt.2 v2)
    · exact absurd (Nat.lt_of_lt_of_le h v1) (Nat.not_lt.2 w2)
  · rename_i h1 h2
    obtain ⟨v, hv, v1, v2⟩ := ha.2 h1
    obtain ⟨w, hw, hvw⟩ := List.any_eq_true.1 (List.all_eq_true.1 h v hv)
    simp only [Bool.and_eq_true, decide_eq_true_eq] at hvw
    have := hb.1 ⟨w, hw, Nat.le_trans hvw.1 v1, Nat.le_trans v2 hvw.2⟩
    rw [h2] at this; cases this
  · rename_i h1 h2
    obtain ⟨v, hv, v1, v2⟩ := hb.2 h2
    obtain ⟨w, hw, hvw⟩ := List.any_eq_true.1 (List.all_eq_true.1 h v hv)
    simp only [Bool.and_eq_true, decide_eq_true_eq] at hvw
    have := ha.1 ⟨w, hw, Nat.le_trans hvw.1 v1, Nat.le_trans v2 hvw.2⟩
    rw [h1] at this; cases this
  · cases h

def apart (as bs : List Class) : Bool := as.all fun a => bs.all fun b => a.apart b

theorem apart_sound {as bs : List Class} (h : apart as bs = true) {t : Rune} (ha : ∃ a ∈ as, a.Has t) (hb : ∃ b ∈ bs, b.Has t) :
    False := by
  obtain ⟨a, ha, ha'⟩ := ha
  obtain ⟨b, hb, hb'⟩ := hb
  exact Class.apart_sound (List.all_eq_true.1 (List.all_eq_true.1 h a ha) b hb) ha' hb'

/-- What is known about the definitions. -/
structure Look (N : Type) where
  null : List N
  first : List (N × Class)
  follow : List (N × Class)

section
variable {N : Type} [DecidableEq N]

def ofName (l : List (N × Class)) (n : N) : List Class := (l.filter fun x => decide (x.1 = n)).map Prod.snd

omit [DecidableEq N] in
theorem mem_ofName [DecidableEq N] {l : List (N × Class)} {n : N} {c : Class} : c ∈ ofName l n ↔ (n, c) ∈ l := by
  simp only [ofName, List.mem_map, List.mem_filter, decide_eq_true_eq]
  constructor
  · rintro ⟨x, ⟨h, rfl⟩, rfl⟩; exact h
  · exact fun h => ⟨_, ⟨h, rfl⟩, rfl⟩

def Look.nullItems (L : Look N) (items : List (N × Int × Int)) : Bool :=
  items.all fun x => !decide (0 < x.2.1) || L.null.contains x.1

def Look.firstItems (L : Look N) : List (N × Int × Int) → List Class
  | [] => []
  | x :: xs => ofName L.first x.1 ++ if !decide (0 < x.2.1) || L.null.contains x.1 then L.firstItems xs else []

/-- The items of a sequence, with those behind them. -/
def splits {α : Type} : List α → List (α × List α)
  | [] => []
  | x :: xs => (x, xs) :: splits xs

theorem mem_splits {α : Type} {x : α} {back : List α} : ∀ (front : List α), (x, back) ∈ splits (front ++ x :: back)
  | [] => List.mem_cons_self ..
  | _ :: front => List.mem_cons_of_mem _ (mem_splits front)

def subset {α : Type} [DecidableEq α] (as bs : List α) : Bool := as.all fun a => bs.contains a

theorem subset_sound {α : Type} [DecidableEq α] {as bs : List α} (h : subset as bs = true) {a : α} (ha : a ∈ as) : a ∈ bs := by
  have := List.all_eq_true.1 h a ha
  simpa using this

/-- What follows from a definition. -/
def Look.news (L : Look N) (n : N) : Expr N → Look N
  | .char neg chars ranges => { null := [], first := [(n, (neg, chars, ranges))], follow := [] }
  | .choice os =>
    { null := if os.any L.null.contains then [n] else []
      first := os.flatMap fun o => (ofName L.first o).map fun c => (n, c)
      follow := os.flatMap fun o => (ofName L.follow n).map fun c => (o, c) }
  | .seq items =>
    { null := if L.nullItems items then [n] else []
      first := (L.firstItems items).map fun c => (n, c)
      follow := (splits items).flatMap fun x =>
        ((L.firstItems x.2).map fun c => (x.1.1, c)) ++
        (if x.1.2.2 = 1 then [] else (ofName L.first x.1.1).map fun c => (x.1.1, c)) ++
        if L.nullItems x.2 then (ofName L.follow n).map fun c => (x.1.1, c) else [] }

/-- Nothing new follows from the definitions. -/
def Look.closed (L : Look N) (defs : List (N × GDef N)) : Bool :=
  defs.all fun x =>
    let M := L.news x.1 x.2.expr
    subset M.null L.null && subset M.first L.first && subset M.follow L.follow

def Look.fits (L : Look N) (n : N) : Expr N → Bool
  | .char _ _ _ => true
  | .choice os => os.all fun o => os.all fun o' => decide (o' = o) ||
      (apart (ofName L.first o) (ofName L.first o') && (!L.null.contains o || apart (ofName L.first o') (ofName L.follow n)))
  | .seq items => (splits items).all fun x => decide (0 < x.1.2.2 ∧ x.1.2.2 ≤ x.1.2.1) ||
      (apart (ofName L.first x.1.1) (L.firstItems x.2) &&
        (!L.nullItems x.2 || apart (ofName L.first x.1.1) (ofName L.follow n)))

def merge {α : Type} [DecidableEq α] (as bs : List α) : List α := as.foldl (fun bs a => if bs.contains a then bs else a :: bs) bs

def Look.step (L : Look N) (defs : List (N × GDef N)) : Look N :=
  defs.foldr (fun x L =>
    let M := L.news x.1 x.2.expr
    { null := merge M.null L.null, first := merge M.first L.first, follow := merge M.follow L.follow }) L

def Look.learn (defs : List (N × GDef N)) : Nat → Look N
  | 0 => { null := [], first := [], follow := [] }
  | k + 1 => (Look.learn defs k).step defs

/-- The test, with `k` rounds to find out about the definitions. -/
def ll1Test (k : Nat) (defs : List (N × GDef N)) : Bool :=
  let L := Look.learn defs k
  L.closed defs && defs.all fun x => L.fits x.1 x.2.expr

section
variable {L : Look N} {G : Grammar N} {defs : List (N × GDef N)} (hG : ∀ {n d}, G n = some d → (n, d) ∈ defs)
  (hc : L.closed defs = true)

include hG hc

theorem closed_null {n : N} {d : GDef N} (h : G n = some d) {m : N} (hm : m ∈ (L.news n d.expr).null) : m ∈ L.null := by
  have := List.all_eq_true.1 hc _ (hG h)
  simp only [Bool.and_eq_true] at this
  exact subset_sound this.1.1 hm

theorem closed_first {n : N} {d : GDef N} (h : G n = some d) {x : N × Class} (hm : x ∈ (L.news n d.expr).first) : x ∈ L.first := by
  have := List.all_eq_true.1 hc _ (hG h)
  simp only [Bool.and_eq_true] at this
  exact subset_sound this.1.2 hm

theorem closed_follow {n : N} {d : GDef N} (h : G n = some d) {x : N × Class} (hm : x ∈ (L.news n d.expr).follow) : x ∈ L.follow := by
  have := List.all_eq_true.1 hc _ (hG h)
  simp only [Bool.and_eq_true] at this
  exact subset_sound this.2 hm

theorem look_null {n : N} (h : Nullable G n) : n ∈ L.null := by
  induction h with
  | @choice n d os o h1 h2 h3 _ ih =>
    refine closed_null hG hc h1 ?_
    rw [h2]
    have : os.any L.null.contains = true := List.any_eq_true.2 ⟨o, h3, by simpa using ih⟩
    simp only [Look.news, this, if_true, List.mem_singleton]
  | @seq n d items h1 h2 _ ih =>
    refine closed_null hG hc h1 ?_
    rw [h2]
    have : L.nullItems items = true := List.all_eq_true.2 fun x hx => by
      by_cases hp : 0 < x.2.1
      · simpa [hp] using ih x hx hp
      · simp [hp]
    simp only [Look.news, this, if_true, List.mem_singleton]

theorem look_nullItems {items : List (N × Int × Int)} (h : NullItems G items) : L.nullItems items = true :=
  List.all_eq_true.2 fun x hx => by
    by_cases hp : 0 < x.2.1
    · simpa [hp] using look_null hG hc (h x hx hp)
    · simp [hp]

mutual
theorem look_first : ∀ {n : N} {t : Rune}, FirstChar G n t → ∃ c ∈ ofName L.first n, c.Has t
  | _, _, .char h1 h2 h3 => ⟨(_, _, _), mem_ofName.2 (closed_first hG hc h1 (by rw [h2]; exact List.mem_cons_self ..)), h3⟩
  | n, t, .choice h1 h2 h3 h4 => by
    obtain ⟨c, h5, h6⟩ := look_first h4
    refine ⟨c, mem_ofName.2 (closed_first hG hc h1 ?_), h6⟩
    rw [h2]
    exact List.mem_flatMap.2 ⟨_, h3, List.mem_map.2 ⟨c, h5, rfl⟩⟩
  | n, t, .seq h1 h2 h3 => by
    obtain ⟨c, h5, h6⟩ := look_firstItems h3
    refine ⟨c, mem_ofName.2 (closed_first hG hc h1 ?_), h6⟩
    rw [h2]
    exact List.mem_map.2 ⟨c, h5, rfl⟩

theorem look_firstItems : ∀ {items : List (N × Int × Int)} {t : Rune}, FirstCharItems G items t → ∃ c ∈ L.firstItems items, c.Has t
  | _, _, .here h => by
    obtain ⟨c, h1, h2⟩ := look_first h
    exact ⟨c, List.mem_append_left _ h1, h2⟩
  | _, _, .next (x := x) (mn := mn) h h' => by
    obtain ⟨c, h1, h2⟩ := look_firstItems h'
    refine ⟨c, List.mem_append_right _ ?_, h2⟩
    rw [if_pos]
    · exact h1
    · by_cases hp : 0 < mn
      · simpa [hp] using look_null hG hc (h hp)
      · simp [hp]
end

theorem look_follow {root n : N} {c : Option Rune} (h : Follow G root n c) : ∀ t, c = some t → ∃ c ∈ ofName L.follow n, c.Has t := by
  induction h with
  | root => intro t h; cases h
  | option _ h1 h2 h3 ih =>
    intro t ht
    obtain ⟨c, h5, h6⟩ := ih t ht
    refine ⟨c, mem_ofName.2 (closed_follow hG hc h1 ?_), h6⟩
    rw [h2]
    exact List.mem_flatMap.2 ⟨_, h3, List.mem_map.2 ⟨c, h5, rfl⟩⟩
  | next h1 h2 h3 =>
    rintro t ⟨⟩
    obtain ⟨c, h5, h6⟩ := look_firstItems hG hc h3
    refine ⟨c, mem_ofName.2 (closed_follow hG hc h1 ?_), h6⟩
    rw [h2]
    refine List.mem_flatMap.2 ⟨_, mem_splits _, List.mem_append_left _ (List.mem_append_left _ ?_)⟩
    exact List.mem_map.2 ⟨c, h5, rfl⟩
  | again h1 h2 h3 h4 =>
    rintro t ⟨⟩
    obtain ⟨c, h5, h6⟩ := look_first hG hc h4
    refine ⟨c, mem_ofName.2 (closed_follow hG hc h1 ?_), h6⟩
    rw [h2]
    refine List.mem_flatMap.2 ⟨_, mem_splits _, List.mem_append_left _ (List.mem_append_right _ ?_)⟩
    rw [if_neg h3]
    exact List.mem_map.2 ⟨c, h5, rfl⟩
  | last _ h1 h2 h3 ih =>
    intro t ht
    obtain ⟨c, h5, h6⟩ := ih t ht
    refine ⟨c, mem_ofName.2 (closed_follow hG hc h1 ?_), h6⟩
    rw [h2]
    refine List.mem_flatMap.2 ⟨_, mem_splits _, List.mem_append_right _ ?_⟩
    rw [if_pos (look_nullItems hG hc h3)]
    exact List.mem_map.2 ⟨c, h5, rfl⟩

end

theorem ll1Test_sound {k : Nat} {G : Grammar N} {defs : List (N × GDef N)} (hG : ∀ {n d}, G n = some d → (n, d) ∈ defs)
    (h : ll1Test k defs = true) (root : N) : LL1 G root := by
  simp only [ll1Test, Bool.and_eq_true] at h
  obtain ⟨hc, hf⟩ := h
  have fit : ∀ {n d}, G n = some d → (Look.learn defs k).fits n d.expr = true := fun hd => List.all_eq_true.1 hf _ (hG hd)
  have choice : ∀ {n d os o o'}, G n = some d → d.expr = .choice os → o ∈ os → o' ∈ os → o' ≠ o →
      apart (ofName (Look.learn defs k).first o) (ofName (Look.learn defs k).first o') = true ∧
      ((!(Look.learn defs k).null.contains o ||
        apart (ofName (Look.learn defs k).first o') (ofName (Look.learn defs k).follow n)) = true) := by
    intro n d os o o' hd he ho ho' hne
    have := fit hd
    rw [he] at this
    have := List.all_eq_true.1 (List.all_eq_true.1 this o ho) o' ho'
    simp only [hne, decide_false, Bool.false_or, Bool.and_eq_true] at this
    exact this
  have seq : ∀ {n d front x mn mx back}, G n = some d → d.expr = .seq (front ++ (x, mn, mx) :: back) → ¬ (0 < mx ∧ mx ≤ mn) →
      apart (ofName (Look.learn defs k).first x) ((Look.learn defs k).firstItems back) = true ∧
      ((!(Look.learn defs k).nullItems back ||
        apart (ofName (Look.learn defs k).first x) (ofName (Look.learn defs k).follow n)) = true) := by
    intro n d front x mn mx back hd he hmx
    have := fit hd
    rw [he] at this
    have := List.all_eq_true.1 this _ (mem_splits front)
    simp only [hmx, decide_false, Bool.false_or, Bool.and_eq_true] at this
    exact this
  constructor
  · intro n d os o o' t hd he ho ho' hne h1 h2
    exact apart_sound (choice hd he ho ho' hne).1 (look_first hG hc h1) (look_first hG hc h2)
  · intro n d os o o' t hd he ho ho' hne hnull h1 h2
    have := (choice hd he ho ho' hne).2
    have hnull : (Look.learn defs k).null.contains o = true := by simpa using look_null hG hc hnull
    rw [hnull] at this
    exact apart_sound this (look_first hG hc h1) (look_follow hG hc h2 t rfl)
  · intro n d front x mn mx back t hd he hmx h1 h2
    exact apart_sound (seq hd he hmx).1 (look_first hG hc h1) (look_firstItems hG hc h2)
  · intro n d front x mn mx back t hd he hmx h1 hnull h2
    have := (seq hd he hmx).2
    rw [look_nullItems hG hc hnull] at this
    exact apart_sound this (look_first hG hc h1) (look_follow hG hc h2 t rfl)

end

end Treerack
