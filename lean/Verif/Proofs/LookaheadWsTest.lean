import Verif.Proofs.LookaheadTest
import Verif.Spec.LookaheadWs

/-
A test for the grammars with whitespace definitions, for which the next character that is not whitespace tells how to continue.
A failed test tells nothing.
-/

namespace Treerack
open Spec

/-- A set for each name. -/
abbrev Table (N α : Type) := List (N × List α)

section
variable {N : Type} [DecidableEq N]

def Table.get {α : Type} (t : Table N α) (n : N) : List α :=
  match t with
  | [] => []
  | x :: xs => if x.1 = n then x.2 else Table.get xs n

def Table.add {α : Type} [DecidableEq α] (t : Table N α) (n : N) (as : List α) : Table N α :=
  match t with
  | [] => [(n, merge as [])]
  | x :: xs => if x.1 = n then (n, merge as x.2) :: xs else x :: Table.add xs n as

theorem Table.mem_of_get {α : Type} {n : N} {a : α} : ∀ {t : Table N α}, a ∈ t.get n → ∃ x ∈ t, a ∈ x.2
  | [], h => by cases h
  | x :: xs, h => by
    unfold Table.get at h
    split at h
    · exact ⟨x, List.mem_cons_self .., h⟩
    · obtain ⟨y, h1, h2⟩ := Table.mem_of_get h
      exact ⟨y, List.mem_cons_of_mem _ h1, h2⟩

/-- What may come next: whether whitespace is possible, and the characters, or the end of the text. -/
abbrev Coming := Bool × Option Class

instance : DecidableEq (Option Class) := inferInstance

instance : DecidableEq Coming := @instDecidableEqProd Bool (Option Class) inferInstance inferInstance

def Coming.Has (x : Coming) (g : Bool) (c : Option Rune) : Prop :=
  x.1 = g ∧ match x.2, c with
    | none, none => True
    | some k, some t => k.Has t
    | _, _ => False

def Coming.classes (l : List Coming) : List Class := l.filterMap Prod.snd

theorem Coming.class_mem {x : Coming} {l : List Coming} (h : x ∈ l) {g : Bool} {t : Rune} (hx : x.Has g (some t)) :
    ∃ c ∈ Coming.classes l, c.Has t := by
  obtain ⟨g', c'⟩ := x
  cases c' with
  | none => exact hx.2.elim
  | some c' => exact ⟨c', List.mem_filterMap.2 ⟨_, h, rfl⟩, hx.2⟩

/-- What is known about the definitions. -/
structure LookWs (N : Type) where
  first : Table N Class
  follow : Table N Coming

def LookWs.firstItems (L : LookWs N) : List (N × Int × Int) → List Class
  | [] => []
  | x :: xs => L.first.get x.1 ++ if x.2.1 ≤ 0 then L.firstItems xs else []

/-- What may come behind the items that are in front of the given ones. -/
def LookWs.next (L : LookWs N) (n : N) (tight : Bool) : List (N × Int × Int) → List Coming
  | [] => L.follow.get n
  | x :: xs => (L.first.get x.1).map (fun c => (!tight, some c)) ++
      if x.2.1 ≤ 0 then (L.next n tight xs).map fun y => (y.1 || !tight, y.2) else []

/-- What follows from a definition about its first characters. -/
def LookWs.firsts (L : LookWs N) : Expr N → List Class
  | .char neg chars ranges => [(neg, chars, ranges)]
  | .choice os => os.flatMap L.first.get
  | .seq items => L.firstItems items

/-- What follows from a definition about what may come behind its parts. -/
def LookWs.follows (L : LookWs N) (n : N) (tight : Bool) : Expr N → List (N × List Coming)
  | .char _ _ _ => []
  | .choice os => os.map fun o => (o, L.follow.get n)
  | .seq items => (splits items).map fun x => (x.1.1, L.next n tight x.2 ++
      if x.1.2.2 = 1 then [] else (L.first.get x.1.1).map fun c => (!tight, some c))

/-- Nothing new follows from the definitions. -/
def LookWs.closed (L : LookWs N) (W : WGrammar N) (defs : List (N × GDef N)) : Bool :=
  decide ((true, none) ∈ L.follow.get W.root) &&
  defs.all fun x => subset (L.firsts x.2.expr) (L.first.get x.1) &&
    (L.follows x.1 (W.tight x.1) x.2.expr).all fun y => subset y.2 (L.follow.get y.1)

def single (W : WGrammar N) : Nat → N → Bool
  | 0, _ => false
  | k + 1, n => match W.G n with
    | none => false
    | some d => match d.expr with
      | .char _ _ _ => true
      | .choice os => os.all (single W k)
      | .seq [x] => decide (x.2 = (1, 1)) && single W k x.1
      | .seq _ => false

def LookWs.fits (L : LookWs N) (W : WGrammar N) (space : List Class) (n : N) : Expr N → Bool
  | .char _ _ _ => true
  | .choice os => os.all fun o => os.all fun o' => decide (o' = o) || apart (L.first.get o) (L.first.get o')
  | .seq items => (items.any fun x => decide (0 < x.2.1)) && (W.tight n || (items.take 1).all fun x => decide (0 < x.2.1)) &&
      (splits items).all fun x => decide (0 < x.1.2.2 ∧ x.1.2.2 ≤ x.1.2.1) ||
        let next := L.next n (W.tight n) x.2
        apart (L.first.get x.1.1) (Coming.classes next) &&
        (if W.tight n then !next.any Prod.fst || apart (L.first.get x.1.1) space else apart (Coming.classes next) space)

def LookWs.step (L : LookWs N) (W : WGrammar N) (defs : List (N × GDef N)) : LookWs N :=
  defs.foldr (fun x L =>
    { first := L.first.add x.1 (L.firsts x.2.expr)
      follow := (L.follows x.1 (W.tight x.1) x.2.expr).foldr (fun y f => f.add y.1 y.2) L.follow }) L

def LookWs.learn (W : WGrammar N) (defs : List (N × GDef N)) : Nat → LookWs N
  | 0 => { first := [], follow := [(W.root, [(true, none)])] }
  | k + 1 => (LookWs.learn W defs k).step W defs

def LookWs.test (L : LookWs N) (k : Nat) (W : WGrammar N) (defs : List (N × GDef N)) : Bool :=
  let space := W.ws.flatMap L.first.get
  L.closed W defs &&
  (W.ws.all fun w => !decide (w = W.root) && single W k w) &&
  (defs.all fun x => !x.2.expr.refs.contains W.root && L.fits W space x.1 x.2.expr) &&
  (L.follow.all fun x => apart (Coming.classes (x.2.filter Prod.fst)) space) &&
  apart (L.first.get W.root) space

/-- The test, with `k` rounds to find out about the definitions. -/
def wll1Test (k : Nat) (W : WGrammar N) (defs : List (N × GDef N)) : Bool := (LookWs.learn W defs k).test k W defs

omit [DecidableEq N] in
theorem single_sound {W : WGrammar N} : ∀ {k : Nat} {n : N}, single W k n = true → Single W n
  | 0, n, h => by cases h
  | k + 1, n, h => by
    unfold single at h
    split at h
    · cases h
    · rename_i d hd
      split at h
      · rename_i he; exact .char hd he
      · rename_i os he
        exact .choice hd he fun o ho => single_sound (List.all_eq_true.1 h o ho)
      · rename_i x he
        simp only [Bool.and_eq_true, decide_eq_true_eq] at h
        obtain ⟨x, b⟩ := x
        obtain ⟨rfl, h2⟩ := h
        exact .seq hd he (single_sound h2)
      · cases h

section
variable {L : LookWs N} {W : WGrammar N} {defs : List (N × GDef N)} (hG : ∀ {n d}, W.G n = some d → (n, d) ∈ defs)
  (hc : L.closed W defs = true)

include hG hc

theorem wclosed_first {n : N} {d : GDef N} (h : W.G n = some d) {c : Class} (hm : c ∈ L.firsts d.expr) : c ∈ L.first.get n := by
  simp only [LookWs.closed, Bool.and_eq_true] at hc
  have := List.all_eq_true.1 hc.2 _ (hG h)
  simp only [Bool.and_eq_true] at this
  exact subset_sound this.1 hm

theorem wclosed_follow {n : N} {d : GDef N} (h : W.G n = some d) {m : N} {cs : List Coming}
    (hm : (m, cs) ∈ L.follows n (W.tight n) d.expr) {c : Coming} (hx : c ∈ cs) : c ∈ L.follow.get m := by
  simp only [LookWs.closed, Bool.and_eq_true] at hc
  have := List.all_eq_true.1 hc.2 _ (hG h)
  simp only [Bool.and_eq_true] at this
  exact subset_sound (List.all_eq_true.1 this.2 _ hm) hx

mutual
theorem wlook_first : ∀ {n : N} {t : Rune}, WFirst W n t → ∃ c ∈ L.first.get n, c.Has t
  | _, _, .char h1 h2 h3 => ⟨(_, _, _), wclosed_first hG hc h1 (by rw [h2]; exact List.mem_cons_self ..), h3⟩
  | n, t, .choice h1 h2 h3 h4 => by
    obtain ⟨c, h5, h6⟩ := wlook_first h4
    refine ⟨c, wclosed_first hG hc h1 ?_, h6⟩
    rw [h2]
    exact List.mem_flatMap.2 ⟨_, h3, h5⟩
  | n, t, .seq h1 h2 h3 => by
    obtain ⟨c, h5, h6⟩ := wlook_firstItems h3
    refine ⟨c, wclosed_first hG hc h1 ?_, h6⟩
    rw [h2]
    exact h5

theorem wlook_firstItems : ∀ {items : List (N × Int × Int)} {t : Rune}, WFirstItems W items t → ∃ c ∈ L.firstItems items, c.Has t
  | _, _, .here h => by
    obtain ⟨c, h1, h2⟩ := wlook_first h
    exact ⟨c, List.mem_append_left _ h1, h2⟩
  | _, _, .next (x := x) (mn := mn) h h' => by
    obtain ⟨c, h1, h2⟩ := wlook_firstItems h'
    refine ⟨c, List.mem_append_right _ ?_, h2⟩
    rw [if_pos h]
    exact h1
end

mutual
theorem wlook_follow : ∀ {n : N} {g : Bool} {c : Option Rune}, WFollow W n g c → ∃ x ∈ L.follow.get n, x.Has g c
  | _, _, _, .root => by
    simp only [LookWs.closed, Bool.and_eq_true, decide_eq_true_eq] at hc
    exact ⟨_, hc.1, rfl, trivial⟩
  | _, _, _, .option h h1 h2 h3 => by
    obtain ⟨x, h4, h5⟩ := wlook_follow h
    refine ⟨x, wclosed_follow hG hc h1 ?_ h4, h5⟩
    rw [h2]
    exact List.mem_map.2 ⟨_, h3, rfl⟩
  | _, _, _, .next h1 h2 h3 => by
    obtain ⟨x, h4, h5⟩ := wlook_next h3
    exact ⟨x, wclosed_follow hG hc h1 (by rw [h2]; exact List.mem_map.2 ⟨_, mem_splits _, rfl⟩) (List.mem_append_left _ h4), h5⟩
  | _, _, _, .again (n := n) h1 h2 h3 h4 => by
    obtain ⟨c, h5, h6⟩ := wlook_first hG hc h4
    refine ⟨(!W.tight n, some c), wclosed_follow hG hc h1 (by rw [h2]; exact List.mem_map.2 ⟨_, mem_splits _, rfl⟩)
      (List.mem_append_right _ ?_), rfl, h6⟩
    rw [if_neg h3]
    exact List.mem_map.2 ⟨_, h5, rfl⟩

theorem wlook_next : ∀ {n : N} {items : List (N × Int × Int)} {g : Bool} {c : Option Rune}, WNext W n items g c →
    ∃ x ∈ L.next n (W.tight n) items, x.Has g c
  | _, _, _, _, .here h => by
    obtain ⟨c, h5, h6⟩ := wlook_first hG hc h
    exact ⟨_, List.mem_append_left _ (List.mem_map.2 ⟨_, h5, rfl⟩), rfl, h6⟩
  | n, _, _, _, .skip h1 h2 => by
    obtain ⟨x, h5, h6, h7⟩ := wlook_next h2
    refine ⟨(x.1 || !W.tight n, x.2), List.mem_append_right _ ?_, by rw [h6], h7⟩
    rw [if_pos h1]
    exact List.mem_map.2 ⟨x, h5, rfl⟩
  | _, _, _, _, .done h => wlook_follow h
end

end

theorem wtest_sound {L : LookWs N} {k : Nat} {W : WGrammar N} {defs : List (N × GDef N)}
    (hG : ∀ {n d}, W.G n = some d → (n, d) ∈ defs) (h : L.test k W defs = true) : WLL1 W := by
  simp only [LookWs.test, Bool.and_eq_true] at h
  obtain ⟨⟨⟨⟨hc, hs⟩, hf⟩, hg⟩, hb⟩ := h
  have fit := fun {n d} (hd : W.G n = some d) => List.all_eq_true.1 hf _ (hG hd)
  simp only [Bool.and_eq_true] at fit
  have space : ∀ {t}, SpaceChar W t → ∃ c ∈ W.ws.flatMap L.first.get, c.Has t := by
    rintro t ⟨w, hw, ht⟩
    obtain ⟨c, h1, h2⟩ := wlook_first hG hc ht
    exact ⟨c, List.mem_flatMap.2 ⟨w, hw, h1⟩, h2⟩
  have seq : ∀ {n d front x mn mx back}, W.G n = some d → d.expr = .seq (front ++ (x, mn, mx) :: back) → ¬ (0 < mx ∧ mx ≤ mn) →
      apart (L.first.get x) (Coming.classes (L.next n (W.tight n) back)) = true ∧
      (if W.tight n then !(L.next n (W.tight n) back).any Prod.fst || apart (L.first.get x) (W.ws.flatMap L.first.get)
        else apart (Coming.classes (L.next n (W.tight n) back)) (W.ws.flatMap L.first.get)) = true := by
    intro n d front x mn mx back hd he hmx
    have := (fit hd).2
    rw [he] at this
    simp only [LookWs.fits, Bool.and_eq_true] at this
    have := List.all_eq_true.1 this.2 _ (mem_splits front)
    simp only [hmx, decide_false, Bool.false_or, Bool.and_eq_true] at this
    exact this
  constructor
  · intro w hw
    have := List.all_eq_true.1 hs w hw
    simp only [Bool.and_eq_true, Bool.not_eq_true', decide_eq_false_iff_not] at this
    exact ⟨this.1, single_sound this.2⟩
  · intro n d hd
    have := (fit hd).1
    simpa using this
  · intro n d items hd he
    have := (fit hd).2
    rw [he] at this
    simp only [LookWs.fits, Bool.and_eq_true, List.any_eq_true, decide_eq_true_eq] at this
    exact this.1.1
  · intro n d x mn mx items hd he ht
    have := (fit hd).2
    rw [he] at this
    simp only [LookWs.fits, Bool.and_eq_true, ht, Bool.false_or] at this
    simpa using this.1.2
  · intro n d os o o' t hd he ho ho' hne h1 h2
    have := (fit hd).2
    rw [he] at this
    have := List.all_eq_true.1 (List.all_eq_true.1 this o ho) o' ho'
    simp only [hne, decide_false, Bool.false_or] at this
    exact apart_sound this (wlook_first hG hc h1) (wlook_first hG hc h2)
  · intro n d front x mn mx back t g hd he hmx h1 h2
    obtain ⟨y, h3, h4⟩ := wlook_next hG hc h2
    exact apart_sound (seq hd he hmx).1 (wlook_first hG hc h1) (Coming.class_mem h3 h4)
  · intro n d front x mn mx back t c hd he hmx ht h1 h2 h3
    have := (seq hd he hmx).2
    rw [if_pos ht] at this
    obtain ⟨y, h4, h5, -⟩ := wlook_next hG hc h2
    have hany : (L.next n (W.tight n) back).any Prod.fst = true := List.any_eq_true.2 ⟨y, h4, h5⟩
    rw [hany] at this
    exact apart_sound this (wlook_first hG hc h1) (space h3)
  · intro n d front x mn mx back t g hd he hmx ht h2 h3
    have := (seq hd he hmx).2
    rw [if_neg (by rw [ht]; simp)] at this
    obtain ⟨y, h4, h5⟩ := wlook_next hG hc h2
    exact apart_sound this (Coming.class_mem h4 h5) (space h3)
  · intro n t h1 h2
    obtain ⟨y, h3, h4⟩ := wlook_follow hG hc h1
    obtain ⟨x, h5, h6⟩ := Table.mem_of_get h3
    exact apart_sound (List.all_eq_true.1 hg x h5) (Coming.class_mem (List.mem_filter.2 ⟨h6, h4.1⟩) h4) (space h2)
  · intro t h1 h2
    exact apart_sound hb (wlook_first hG hc h1) (space h2)

theorem wll1Test_sound {k : Nat} {W : WGrammar N} {defs : List (N × GDef N)} (hG : ∀ {n d}, W.G n = some d → (n, d) ∈ defs)
    (h : wll1Test k W defs = true) : WLL1 W := wtest_sound hG h

end

end Treerack
