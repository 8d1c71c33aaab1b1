import Verif.Proofs.Invariant
import Verif.Model.Builder

/-
Two environments whose parser objects correspond to each other, with different addresses and different
ids, return the same results.

`R` relates the addresses and `I` relates the ids.  The two result stores are related through what they
record for the related ids, so the second one may contain anything for the other ids.
-/

namespace Treerack

/-- Lists of the same length with related elements. -/
inductive Pairs {α β : Type} (R : α → β → Prop) : List α → List β → Prop
  | nil : Pairs R [] []
  | cons {a : α} {b : β} {as : List α} {bs : List β} : R a b → Pairs R as bs → Pairs R (a :: as) (b :: bs)

theorem Pairs.append {α β : Type} {R : α → β → Prop} {as as' : List α} {bs bs' : List β} (h : Pairs R as bs)
    (h' : Pairs R as' bs') : Pairs R (as ++ as') (bs ++ bs') := by
  induction h with
  | nil => exact h'
  | cons r _ ih => exact .cons r ih

theorem Pairs.imp {α β : Type} {R S : α → β → Prop} (hi : ∀ a b, R a b → S a b) {as : List α} {bs : List β}
    (h : Pairs R as bs) : Pairs S as bs := by
  induction h with
  | nil => exact .nil
  | cons r _ ih => exact .cons (hi _ _ r) ih

theorem Pairs.map {α β γ δ : Type} {R : α → β → Prop} {S : γ → δ → Prop} {f : α → γ} {g : β → δ}
    (hi : ∀ a b, R a b → S (f a) (g b)) {as : List α} {bs : List β} (h : Pairs R as bs) :
    Pairs S (as.map f) (bs.map g) := by
  induction h with
  | nil => exact .nil
  | cons r _ ih => exact .cons (hi _ _ r) ih

theorem Pairs.zip {α β γ : Type} {R : α → β → Prop} {as : List α} {bs : List β} (h : Pairs R as bs) :
    ∀ (l : List γ), Pairs (fun x y => R x.1 y.1 ∧ x.2 = y.2) (as.zip l) (bs.zip l) := by
  induction h with
  | nil => intro l; exact .nil
  | cons r _ ih =>
    intro l
    cases l with
    | nil => exact .nil
    | cons x l => exact .cons ⟨r, rfl⟩ (ih l)

/-- Both or neither. -/
inductive OptRel {α β : Type} (R : α → β → Prop) : Option α → Option β → Prop
  | none : OptRel R none none
  | some {a : α} {b : β} : R a b → OptRel R (some a) (some b)

/-- Two runs with related outcomes. -/
inductive Res.Rel {α β : Type} (Q : α → β → Prop) : Res α → Res β → Prop
  | ok {a : α} {b : β} : Q a b → Res.Rel Q (.ok a) (.ok b)
  | panic : Res.Rel Q .panic .panic
  | oof : Res.Rel Q .oof .oof

theorem Res.Rel.bind {α β γ δ : Type} {Q : α → β → Prop} {S : γ → δ → Prop} {x : Res α} {y : Res β}
    {f : α → Res γ} {g : β → Res δ} (h : Res.Rel Q x y) (k : ∀ a b, Q a b → Res.Rel S (f a) (g b)) :
    Res.Rel S (x.bind f) (y.bind g) := by
  cases h with
  | ok q => exact k _ _ q
  | panic => exact .panic
  | oof => exact .oof

theorem Res.Rel.imp {α β : Type} {Q S : α → β → Prop} {x : Res α} {y : Res β}
    (h : Res.Rel Q x y) (k : ∀ a b, Q a b → S a b) : Res.Rel S x y := by
  cases h with
  | ok q => exact .ok (k _ _ q)
  | panic => exact .panic
  | oof => exact .oof

namespace Results

/-- The recorded ends of the matches of a definition, in the order of recording. -/
def tos (r : Results) (off id : Nat) : List Nat :=
  ((r.at_ off).filter fun e => e.1 == (id : Int)).map Prod.snd

def isNoM (r : Results) (off id : Nat) : Bool := (r.noMatch.getD off []).contains id

def pend (r : Results) (id : Nat) : List Int := r.isPending.getD id []

theorem hasMatchTo_tos (r : Results) (off id to : Nat) : r.hasMatchTo off id to = (r.tos off id).contains to := by
  unfold hasMatchTo tos
  induction r.at_ off with
  | nil => rfl
  | cons e es ih =>
    simp only [List.any_cons, List.filter_cons, ih]
    cases h : e.1 == (id : Int)
    · simp
    · simp only [Bool.true_and, if_true, List.map_cons, List.contains_cons]
      congr 1
      exact Bool.eq_iff_iff.2 (by simp only [beq_iff_eq]; exact eq_comm)

theorem longestLoop_tos (id : Nat) : ∀ (es : List (Int × Nat)) (acc : Option Nat), longestLoop id es acc =
    ((es.filter fun e => e.1 == (id : Int)).map Prod.snd).foldl
      (fun acc t => some (match acc with | none => t | some u => if t > u then t else u)) acc
  | [], acc => rfl
  | e :: es, acc => by
    unfold longestLoop
    simp only [List.filter_cons]
    cases h : e.1 == (id : Int)
    · simpa using longestLoop_tos id es acc
    · cases acc <;> simp [longestLoop_tos id es]

theorem longestMatch_tos (r : Results) (off id : Nat) : r.longestMatch off id = (r.tos off id).foldl
      (fun acc t => some (match acc with | none => t | some u => if t > u then t else u)) none :=
  longestLoop_tos ..

theorem pending_pend (r : Results) (off id : Nat) : r.pending off id = (r.pend id).contains (off : Int) := rfl

theorem tos_setMatch (r : Results) (o i t off id : Nat) : (r.setMatch o i t).tos off id =
    if off = o ∧ id = i ∧ (r.tos o i).contains t = false then r.tos off id ++ [t] else r.tos off id := by
  have hh := hasMatchTo_tos r o i t
  unfold hasMatchTo at hh
  unfold tos at *
  rw [at_setMatch]
  by_cases ho : off = o
  · subst ho
    rw [if_pos rfl, hh]
    cases hc : (((r.at_ off).filter fun e => e.1 == (i : Int)).map Prod.snd).contains t
    · simp only [Bool.false_eq_true, if_false, List.filter_append, List.map_append, true_and, and_true]
      by_cases hi : id = i
      · subst hi; simp
      · have : ¬ (i : Int) = (id : Int) := by omega
        simp [hi, this]
    · simp
  · simp [ho]

theorem isNoM_setMatch (r : Results) (o i t off id : Nat) : (r.setMatch o i t).isNoM off id = r.isNoM off id := by
  unfold setMatch isNoM; simp only; split <;> rfl

theorem pend_setMatch (r : Results) (o i t id : Nat) : (r.setMatch o i t).pend id = r.pend id := by
  unfold setMatch pend; simp only; split <;> rfl

theorem any_tos (r : Results) (o i : Nat) :
    ((r.at_ o).any fun e => e.1 == (i : Int)) = !(r.tos o i).isEmpty := by
  unfold tos
  induction r.at_ o with
  | nil => rfl
  | cons e es ih =>
    simp only [List.any_cons, List.filter_cons, ih]
    cases e.1 == (i : Int) <;> simp

theorem tos_setNoMatch (r : Results) (o i off id : Nat) : (r.setNoMatch o i).tos off id = r.tos off id := by
  unfold setNoMatch; split <;> rfl

theorem pend_setNoMatch (r : Results) (o i id : Nat) : (r.setNoMatch o i).pend id = r.pend id := by
  unfold setNoMatch; split <;> rfl

theorem isNoM_setNoMatch (r : Results) (o i off id : Nat) : (r.setNoMatch o i).isNoM off id =
    (r.isNoM off id || (decide (off = o) && decide (id = i) && (r.tos o i).isEmpty)) := by
  have h := any_tos r o i
  unfold setNoMatch
  rw [h]
  cases hc : (r.tos o i).isEmpty
  · simp
  · unfold isNoM
    simp only [Bool.not_true, Bool.false_eq_true, if_false, getD_modify, getD_ensureOffset, length_ensureOffset]
    by_cases ho : off = o
    · subst ho
      have : off < max r.noMatch.length (off + 1) := by omega
      simp only [this, and_self, if_true, List.contains_cons, decide_true, Bool.true_and, Bool.and_true]
      rw [Bool.or_comm]
      congr 1
    · simp [ho]

theorem tos_markPending (r : Results) (o i off id : Nat) : (r.markPending o i).tos off id = r.tos off id := rfl
theorem isNoM_markPending (r : Results) (o i off id : Nat) : (r.markPending o i).isNoM off id = r.isNoM off id := rfl

theorem pend_markPending (r : Results) (o i id : Nat) : (r.markPending o i).pend id =
    if id = i then markLoop o (r.pend id) else r.pend id := by
  unfold markPending pend
  simp only [getD_modify, getD_ensureOffset, length_ensureOffset]
  by_cases h : id = i
  · subst h
    have : id < max r.isPending.length (id + 1) := by omega
    simp [this]
  · simp [h]

theorem markLoop_ne (o : Nat) : ∀ l, markLoop o l ≠ []
  | [] => by simp [markLoop]
  | x :: xs => by unfold markLoop; split <;> simp

theorem unmarkLoop_ne (o : Nat) : ∀ l, l ≠ [] → unmarkLoop o l ≠ []
  | [], h => h
  | x :: xs, _ => by unfold unmarkLoop; split <;> simp

theorem pend_lt {r : Results} {i : Nat} (h : r.pend i ≠ []) : i < r.isPending.length := by
  unfold pend at h
  rw [List.getD_eq_getElem?_getD] at h
  apply Classical.byContradiction
  intro hc
  rw [List.getElem?_eq_none (by omega)] at h
  exact h rfl

theorem unmarkPending_pend {r : Results} {o i : Nat} (h : r.pend i ≠ []) : ∃ r', r.unmarkPending o i = .ok r' ∧
    (∀ off id, r'.tos off id = r.tos off id) ∧ (∀ off id, r'.isNoM off id = r.isNoM off id) ∧
    ∀ id, r'.pend id = if id = i then unmarkLoop o (r.pend id) else r.pend id := by
  have hl := pend_lt h
  refine ⟨{ r with isPending := r.isPending.modify i (unmarkLoop o) }, ?_, fun _ _ => rfl, fun _ _ => rfl, ?_⟩
  · unfold unmarkPending; rw [if_pos hl]
  · intro id
    unfold pend
    simp only [getD_modify]
    by_cases h : id = i
    · simp [h, hl]
    · simp [h]

theorem tos_dropLoop (i t id : Nat) : ∀ es : List (Int × Nat),
    ((dropLoop i t es).filter fun e => e.1 == (id : Int)).map Prod.snd =
      if id = i then ((es.filter fun e => e.1 == (id : Int)).map Prod.snd).erase t
      else (es.filter fun e => e.1 == (id : Int)).map Prod.snd
  | [] => by simp [dropLoop]
  | e :: es => by
    have ih := tos_dropLoop i t id es
    have hm : ((-1 : Int) == (id : Int)) = false := by
      simp only [beq_eq_false_iff_ne, ne_eq]; omega
    unfold dropLoop
    by_cases h1 : e.1 = (i : Int)
    · by_cases h2 : e.2 = t
      · subst h2
        simp only [h1, beq_self_eq_true, Bool.and_self, if_true, List.filter_cons, hm, Bool.false_eq_true,
          if_false]
        by_cases hi : id = i
        · subst hi; simp
        · have : ((i : Int) == (id : Int)) = false := by
            simp only [beq_eq_false_iff_ne, ne_eq]; omega
          simp [hi, this]
      · have hb : (e.1 == (i : Int) && e.2 == t) = false := by simp [h2]
        simp only [hb, Bool.false_eq_true, if_false, List.filter_cons]
        by_cases hi : id = i
        · subst hi
          simp only [if_true] at ih ⊢
          simp only [h1, beq_self_eq_true, if_true, List.map_cons, ih]
          rw [List.erase_cons_tail (by simpa using h2)]
        · have : (e.1 == (id : Int)) = false := by
            simp only [beq_eq_false_iff_ne, ne_eq]; omega
          simp only [hi, if_false] at ih
          simp [hi, this, ih]
    · have hb : (e.1 == (i : Int) && e.2 == t) = false := by simp [h1]
      simp only [hb, Bool.false_eq_true, if_false, List.filter_cons]
      by_cases hi : id = i
      · subst hi
        have : (e.1 == (id : Int)) = false := by simpa using h1
        simp only [if_true] at ih ⊢
        simp only [this, Bool.false_eq_true, if_false, ih]
      · simp only [hi, if_false] at ih ⊢
        cases e.1 == (id : Int)
        · simpa using ih
        · simp [ih]

theorem dropMatchTo_tos {r : Results} {o i t : Nat} (h : o < r.matches_.length) : ∃ r',
    r.dropMatchTo o i t = .ok r' ∧ r'.matches_.length = r.matches_.length ∧
    (∀ off id, r'.tos off id = if off = o ∧ id = i then (r.tos off id).erase t else r.tos off id) ∧
    (∀ off id, r'.isNoM off id = r.isNoM off id) ∧ (∀ id, r'.pend id = r.pend id) := by
  refine ⟨{ r with matches_ := r.matches_.modify o (dropLoop i t) }, ?_, by simp, ?_, fun _ _ => rfl,
    fun _ => rfl⟩
  · unfold dropMatchTo; rw [if_pos h]
  · intro off id
    unfold tos at_
    simp only [getD_modify]
    by_cases ho : off = o
    · subst ho
      simp only [h, and_self, if_true, tos_dropLoop, true_and]
    · simp [ho]

theorem tos_lt {r : Results} {o i : Nat} (h : r.tos o i ≠ []) : o < r.matches_.length := by
  apply Classical.byContradiction
  intro hc
  apply h
  unfold tos at_
  rw [List.getD_eq_getElem?_getD, List.getElem?_eq_none (by omega)]
  rfl

end Results

/-- A relation that pairs up ids one to one. -/
def OneToOne {α β : Type} (I : α → β → Prop) : Prop := ∀ a b a' b', I a b → I a' b' → (a' = a ↔ b' = b)

/-- Two result stores record the same for the related ids. -/
structure ResRel (I : Nat → Nat → Prop) (r s : Results) : Prop where
  tos : ∀ a b, I a b → ∀ off, r.tos off a = s.tos off b
  noM : ∀ a b, I a b → ∀ off, r.isNoM off a = s.isNoM off b
  pend : ∀ a b, I a b → r.pend a = s.pend b

namespace ResRel

variable {I : Nat → Nat → Prop} {r s : Results}

theorem setMatch (hI : OneToOne I) (h : ResRel I r s) {a b : Nat} (hab : I a b) (o t : Nat) :
    ResRel I (r.setMatch o a t) (s.setMatch o b t) := by
  refine ⟨fun a' b' h' off => ?_, fun a' b' h' off => ?_, fun a' b' h' => ?_⟩
  · rw [Results.tos_setMatch, Results.tos_setMatch, h.tos _ _ hab, h.tos _ _ h']
    by_cases hc : a' = a
    · rw [hc, (hI _ _ _ _ hab h').1 hc]; simp
    · have : ¬ b' = b := fun hb => hc ((hI _ _ _ _ hab h').2 hb)
      simp [hc, this]
  · rw [Results.isNoM_setMatch, Results.isNoM_setMatch]; exact h.noM _ _ h' off
  · rw [Results.pend_setMatch, Results.pend_setMatch]; exact h.pend _ _ h'

theorem setNoMatch (hI : OneToOne I) (h : ResRel I r s) {a b : Nat} (hab : I a b) (o : Nat) :
    ResRel I (r.setNoMatch o a) (s.setNoMatch o b) := by
  refine ⟨fun a' b' h' off => ?_, fun a' b' h' off => ?_, fun a' b' h' => ?_⟩
  · rw [Results.tos_setNoMatch, Results.tos_setNoMatch]; exact h.tos _ _ h' off
  · rw [Results.isNoM_setNoMatch, Results.isNoM_setNoMatch, h.tos _ _ hab, h.noM _ _ h']
    by_cases hc : a' = a
    · rw [hc, (hI _ _ _ _ hab h').1 hc]; simp
    · have : ¬ b' = b := fun hb => hc ((hI _ _ _ _ hab h').2 hb)
      simp [hc, this]
  · rw [Results.pend_setNoMatch, Results.pend_setNoMatch]; exact h.pend _ _ h'

theorem markPending (hI : OneToOne I) (h : ResRel I r s) {a b : Nat} (hab : I a b) (o : Nat) :
    ResRel I (r.markPending o a) (s.markPending o b) := by
  refine ⟨fun a' b' h' off => ?_, fun a' b' h' off => ?_, fun a' b' h' => ?_⟩
  · exact h.tos _ _ h' off
  · exact h.noM _ _ h' off
  · rw [Results.pend_markPending, Results.pend_markPending, h.pend _ _ h']
    by_cases hc : a' = a
    · rw [if_pos hc, if_pos ((hI _ _ _ _ hab h').1 hc)]
    · rw [if_neg hc, if_neg fun hb => hc ((hI _ _ _ _ hab h').2 hb)]

theorem longestMatch (h : ResRel I r s) {a b : Nat} (hab : I a b) (o : Nat) :
    r.longestMatch o a = s.longestMatch o b := by
  rw [Results.longestMatch_tos, Results.longestMatch_tos, h.tos _ _ hab]

theorem longestResult (h : ResRel I r s) {a b : Nat} (hab : I a b) (o : Nat) :
    r.longestResult o a = s.longestResult o b := by
  have h1 := h.noM _ _ hab o
  unfold Results.isNoM at h1
  unfold Results.longestResult
  rw [h1, h.longestMatch hab]

theorem pending (h : ResRel I r s) {a b : Nat} (hab : I a b) (o : Nat) : r.pending o a = s.pending o b := by
  rw [Results.pending_pend, Results.pending_pend, h.pend _ _ hab]

theorem hasMatchTo (h : ResRel I r s) {a b : Nat} (hab : I a b) (o t : Nat) :
    r.hasMatchTo o a t = s.hasMatchTo o b t := by
  rw [Results.hasMatchTo_tos, Results.hasMatchTo_tos, h.tos _ _ hab]

theorem resetPending (h : ResRel I r s) : ResRel I r.resetPending s.resetPending :=
  ⟨h.tos, h.noM, fun _ _ _ => rfl⟩

end ResRel

/-- Some of the ids have been marked as pending, at any offset (the marks may have been removed). -/
def Touched (M : List Nat) (r : Results) : Prop := ∀ a ∈ M, r.pend a ≠ []

theorem ResRel.unmarkPending {I : Nat → Nat → Prop} {r s : Results} (hI : OneToOne I) (h : ResRel I r s) {a b : Nat}
    (hab : I a b) (o : Nat) {M : List Nat} (hM : Touched (a :: M) r) :
    Res.Rel (fun r s => ResRel I r s ∧ Touched (a :: M) r) (r.unmarkPending o a) (s.unmarkPending o b) := by
  have ha := hM a (by simp)
  obtain ⟨r', hr, ht, hn, hp⟩ := Results.unmarkPending_pend (o := o) ha
  obtain ⟨s', hs, ht', hn', hp'⟩ := Results.unmarkPending_pend (r := s) (i := b) (o := o) (by rw [← h.pend _ _ hab]; exact ha)
  rw [hr, hs]
  refine .ok ⟨⟨fun a' b' h' off => ?_, fun a' b' h' off => ?_, fun a' b' h' => ?_⟩, fun x hx => ?_⟩
  · rw [ht, ht']; exact h.tos _ _ h' off
  · rw [hn, hn']; exact h.noM _ _ h' off
  · rw [hp, hp', h.pend _ _ h']
    by_cases hc : a' = a
    · rw [if_pos hc, if_pos ((hI _ _ _ _ hab h').1 hc)]
    · rw [if_neg hc, if_neg fun hb => hc ((hI _ _ _ _ hab h').2 hb)]
  · rw [hp]
    split
    · exact Results.unmarkLoop_ne _ _ (hM x hx)
    · exact hM x hx

theorem ResRel.dropMatchTo {I : Nat → Nat → Prop} {r s : Results} (hI : OneToOne I) (h : ResRel I r s) {a b : Nat}
    (hab : I a b) (o t : Nat) (hr : o < r.matches_.length) (hs : o < s.matches_.length) :
    ∃ r' s', r.dropMatchTo o a t = .ok r' ∧ s.dropMatchTo o b t = .ok s' ∧ ResRel I r' s' ∧
      r'.matches_.length = r.matches_.length ∧ s'.matches_.length = s.matches_.length ∧
      ∀ id, r'.pend id = r.pend id := by
  obtain ⟨r', hr, hl, ht, hn, hp⟩ := Results.dropMatchTo_tos (i := a) (t := t) hr
  obtain ⟨s', hs, hl', ht', hn', hp'⟩ := Results.dropMatchTo_tos (i := b) (t := t) hs
  refine ⟨r', s', hr, hs, ⟨fun a' b' h' off => ?_, fun a' b' h' off => ?_, fun a' b' h' => ?_⟩, hl, hl', hp⟩
  · rw [ht, ht', h.tos _ _ h']
    by_cases hc : a' = a
    · rw [(hI _ _ _ _ hab h').1 hc]; simp [hc]
    · have : ¬ b' = b := fun hb => hc ((hI _ _ _ _ hab h').2 hb)
      simp [hc, this]
  · rw [hn, hn']; exact h.noM _ _ h' off
  · rw [hp, hp']; exact h.pend _ _ h'

/-- Corresponding kinds of parsers.  The characters matter only to the parsers. -/
inductive KindRel (P : Prop) (R : Ptr → Ptr → Prop) : PKind → PKind → Prop
  | char {neg neg' : Bool} {chars chars' : List Rune} {ranges ranges' : List (Rune × Rune)} :
      (P → neg = neg' ∧ chars = chars' ∧ ranges = ranges') →
      KindRel P R (.char neg chars ranges) (.char neg' chars' ranges')
  | choice {os os' : List Ptr} : Pairs R os os' → KindRel P R (.choice os) (.choice os')
  | seq {is is' : List Ptr} (ranges : List (Int × Int)) (allChars : Bool) : Pairs R is is' →
      KindRel P R (.seq is ranges allChars) (.seq is' ranges allChars)

/-- Corresponding parsers.  The names matter only where they can appear in an error (when `P` holds) or in a tree
(when `B` holds). -/
structure DefRel (P B : Prop) (R : Ptr → Ptr → Prop) (I : Nat → Nat → Prop) (d e : PDef) : Prop where
  id : I d.id e.id
  commit : d.commit = e.commit
  name : B → d.commit.alias = false → d.name = e.name
  pname : P → d.commit.reports = true → d.pname = e.pname
  gens : Pairs I d.gens e.gens

/-- Two addresses of parsers with corresponding ids. -/
def SameIds (E F : Env) (I : Nat → Nat → Prop) (p q : Ptr) : Prop :=
  ∃ d e, E.defs[p]? = some d ∧ F.defs[q]? = some e ∧ I d.id e.id

/-- Corresponding environments: parsers for the same inputs when `P` holds, builders of the same trees when `B`
holds.  The ids of the characters matter only when they are options of a choice. -/
structure EnvRel (P B : Prop) (R : Ptr → Ptr → Prop) (I : Nat → Nat → Prop) (E F : Env) : Prop where
  one : OneToOne I
  defs : ∀ p q, R p q → ∃ d e, E.defs[p]? = some d ∧ F.defs[q]? = some e ∧ KindRel P R d.kind e.kind ∧
    (d.kind.isChar = false → DefRel P B R I d e)
  options : B → ∀ p q d e os os', R p q → E.defs[p]? = some d → F.defs[q]? = some e → d.kind = .choice os →
    e.kind = .choice os' → Pairs (SameIds E F I) os os'
  keywords : P → Pairs R E.keywords F.keywords

/-- Two addresses of parsers with the same name. -/
def SameName (E F : Env) (p q : Ptr) : Prop :=
  ∃ d e, E.defs[p]? = some d ∧ F.defs[q]? = some e ∧ d.pname = e.pname

/-- Corresponding contexts: everything is the same but the results and the failing parser, which is related by `S`. -/
def CtxRel (S : Ptr → Ptr → Prop) (I : Nat → Nat → Prop) (M : List Nat) (c c' : Ctx) : Prop :=
  ∃ r f, c' = { c with res := r, failing := f } ∧ ResRel I c.res r ∧ OptRel S c.failing f ∧ Touched M c.res

section

variable {P B : Prop} {R S : Ptr → Ptr → Prop} {I : Nat → Nat → Prop} {E F : Env}

theorem CtxRel.weaken {M : List Nat} {a : Nat} {c c' : Ctx} (h : CtxRel S I (a :: M) c c') :
    CtxRel S I M c c' := by
  obtain ⟨r, f, rfl, hr, hf, hM⟩ := h
  exact ⟨r, f, rfl, hr, hf, fun x hx => hM x (by simp [hx])⟩

/-- A context with other fields. -/
theorem CtxRel.fail {M : List Nat} {c c' : Ctx} (h : CtxRel S I M c c') (o : Nat) :
    CtxRel S I M (c.fail o) (c'.fail o) := by
  obtain ⟨r, f, rfl, hr, hf, hM⟩ := h
  exact ⟨r, f, rfl, hr, hf, hM⟩

theorem CtxRel.success {M : List Nat} {c c' : Ctx} (h : CtxRel S I M c c') (o : Nat) :
    CtxRel S I M (c.success o) (c'.success o) := by
  obtain ⟨r, f, rfl, hr, hf, hM⟩ := h
  exact ⟨r, f, rfl, hr, hf, hM⟩

theorem CtxRel.setOffset {M : List Nat} {c c' : Ctx} (h : CtxRel S I M c c') (o : Nat) :
    CtxRel S I M { c with offset := o } { c' with offset := o } := by
  obtain ⟨r, f, rfl, hr, hf, hM⟩ := h
  exact ⟨r, f, rfl, hr, hf, hM⟩

theorem CtxRel.setLimit {M : List Nat} {c c' : Ctx} (h : CtxRel S I M c c') (o : Int) :
    CtxRel S I M { c with offsetLimit := o } { c' with offsetLimit := o } := by
  obtain ⟨r, f, rfl, hr, hf, hM⟩ := h
  exact ⟨r, f, rfl, hr, hf, hM⟩

theorem CtxRel.setFail {M : List Nat} {c c' : Ctx} (h : CtxRel S I M c c') (o : Int) {f f' : Option Ptr}
    (hf : OptRel S f f') :
    CtxRel S I M { c with failOffset := o, failing := f } { c' with failOffset := o, failing := f' } := by
  obtain ⟨r, _, rfl, hr, _, hM⟩ := h
  exact ⟨r, f', rfl, hr, hf, hM⟩

theorem CtxRel.offset {M : List Nat} {c c' : Ctx} (h : CtxRel S I M c c') : c'.offset = c.offset := by
  obtain ⟨r, f, rfl, hr, hf, hM⟩ := h; rfl

theorem CtxRel.iteFail {M : List Nat} {c c' : Ctx} (h : CtxRel S I M c c') (t v : Int) :
    CtxRel S I M (if t > c.failOffset then { c with failOffset := v, failing := none } else c)
      (if t > c'.failOffset then { c' with failOffset := v, failing := none } else c') := by
  obtain ⟨r, f, rfl, hr, hf, hM⟩ := h
  simp only
  by_cases hx : t > c.failOffset
  · rw [if_pos hx, if_pos hx]; exact ⟨r, none, rfl, hr, .none, hM⟩
  · rw [if_neg hx, if_neg hx]; exact ⟨r, f, rfl, hr, hf, hM⟩

theorem CtxRel.touched {M : List Nat} {c c' : Ctx} (h : CtxRel S I M c c') : Touched M c.res := by
  obtain ⟨r, f, rfl, hr, hf, hM⟩ := h; exact hM

theorem CtxRel.res {M : List Nat} {c c' : Ctx} (h : CtxRel S I M c c') : ResRel I c.res c'.res := by
  obtain ⟨r, f, rfl, hr, hf, hM⟩ := h; exact hr

theorem CtxRel.setRes {M M' : List Nat} {c c' : Ctx} (h : CtxRel S I M c c') {r r' : Results} (hr : ResRel I r r')
    (hM : Touched M' r) : CtxRel S I M' { c with res := r } { c' with res := r' } := by
  obtain ⟨_, f, rfl, _, hf, _⟩ := h
  exact ⟨r', f, rfl, hr, hf, hM⟩

theorem CtxRel.fromResults {M : List Nat} {c c' : Ctx} (h : CtxRel S I M c c') {a b : Nat} (hab : I a b) :
    OptRel (CtxRel S I M) (c.fromResults a) (c'.fromResults b) := by
  obtain ⟨r, f, rfl, hr, hf, hM⟩ := h
  unfold Ctx.fromResults
  simp only
  rw [← hr.longestResult hab]
  cases hl : c.res.longestResult c.offset a with
  | none => exact .none
  | some o =>
    cases o with
    | none => exact .some ⟨r, f, rfl, hr, hf, hM⟩
    | some to => exact .some ⟨r, f, rfl, hr, hf, hM⟩

theorem CtxRel.read {M : List Nat} {c c' : Ctx} (h : CtxRel S I M c c') :
    c'.read.1 = c.read.1 ∧ CtxRel S I M c.read.2 c'.read.2 := by
  obtain ⟨r, f, rfl, hr, hf, hM⟩ := h
  unfold Ctx.read
  simp only
  by_cases hc : (c.eof || c.readErr.isSome) = true
  · rw [if_pos hc, if_pos hc]; exact ⟨rfl, r, f, rfl, hr, hf, hM⟩
  · rw [if_neg hc, if_neg hc]
    cases hrd : c.reader with
    | nil =>
      cases hre : c.readerEnd with
      | none => exact ⟨rfl, r, f, by simp [hrd, hre], hr, hf, hM⟩
      | some e => exact ⟨rfl, r, f, by simp [hrd, hre], hr, hf, hM⟩
    | cons x rest =>
      simp only
      by_cases hx : (x == replacementChar) = true
      · rw [if_pos hx, if_pos hx]; exact ⟨rfl, r, f, rfl, hr, hf, hM⟩
      · rw [if_neg hx, if_neg hx]; exact ⟨rfl, r, f, rfl, hr, hf, hM⟩

theorem CtxRel.token {M : List Nat} {c c' : Ctx} (h : CtxRel S I M c c') :
    Res.Rel (fun x y => x.1 = y.1 ∧ CtxRel S I M x.2 y.2) c.token c'.token := by
  have hrd := h.read
  obtain ⟨r, f, rfl, hr, hf, hM⟩ := h
  unfold Ctx.token
  simp only
  by_cases hc : ((c.offset : Int) == c.offsetLimit) = true
  · rw [if_pos hc, if_pos hc]; exact .ok ⟨rfl, r, f, rfl, hr, hf, hM⟩
  · rw [if_neg hc, if_neg hc]
    by_cases ho : (c.offset == c.readOffset) = true
    · rw [if_pos ho, if_pos ho]
      generalize ({ c with res := r, failing := f } : Ctx).read = y at hrd
      generalize c.read = x at hrd
      obtain ⟨b, c1⟩ := x
      obtain ⟨b', c1'⟩ := y
      obtain ⟨hb, hrd⟩ := hrd
      simp only at hb hrd
      subst hb
      cases b'
      · exact .ok ⟨rfl, hrd⟩
      · simp only
        obtain ⟨r, f, rfl, hr, hf, hM⟩ := hrd
        simp only
        unfold Res.index
        cases c1.tokens[c1.offset]? with
        | none => exact .panic
        | some t => exact .ok ⟨rfl, r, f, rfl, hr, hf, hM⟩
    · rw [if_neg ho, if_neg ho]
      unfold Res.index
      cases c.tokens[c.offset]? with
      | none => exact .panic
      | some t => exact .ok ⟨rfl, r, f, rfl, hr, hf, hM⟩

theorem CtxRel.charParse {M : List Nat} {c c' : Ctx} (h : CtxRel S I M c c') (neg : Bool) (chars : List Rune)
    (ranges : List (Rune × Rune)) :
    Res.Rel (CtxRel S I M) (charParse neg chars ranges c) (charParse neg chars ranges c') := by
  unfold Treerack.charParse
  refine h.token.bind ?_
  rintro ⟨t, c1⟩ ⟨t', c1'⟩ ⟨ht, hc⟩
  simp only at ht hc
  subst ht
  simp only
  have hfail : Res.Rel (CtxRel S I M)
      (.ok ((if (c1.offset : Int) > c1.failOffset then { c1 with failOffset := c1.offset, failing := none }
        else c1).fail (if (c1.offset : Int) > c1.failOffset then { c1 with failOffset := c1.offset, failing := none }
        else c1).offset))
      (.ok ((if (c1'.offset : Int) > c1'.failOffset then { c1' with failOffset := c1'.offset, failing := none }
        else c1').fail (if (c1'.offset : Int) > c1'.failOffset then { c1' with failOffset := c1'.offset, failing := none }
        else c1').offset)) := by
    obtain ⟨r, f, rfl, hr, hf, hM⟩ := hc
    by_cases hx : (c1.offset : Int) > c1.failOffset
    · rw [if_pos hx, if_pos hx]; exact .ok ⟨r, none, rfl, hr, .none, hM⟩
    · rw [if_neg hx, if_neg hx]; exact .ok ⟨r, f, rfl, hr, hf, hM⟩
  cases t with
  | none => exact hfail
  | some t =>
    simp only
    by_cases hm : matchChar chars ranges neg t = true
    · rw [if_pos hm, if_pos hm]
      obtain ⟨r, f, rfl, hr, hf, hM⟩ := hc
      exact .ok ⟨r, f, rfl, hr, hf, hM⟩
    · rw [if_neg hm, if_neg hm]; exact hfail

theorem CtxRel.setFailing {M : List Nat} {c c' : Ctx} (h : CtxRel S I M c c') (ct : Commit) {p q : Ptr}
    (hn : ct.reports = true → S p q) :
    CtxRel S I M (c.setFailing ct p) (c'.setFailing ct q) := by
  obtain ⟨r, f, rfl, hr, hf, hM⟩ := h
  unfold Ctx.setFailing
  simp only
  cases hrep : ct.reports
  · simp only [Bool.and_false, Bool.false_eq_true, if_false]
    exact ⟨r, f, rfl, hr, hf, hM⟩
  · cases hcf : c.failing with
    | none =>
      rw [hcf] at hf
      cases hf
      exact ⟨r, some q, rfl, hr, .some (hn hrep), hM⟩
    | some x =>
      rw [hcf] at hf
      have hx : (some x == (none : Option Ptr) && true) = false := rfl
      rw [hx]
      cases hf with
      | some hxy =>
        simp only [Bool.false_eq_true, if_false]
        exact ⟨r, some _, rfl, hr, by rw [hcf]; exact .some hxy, hM⟩

/-- Recursive calls keep the relation. -/
def RecRel (E F : Env) (R : Ptr → Ptr → Prop) (I : Nat → Nat → Prop) (f g : Ptr → Ctx → Res Ctx) : Prop :=
  ∀ (M : List Nat) (p q : Ptr) (c c' : Ctx), R p q → CtxRel (SameName E F) I M c c' → Res.Rel (CtxRel (SameName E F) I M) (f p c) (g q c')

theorem isKeywordLoop_rel {f g : Ptr → Ctx → Res Ctx} (hrec : RecRel E F R I f g) (M : List Nat) (from_ to : Nat)
    {ks ks' : List Ptr} (hk : Pairs R ks ks') : ∀ {c c' : Ctx}, CtxRel (SameName E F) I M c c' →
      Res.Rel (fun x y => x.1 = y.1 ∧ CtxRel (SameName E F) I M x.2 y.2) (isKeywordLoop f from_ to ks c)
        (isKeywordLoop g from_ to ks' c') := by
  induction hk with
  | nil => intro c c' h; exact .ok ⟨rfl, h⟩
  | cons hpq _ ih =>
    intro c c' h
    unfold isKeywordLoop
    refine (hrec M _ _ _ _ hpq (h.setOffset from_)).bind ?_
    intro c1 c1' h1
    have h1' := h1
    obtain ⟨r, fl, rfl, hr, hf, hM⟩ := h1
    simp only
    by_cases hx : (c1.matchLast && c1.offset == to) = true
    · rw [if_pos hx, if_pos hx]; exact .ok ⟨rfl, h1'⟩
    · rw [if_neg hx, if_neg hx]; exact ih h1'

theorem isKeyword_rel {f g : Ptr → Ctx → Res Ctx} (hrec : RecRel E F R I f g) (M : List Nat) (from_ to : Nat)
    {ks ks' : List Ptr} (hk : Pairs R ks ks') {c c' : Ctx} (h : CtxRel (SameName E F) I M c c') :
      Res.Rel (fun x y => x.1 = y.1 ∧ CtxRel (SameName E F) I M x.2 y.2) (isKeyword f ks c from_ to)
        (isKeyword g ks' c' from_ to) := by
  unfold isKeyword
  have hl : c'.offsetLimit = c.offsetLimit := by obtain ⟨r, fl, rfl, hr, hf, hM⟩ := h; rfl
  simp only [hl]
  refine (isKeywordLoop_rel hrec M from_ to hk (h.setLimit to)).bind ?_
  rintro ⟨b, c1⟩ ⟨b', c1'⟩ ⟨hb, h1⟩
  exact .ok ⟨hb, h1.setLimit _⟩

/-- Corresponding states of a choice. -/
def StRel (E F : Env) (I : Nat → Nat → Prop) (M : List Nat) (st st' : ChoiceSt) : Prop :=
  ∃ c f, st' = { st with c := c, failing := f } ∧ CtxRel (SameName E F) I M st.c c ∧ OptRel (SameName E F) st.failing f

theorem choicePass_rel (hI : OneToOne I) {f g : Ptr → Ctx → Res Ctx} (hrec : RecRel E F R I f g) (M : List Nat)
    {a b : Nat} (hab : I a b) (from_ : Nat) {os os' : List Ptr} (ho : Pairs R os os') :
    ∀ {st st' : ChoiceSt}, StRel E F I M st st' →
      Res.Rel (StRel E F I M) (choicePass f a from_ os st) (choicePass g b from_ os' st') := by
  induction ho with
  | nil => intro st st' h; exact .ok h
  | @cons o o' os os' hpq _ ih =>
    intro st st' h
    obtain ⟨c, fl, rfl, hc, hfl⟩ := h
    unfold choicePass
    refine (hrec M _ _ _ _ hpq hc).bind ?_
    intro c1 c1' h1
    obtain ⟨r, fl1, rfl, hr, hf, hM⟩ := h1
    simp only
    have hkey : ∀ (s0 s0' : ChoiceSt), StRel E F I M s0 s0' →
        Res.Rel (StRel E F I M)
          (if (!c1.matchLast || s0.mtch && decide (c1.offset ≤ s0.to)) = true then
            choicePass f a from_ os { s0 with c := { c1 with offset := from_ } }
          else choicePass f a from_ os { s0 with
            mtch := true, found := true, to := c1.offset,
            c := { c1 with offset := from_, res := c1.res.setMatch from_ a c1.offset } })
          (if (!c1.matchLast || s0'.mtch && decide (c1.offset ≤ s0'.to)) = true then
            choicePass g b from_ os' { s0' with c := { c1 with res := r, failing := fl1, offset := from_ } }
          else choicePass g b from_ os' { s0' with
            mtch := true, found := true, to := c1.offset,
            c := { c1 with res := r.setMatch from_ b c1.offset, failing := fl1, offset := from_ } }) := by
      intro s0 s0' hs0
      obtain ⟨c2, fl2, rfl, hc2, hfl2⟩ := hs0
      simp only
      by_cases hx : (!c1.matchLast || s0.mtch && decide (c1.offset ≤ s0.to)) = true
      · rw [if_pos hx, if_pos hx]
        exact ih ⟨_, fl2, rfl, ⟨r, fl1, rfl, hr, hf, hM⟩, hfl2⟩
      · rw [if_neg hx, if_neg hx]
        refine ih ⟨_, fl2, rfl, ⟨_, fl1, rfl, hr.setMatch hI hab from_ c1.offset, hf, ?_⟩, hfl2⟩
        intro x hx
        simp only
        rw [Results.pend_setMatch]
        exact hM x hx
    by_cases hy : (!c1.matchLast && decide (c1.failOffset > st.failOffset)) = true
    · rw [if_pos hy, if_pos hy]
      exact hkey _ _ ⟨c, fl1, rfl, hc, hf⟩
    · rw [if_neg hy, if_neg hy]
      exact hkey _ _ ⟨c, fl, rfl, hc, hfl⟩

theorem choiceLoop_rel (hI : OneToOne I) {f g : Ptr → Ctx → Res Ctx} (hrec : RecRel E F R I f g) (M : List Nat)
    {a b : Nat} (hab : I a b) (from_ : Nat) {os os' : List Ptr} (ho : Pairs R os os') :
    ∀ (n : Nat) {st st' : ChoiceSt}, StRel E F I M st st' →
      Res.Rel (StRel E F I M) (choiceLoop f a from_ os n st) (choiceLoop g b from_ os' n st')
  | 0, _, _, _ => .oof
  | n + 1, st, st', h => by
    unfold choiceLoop
    have h' : StRel E F I M { st with found := false } { st' with found := false } := by
      obtain ⟨c, fl, rfl, hc, hfl⟩ := h
      exact ⟨c, fl, rfl, hc, hfl⟩
    refine (choicePass_rel hI hrec M hab from_ ho h').bind ?_
    intro s1 s1' h1
    have hfd : s1'.found = s1.found := by obtain ⟨c, fl, rfl, hc, hfl⟩ := h1; rfl
    rw [hfd]
    cases s1.found
    · exact .ok h1
    · exact choiceLoop_rel hI hrec M hab from_ ho n h1

theorem unmark_rel (hI : OneToOne I) {M : List Nat} {a b : Nat} (hab : I a b) (from_ : Nat) {c c' : Ctx}
    (h : CtxRel (SameName E F) I (a :: M) c c') :
    Res.Rel (CtxRel (SameName E F) I M) ((c.res.unmarkPending from_ a).bind fun r => .ok { c with res := r })
      ((c'.res.unmarkPending from_ b).bind fun r => .ok { c' with res := r }) := by
  obtain ⟨r, f, rfl, hr, hf, hM⟩ := h
  refine (hr.unmarkPending hI hab from_ hM).bind ?_
  rintro r1 r1' ⟨h1, h2⟩
  exact .ok ⟨r1', f, rfl, h1, hf, fun x hx => h2 x (by simp [hx])⟩

theorem unmarkUnless_rel (hI : OneToOne I) {M : List Nat} {a b : Nat} (hab : I a b) (from_ : Nat) (ac : Bool)
    {c c' : Ctx} (h : CtxRel (SameName E F) I (if ac then M else a :: M) c c') :
    Res.Rel (CtxRel (SameName E F) I M) (unmarkUnless ac from_ a c) (unmarkUnless ac from_ b c') := by
  unfold unmarkUnless
  cases ac
  · simp only [Bool.false_eq_true, if_false] at h ⊢
    exact unmark_rel hI hab from_ h
  · simp only [if_true] at h ⊢
    exact .ok h

theorem touched_mark {M : List Nat} {r : Results} (h : Touched M r) (o a : Nat) :
    Touched (a :: M) (r.markPending o a) := by
  intro x hx
  rw [Results.pend_markPending]
  by_cases hxa : x = a
  · rw [if_pos hxa]; exact Results.markLoop_ne _ _
  · rw [if_neg hxa]
    rcases List.mem_cons.1 hx with h' | h'
    · exact absurd h' hxa
    · exact h x h'

theorem choiceParse_rel (hE : EnvRel True B R I E F) {f g : Ptr → Ctx → Res Ctx} (hrec : RecRel E F R I f g) (n : Nat)
    {p q : Ptr} {d e : PDef} (hd : DefRel True B R I d e) (hp : E.defs[p]? = some d) (hq : F.defs[q]? = some e)
    {os os' : List Ptr} (ho : Pairs R os os') (M : List Nat) {c c' : Ctx} (h : CtxRel (SameName E F) I M c c') :
    Res.Rel (CtxRel (SameName E F) I M) (choiceParse f E.keywords n p d os c) (choiceParse g F.keywords n q e os' c') := by
  have hn : d.commit.reports = true → SameName E F p q := fun hr => ⟨d, e, hp, hq, hd.pname trivial hr⟩
  unfold choiceParse
  have hfr := h.fromResults hd.id
  cases hx : c.fromResults d.id with
  | some c1 =>
    rw [hx] at hfr
    cases hy : c'.fromResults e.id with
    | none => rw [hy] at hfr; cases hfr
    | some c1' =>
      rw [hy] at hfr
      cases hfr with
      | some h1 => exact .ok h1
  | none =>
    rw [hx] at hfr
    cases hy : c'.fromResults e.id with
    | some c1' => rw [hy] at hfr; cases hfr
    | none =>
      have h' := h
      obtain ⟨r0, f0, rfl, hr0, hfi, hM0⟩ := h
      simp only
      rw [← hr0.pending hd.id]
      cases hpd : c.res.pending c.offset d.id
      · simp only [Bool.false_eq_true, if_false]
        have hmark : CtxRel (SameName E F) I (d.id :: M) { c with res := c.res.markPending c.offset d.id }
            { c with res := r0.markPending c.offset e.id, failing := f0 } :=
          ⟨_, f0, rfl, hr0.markPending hE.one hd.id _, hfi, touched_mark hM0 _ _⟩
        refine (choiceLoop_rel hE.one hrec (d.id :: M) hd.id c.offset ho n
          (st := { c := { c with res := c.res.markPending c.offset d.id }, mtch := false, found := false,
                    to := c.offset, failOffset := c.failOffset, failing := none })
          (st' := { c := { c with res := r0.markPending c.offset e.id, failing := f0 }, mtch := false, found := false,
                    to := c.offset, failOffset := c.failOffset, failing := none })
          ⟨_, none, rfl, hmark, .none⟩).bind ?_
        intro st st' hst
        obtain ⟨c1, fl, rfl, hc1, hfl⟩ := hst
        simp only
        cases hm : st.mtch
        · simp only [Bool.false_eq_true, if_false]
          unfold choiceNoMatch
          simp only
          have hset : ∀ {x x' : Ctx}, CtxRel (SameName E F) I (d.id :: M) x x' → Res.Rel (CtxRel (SameName E F) I M)
              ((({ x with res := x.res.setNoMatch c.offset d.id }.fail c.offset).res.unmarkPending c.offset d.id).bind
                fun r => .ok { ({ x with res := x.res.setNoMatch c.offset d.id }.fail c.offset) with res := r })
              ((({ x' with res := x'.res.setNoMatch c.offset e.id }.fail c.offset).res.unmarkPending c.offset e.id).bind
                fun r => .ok { ({ x' with res := x'.res.setNoMatch c.offset e.id }.fail c.offset) with res := r }) := by
            intro x x' hxx
            apply unmark_rel hE.one hd.id
            apply CtxRel.fail
            obtain ⟨r, fl, rfl, hr, hf, hM⟩ := hxx
            refine ⟨_, fl, rfl, hr.setNoMatch hE.one hd.id _, hf, fun y hy => ?_⟩
            simp only
            rw [Results.pend_setNoMatch]
            exact hM y hy
          by_cases hcmp : st.failOffset > c.failOffset
          · rw [if_pos hcmp, if_pos hcmp]
            apply hset
            rw [← hd.commit]
            exact (hc1.setFail st.failOffset hfl).setFailing _ hn
          · rw [if_neg hcmp, if_neg hcmp]
            exact hset hc1
        · simp only [if_true]
          rw [← hd.commit]
          have hkw : Res.Rel (fun x y => x.1 = y.1 ∧ CtxRel (SameName E F) I (d.id :: M) x.2 y.2)
              (if d.commit.noKeyword = true then isKeyword f E.keywords st.c c.offset st.to else .ok (false, st.c))
              (if d.commit.noKeyword = true then isKeyword g F.keywords c1 c.offset st.to else .ok (false, c1)) := by
            cases d.commit.noKeyword
            · exact .ok ⟨rfl, hc1⟩
            · exact isKeyword_rel hrec _ _ _ (hE.keywords trivial) hc1
          refine hkw.bind ?_
          rintro ⟨kw, c2⟩ ⟨kw', c2'⟩ ⟨hk, hc2⟩
          simp only at hk hc2
          subst hk
          simp only
          cases kw
          · simp only [Bool.false_eq_true, if_false]
            apply unmark_rel hE.one hd.id
            apply CtxRel.success
            by_cases h1 : st.failOffset > (st.to : Int)
            · rw [if_pos h1, if_pos h1]; exact hc2.setFail _ hfl
            · rw [if_neg h1, if_neg h1]
              by_cases h2 : (st.to : Int) > c.failOffset
              · rw [if_pos h2, if_pos h2]; exact hc2.setFail _ .none
              · rw [if_neg h2, if_neg h2]; exact hc2.setFail _ hfi
          · simp only [if_true]
            apply unmark_rel hE.one hd.id
            exact (hc2.setFailing _ hn).fail _
      · simp only [if_true]
        exact .ok (h'.fail _)

/-- Corresponding ends of the loop of a sequence. -/
inductive OutRel (E F : Env) (I : Nat → Nat → Prop) (M M' : List Nat) : SeqOut → SeqOut → Prop
  | complete {c c' : Ctx} (to : Nat) : CtxRel (SameName E F) I M c c' → OutRel E F I M M' (.complete to c) (.complete to c')
  | returned {c c' : Ctx} : CtxRel (SameName E F) I M' c c' → OutRel E F I M M' (.returned c) (.returned c')

theorem seqItemFailed_rel (hI : OneToOne I) {p q : Ptr} {d e : PDef} (hd : DefRel True B R I d e) (hp : E.defs[p]? = some d)
    (hq : F.defs[q]? = some e) (ac : Bool) (from_ to : Nat) (M : List Nat) {c c' : Ctx}
    (h : CtxRel (SameName E F) I (if ac then M else d.id :: M) c c') :
    Res.Rel (CtxRel (SameName E F) I M) (seqItemFailed p d ac from_ to c) (seqItemFailed q e ac from_ to c') := by
  have hn : d.commit.reports = true → SameName E F p q := fun hr => ⟨d, e, hp, hq, hd.pname trivial hr⟩
  unfold seqItemFailed
  have h0 := h.setOffset from_
  have hfr := h0.fromResults hd.id
  simp only
  generalize Ctx.fromResults { c with offset := from_ } d.id = x at hfr
  generalize Ctx.fromResults { c' with offset := from_ } e.id = y at hfr
  cases hfr with
  | none =>
    simp only
    apply unmarkUnless_rel hI hd.id
    rw [← hd.commit]
    exact (h0.setFailing _ hn).fail _
  | some h1 =>
    simp only
    exact unmarkUnless_rel hI hd.id _ _ (h1.iteFail _ _)

theorem seqLoop_rel (hI : OneToOne I) {f g : Ptr → Ctx → Res Ctx} (hrec : RecRel E F R I f g)
    {p q : Ptr} {d e : PDef} (hd : DefRel True B R I d e) (hp : E.defs[p]? = some d) (hq : F.defs[q]? = some e)
    (ac : Bool) (from_ : Nat) (M : List Nat) : ∀ (n : Nat) {is is' : List (Ptr × (Int × Int))},
      Pairs (fun x y => R x.1 y.1 ∧ x.2 = y.2) is is' → ∀ (count to : Nat) {c c' : Ctx},
        CtxRel (SameName E F) I (if ac then M else d.id :: M) c c' →
        Res.Rel (OutRel E F I (if ac then M else d.id :: M) M) (seqLoop f p d ac from_ n is count to c)
          (seqLoop g q e ac from_ n is' count to c')
  | 0, _, _, _, _, _, _, _, _ => .oof
  | n + 1, _, _, .nil, count, to, c, c', h => .ok (.complete to h)
  | n + 1, (item, mn, mx) :: rest, (item', _) :: rest', .cons hx hrest, count, to, c, c', h => by
    obtain ⟨hit, hxy⟩ := hx
    simp only at hit hxy
    subst hxy
    unfold seqLoop
    refine (hrec _ _ _ _ _ hit h).bind ?_
    intro c1 c1' h1'
    have hml : c1'.matchLast = c1.matchLast := by obtain ⟨r, fl, rfl, hr, hf, hM⟩ := h1'; rfl
    have ho1 := h1'.offset
    simp only
    rw [hml, ho1]
    cases hm : c1.matchLast
    · simp only [Bool.not_false, if_true]
      by_cases hcnt : (count : Int) ≥ mn
      · rw [if_pos hcnt, if_pos hcnt]
        exact seqLoop_rel hI hrec hd hp hq ac from_ M n hrest 0 to h1'
      · rw [if_neg hcnt, if_neg hcnt]
        refine (seqItemFailed_rel hI hd hp hq ac from_ to M h1').bind ?_
        intro c2 c2' h2
        exact .ok (.returned h2)
    · simp only [Bool.not_true, Bool.false_eq_true, if_false]
      generalize (if decide (c1.offset > to) = true then count + 1 else count) = cnt
      by_cases hst : (!decide (c1.offset > to) || decide (mx > 0) && (cnt : Int) == mx) = true
      · rw [if_pos hst, if_pos hst]
        exact seqLoop_rel hI hrec hd hp hq ac from_ M n hrest 0 _ h1'
      · rw [if_neg hst, if_neg hst]
        exact seqLoop_rel hI hrec hd hp hq ac from_ M n (.cons (a := (item, mn, mx)) (b := (item', mn, mx)) ⟨hit, rfl⟩ hrest) _ _ h1'

theorem setGeneralizations_rel (hI : OneToOne I) (from_ to : Nat) {gs gs' : List Nat} (hg : Pairs I gs gs') :
    ∀ {r s : Results}, ResRel I r s → ∀ {M : List Nat}, Touched M r →
      ResRel I (setGeneralizations from_ to gs r) (setGeneralizations from_ to gs' s) ∧
      Touched M (setGeneralizations from_ to gs r) := by
  unfold setGeneralizations
  induction hg with
  | nil => intro r s h M hM; exact ⟨h, hM⟩
  | cons hab _ ih =>
    intro r s h M hM
    simp only [List.foldl_cons]
    rw [← h.pending hab]
    split
    · apply ih (h.setMatch hI hab from_ to)
      intro x hx
      rw [Results.pend_setMatch]; exact hM x hx
    · exact ih h hM

theorem seqParse_rel (hE : EnvRel True B R I E F) {f g : Ptr → Ctx → Res Ctx} (hrec : RecRel E F R I f g) (n : Nat)
    {p q : Ptr} {d e : PDef} (hd : DefRel True B R I d e) (hp : E.defs[p]? = some d) (hq : F.defs[q]? = some e)
    {is is' : List Ptr} (hi : Pairs R is is') (ranges : List (Int × Int)) (ac : Bool) (M : List Nat) {c c' : Ctx}
    (h : CtxRel (SameName E F) I M c c') :
    Res.Rel (CtxRel (SameName E F) I M) (seqParse f E.keywords n p d is ranges ac c)
      (seqParse g F.keywords n q e is' ranges ac c') := by
  have hn : d.commit.reports = true → SameName E F p q := fun hr => ⟨d, e, hp, hq, hd.pname trivial hr⟩
  unfold seqParse
  have h' := h
  obtain ⟨r0, f0, rfl, hr0, hf0, hM0⟩ := h
  simp only
  rw [← hr0.pending hd.id]
  cases hpd : (!ac && c.res.pending c.offset d.id)
  · simp only [Bool.false_eq_true, if_false]
    have hmark : CtxRel (SameName E F) I (if ac then M else d.id :: M)
        (if ac then c else { c with res := c.res.markPending c.offset d.id })
        (if ac then { c with res := r0, failing := f0 }
          else { c with res := r0.markPending c.offset e.id, failing := f0 }) := by
      cases ac
      · simp only [Bool.false_eq_true, if_false]
        exact ⟨_, f0, rfl, hr0.markPending hE.one hd.id _, hf0, touched_mark hM0 _ _⟩
      · exact h'
    refine (seqLoop_rel hE.one hrec hd hp hq ac c.offset M n (hi.zip ranges) 0 c.offset hmark).bind ?_
    intro o o' hoo
    cases hoo with
    | returned h1 => exact .ok h1
    | complete to h1 =>
      rename_i c1 c1'
      simp only
      rw [← hd.commit]
      have hkw : Res.Rel (fun x y => x.1 = y.1 ∧ CtxRel (SameName E F) I (if ac then M else d.id :: M) x.2 y.2)
          (if d.commit.noKeyword = true then isKeyword f E.keywords c1 c.offset to else .ok (false, c1))
          (if d.commit.noKeyword = true then isKeyword g F.keywords c1' c.offset to else .ok (false, c1')) := by
        cases d.commit.noKeyword
        · exact .ok ⟨rfl, h1⟩
        · exact isKeyword_rel hrec _ _ _ (hE.keywords trivial) h1
      refine hkw.bind ?_
      rintro ⟨kw, c2⟩ ⟨kw', c2'⟩ ⟨hk, hc2⟩
      simp only at hk hc2
      subst hk
      simp only
      cases kw
      · simp only [Bool.false_eq_true, if_false]
        apply unmarkUnless_rel hE.one hd.id
        apply CtxRel.success
        have hg := setGeneralizations_rel hE.one c.offset to hd.gens hc2.res hc2.touched
        have h3 := (hc2.setRes hg.1 hg.2).iteFail to (-1)
        exact h3.setRes (h3.res.setMatch hE.one hd.id _ _) (fun x hx => by
          rw [Results.pend_setMatch]; exact h3.touched x hx)
      · simp only [if_true]
        apply unmarkUnless_rel hE.one hd.id
        exact (hc2.setFailing _ hn).fail _
  · simp only [if_true]
    exact .ok (h'.fail _)

theorem parse_rel (hE : EnvRel True B R I E F) : ∀ n, RecRel E F R I (parse E n) (parse F n)
  | 0, _, _, _, _, _, _, _ => .oof
  | n + 1, M, p, q, c, c', hpq, h => by
    obtain ⟨d, e, hp, hq, hk, hd⟩ := hE.defs p q hpq
    unfold parse
    rw [hp, hq]
    simp only
    generalize d.kind = k, e.kind = k' at hk hd
    cases hk with
    | char hc =>
      obtain ⟨rfl, rfl, rfl⟩ := hc trivial
      exact h.charParse _ _ _
    | choice ho => exact choiceParse_rel hE (parse_rel hE n) (n + 1) (hd rfl) hp hq ho M h
    | seq rs ac hi => exact seqParse_rel hE (parse_rel hE n) (n + 1) (hd rfl) hp hq hi rs ac M h

/-! ### Building the tree -/

theorem dropAll_rel (hI : OneToOne I) (o t : Nat) {as bs : List Nat} (h : Pairs I as bs) :
    ∀ {r s : Results}, ResRel I r s → o < r.matches_.length → o < s.matches_.length → ∀ {M : List Nat}, Touched M r →
      Res.Rel (fun r s => ResRel I r s ∧ Touched M r) (dropAll o t as r) (dropAll o t bs s) := by
  induction h with
  | nil => intro r s h _ _ M hM; exact .ok ⟨h, hM⟩
  | cons hab _ ih =>
    intro r s h hr hs M hM
    obtain ⟨r', s', h1, h2, h3, hl, hl', hp⟩ := h.dropMatchTo hI hab o t hr hs
    unfold dropAll
    rw [h1, h2]
    simp only [Res.bind_ok]
    exact ih h3 (by omega) (by omega) (fun x hx => by rw [hp]; exact hM x hx)

theorem markAll_rel (hI : OneToOne I) (o : Nat) {as bs : List Nat} (h : Pairs I as bs) :
    ∀ {r s : Results}, ResRel I r s → ∀ {M : List Nat}, Touched M r →
      ResRel I (markAll o as r) (markAll o bs s) ∧ Touched (as ++ M) (markAll o as r) := by
  unfold markAll
  induction h with
  | nil => intro r s h M hM; exact ⟨h, hM⟩
  | @cons a b as bs hab _ ih =>
    intro r s h M hM
    simp only [List.foldl_cons]
    obtain ⟨h1, h2⟩ := ih (h.markPending hI hab o) (touched_mark hM o a)
    refine ⟨h1, fun x hx => h2 x ?_⟩
    simp only [List.cons_append, List.mem_cons, List.mem_append] at hx ⊢
    rcases hx with h | h | h
    · exact Or.inr (Or.inl h)
    · exact Or.inl h
    · exact Or.inr (Or.inr h)

theorem unmarkAll_rel (hI : OneToOne I) (o : Nat) {as bs : List Nat} (h : Pairs I as bs) :
    ∀ {r s : Results}, ResRel I r s → ∀ {M : List Nat}, Touched (as ++ M) r →
      Res.Rel (fun r s => ResRel I r s ∧ Touched M r) (unmarkAll o as r) (unmarkAll o bs s) := by
  induction h with
  | nil => intro r s h M hM; exact .ok ⟨h, hM⟩
  | @cons a b as bs hab _ ih =>
    intro r s h M hM
    unfold unmarkAll
    refine (h.unmarkPending hI hab o hM).bind ?_
    rintro r1 s1 ⟨h1, h2⟩
    exact ih h1 (fun x hx => h2 x (by simp only [List.mem_cons]; exact Or.inr hx))

theorem findOption_rel (o t : Nat) {os os' : List Ptr} (h : Pairs R os os') (hi : Pairs (SameIds E F I) os os')
    {r s : Results} (hr : ResRel I r s) : Res.Rel (OptRel R) (findOption E r o t os) (findOption F s o t os') := by
  induction h with
  | nil => exact .ok .none
  | cons hpq _ ih =>
    cases hi with
    | cons hi hi' =>
      obtain ⟨d, e, hp, hq, hid⟩ := hi
      unfold findOption
      rw [hp, hq]
      simp only
      rw [← hr.hasMatchTo hid]
      split
      · exact .ok (.some hpq)
      · exact ih hi'

/-- Recursive calls of `build` keep the relation. -/
def BuildRel (S R : Ptr → Ptr → Prop) (I : Nat → Nat → Prop)
    (f g : Ptr → Ctx → Res (Option (List Node) × Ctx)) : Prop :=
  ∀ (M : List Nat) (p q : Ptr) (c c' : Ctx), R p q → CtxRel S I M c c' →
    Res.Rel (fun x y => x.1 = y.1 ∧ CtxRel S I M x.2 y.2) (f p c) (g q c')

theorem longestMatch_lt {r : Results} {o id t : Nat} (h : r.longestMatch o id = some t) : o < r.matches_.length := by
  apply Results.tos_lt (i := id)
  intro hc
  rw [Results.longestMatch_tos, hc] at h
  cases h

/-- The ids that are marked or dropped while building. -/
def buildMarks (parsed : Bool) (ids M : List Nat) : List Nat := if parsed then M else ids ++ M

theorem enter_rel (hI : OneToOne I) (parsed : Bool) (o t : Nat) {as bs : List Nat} (h : Pairs I as bs) {r s : Results}
    (hr : ResRel I r s) (h1 : o < r.matches_.length) (h2 : o < s.matches_.length) {M : List Nat} (hM : Touched M r) :
    Res.Rel (fun r s => ResRel I r s ∧ Touched (buildMarks parsed as M) r)
      (if parsed then dropAll o t as r else .ok (markAll o as r))
      (if parsed then dropAll o t bs s else .ok (markAll o bs s)) := by
  cases parsed
  · exact .ok (markAll_rel hI o h hr hM)
  · exact dropAll_rel hI o t h hr h1 h2 hM

theorem leave_rel (hI : OneToOne I) (parsed : Bool) (o : Nat) {as bs : List Nat} (h : Pairs I as bs) {M : List Nat}
    {c c' : Ctx} (hc : CtxRel S I (buildMarks parsed as M) c c') :
    Res.Rel (fun r s => ResRel I r s ∧ Touched M r)
      (if parsed then .ok c.res else unmarkAll o as c.res)
      (if parsed then .ok c'.res else unmarkAll o bs c'.res) := by
  cases parsed
  · exact unmarkAll_rel hI o h hc.res hc.touched
  · exact .ok ⟨hc.res, hc.touched⟩

theorem choiceBuild_rel (hE : EnvRel P True R I E F) {f g : Ptr → Ctx → Res (Option (List Node) × Ctx)}
    (hrec : BuildRel S R I f g) {d e : PDef} (hd : DefRel P True R I d e) {os os' : List Ptr} (ho : Pairs R os os')
    (hoi : Pairs (SameIds E F I) os os')
    (M : List Nat) {c c' : Ctx} (h : CtxRel S I M c c') :
    Res.Rel (fun x y => x.1 = y.1 ∧ CtxRel S I M x.2 y.2) (choiceBuild f E d os c) (choiceBuild g F e os' c') := by
  have hids : Pairs I (d.id :: d.gens) (e.id :: e.gens) := .cons hd.id hd.gens
  unfold choiceBuild
  have h' := h
  obtain ⟨r0, f0, rfl, hr0, hf0, hM0⟩ := h
  simp only
  rw [← hr0.longestMatch hd.id, ← hd.commit]
  cases hl : c.res.longestMatch c.offset d.id with
  | none => exact .ok ⟨rfl, h'⟩
  | some to =>
    have hl' : r0.longestMatch c.offset e.id = some to := by rw [← hr0.longestMatch hd.id]; exact hl
    simp only
    rw [← hr0.pending hd.id]
    cases hx : (!decide (to > c.offset) && c.res.pending c.offset d.id)
    · simp only [Bool.false_eq_true, if_false]
      refine (enter_rel hE.one _ c.offset to hids hr0 (longestMatch_lt hl) (longestMatch_lt hl') hM0).bind ?_
      rintro r s ⟨hr, hM⟩
      refine (findOption_rel c.offset to ho hoi hr).bind ?_
      intro x y hxy
      cases hxy with
      | none => exact .panic
      | some hpq =>
        simp only
        refine (hrec _ _ _ _ _ hpq (h'.setRes hr hM)).bind ?_
        rintro ⟨n, c1⟩ ⟨n', c1'⟩ ⟨hn, hc1⟩
        simp only at hn hc1
        subst hn
        simp only
        refine (leave_rel hE.one _ c.offset hids hc1).bind ?_
        rintro r s ⟨hr, hM⟩
        have ht : c1'.tokens = c1.tokens := by obtain ⟨r0, f0, rfl, hr0, hf0, hM0⟩ := hc1; rfl
        cases ha : d.commit.alias
        · simp only [Bool.false_eq_true, if_false]
          exact .ok ⟨by rw [hd.name trivial ha, ht], hc1.setRes hr hM⟩
        · simp only [if_true]
          exact .ok ⟨rfl, hc1.setRes hr hM⟩
    · simp only [if_true]
      exact .ok ⟨rfl, h'⟩

theorem seqBuildLoop_rel {f g : Ptr → Ctx → Res (Option (List Node) × Ctx)}
    (hrec : BuildRel S R I f g) (M : List Nat) : ∀ (n : Nat) {is is' : List (Ptr × (Int × Int))},
      Pairs (fun x y => R x.1 y.1 ∧ x.2 = y.2) is is' → ∀ (count : Nat) (nodes : List Node) {c c' : Ctx},
        CtxRel S I M c c' →
        Res.Rel (fun x y => x.1 = y.1 ∧ CtxRel S I M x.2 y.2) (seqBuildLoop f n is count nodes c)
          (seqBuildLoop g n is' count nodes c')
  | 0, _, _, _, _, _, _, _, _ => .oof
  | n + 1, _, _, .nil, count, nodes, c, c', h => .ok ⟨rfl, h⟩
  | n + 1, (item, mn, mx) :: rest, (item', _) :: rest', .cons hx hrest, count, nodes, c, c', h => by
    obtain ⟨hit, hxy⟩ := hx
    simp only at hit hxy
    subst hxy
    have ho := h.offset
    unfold seqBuildLoop
    simp only
    refine (hrec _ _ _ _ _ hit h).bind ?_
    rintro ⟨ns, c1⟩ ⟨ns', c1'⟩ ⟨hn, h1⟩
    simp only at hn h1
    subst hn
    have ho1 := h1.offset
    cases ns with
    | none => exact seqBuildLoop_rel hrec M n hrest 0 nodes h1
    | some ns =>
      simp only
      rw [ho, ho1]
      split
      · split
        · exact seqBuildLoop_rel hrec M n hrest 0 _ h1
        · exact seqBuildLoop_rel hrec M n (.cons (a := (item, mn, mx)) (b := (item', mn, mx)) ⟨hit, rfl⟩ hrest) _ _ h1
      · exact seqBuildLoop_rel hrec M n hrest 0 _ h1

theorem seqBuild_rel (hE : EnvRel P True R I E F) {f g : Ptr → Ctx → Res (Option (List Node) × Ctx)}
    (hrec : BuildRel S R I f g) (n : Nat) {d e : PDef} (hd : DefRel P True R I d e) {is is' : List Ptr}
    (hi : Pairs R is is') (ranges : List (Int × Int)) (ac : Bool)
    (M : List Nat) {c c' : Ctx} (h : CtxRel S I M c c') :
    Res.Rel (fun x y => x.1 = y.1 ∧ CtxRel S I M x.2 y.2) (seqBuild f n d is ranges ac c)
      (seqBuild g n e is' ranges ac c') := by
  have hids : Pairs I (d.id :: d.gens) (e.id :: e.gens) := .cons hd.id hd.gens
  unfold seqBuild
  have h' := h
  obtain ⟨r0, f0, rfl, hr0, hf0, hM0⟩ := h
  simp only
  rw [← hr0.longestMatch hd.id, ← hd.commit]
  cases hl : c.res.longestMatch c.offset d.id with
  | none => exact .ok ⟨rfl, h'⟩
  | some to =>
    have hl' : r0.longestMatch c.offset e.id = some to := by rw [← hr0.longestMatch hd.id]; exact hl
    simp only
    rw [← hr0.pending hd.id]
    cases ac
    · simp only [Bool.false_eq_true, if_false]
      cases hx : (!decide (to > c.offset) && c.res.pending c.offset d.id)
      · simp only [Bool.false_eq_true, if_false]
        refine (enter_rel hE.one _ c.offset to hids hr0 (longestMatch_lt hl) (longestMatch_lt hl') hM0).bind ?_
        rintro r s ⟨hr, hM⟩
        refine (seqBuildLoop_rel hrec _ n (hi.zip ranges) 0 [] (h'.setRes hr hM)).bind ?_
        rintro ⟨ns, c1⟩ ⟨ns', c1'⟩ ⟨hn, hc1⟩
        simp only at hn hc1
        subst hn
        simp only
        refine (leave_rel hE.one _ c.offset hids hc1).bind ?_
        rintro r s ⟨hr, hM⟩
        have ht : c1'.tokens = c1.tokens := by obtain ⟨r0, f0, rfl, hr0, hf0, hM0⟩ := hc1; rfl
        cases ha : d.commit.alias
        · simp only [Bool.false_eq_true, if_false]
          exact .ok ⟨by rw [hd.name trivial ha, ht], hc1.setRes hr hM⟩
        · simp only [if_true]
          exact .ok ⟨rfl, hc1.setRes hr hM⟩
      · simp only [if_true]
        exact .ok ⟨rfl, h'⟩
    · simp only [if_true]
      cases ha : d.commit.alias
      · simp only [Bool.false_eq_true, if_false]
        exact .ok ⟨by rw [hd.name trivial ha], ⟨r0, f0, rfl, hr0, hf0, hM0⟩⟩
      · simp only [if_true]
        exact .ok ⟨rfl, ⟨r0, f0, rfl, hr0, hf0, hM0⟩⟩

theorem build_rel (hE : EnvRel P True R I E F) : ∀ n, BuildRel S R I (build E n) (build F n)
  | 0, _, _, _, _, _, _, _ => .oof
  | n + 1, M, p, q, c, c', hpq, h => by
    obtain ⟨d, e, hp, hq, hk, hd⟩ := hE.defs p q hpq
    have hopt := hE.options trivial p q d e
    unfold build
    rw [hp, hq]
    simp only
    generalize d.kind = k, e.kind = k' at hk hd hopt
    cases hk with
    | char hc => exact .ok ⟨rfl, h⟩
    | choice ho => exact choiceBuild_rel hE (build_rel hE n) (hd rfl) ho (hopt _ _ hpq hp hq rfl rfl) M h
    | seq rs ac hi => exact seqBuild_rel hE (build_rel hE n) (n + 1) (hd rfl) hi rs ac M h

/-! ### The whole input -/

theorem parseError_rel {M : List Nat} {c c' : Ctx} (h : CtxRel (SameName E F) I M c c') {p q : Ptr} (hn : SameName E F p q) :
    parseError E c p = parseError F c' q := by
  obtain ⟨r, f, rfl, hr, hf, hM⟩ := h
  obtain ⟨d, e, hp, hq, hname⟩ := hn
  unfold parseError Env.nodeName
  rw [hp, hq]
  simp only [Res.bind_ok, hname]
  have hb : (c.failing == none) = (f == none) := by
    revert hf
    generalize c.failing = x
    intro hf
    cases hf <;> rfl
  rw [hb]

/-- The same error, or two parse errors at the same place that differ in the name of the root. -/
inductive ErrRel (n n' : Name) : Err → Err → Prop
  | same (e : Err) : ErrRel n n' e e
  | root (o l c : Nat) : ErrRel n n' (.parseError o l c (definitionPart n)) (.parseError o l c (definitionPart n'))

theorem ErrRel.eq {n : Name} {e e' : Err} (h : ErrRel n n e e') : e = e' := by cases h <;> rfl

theorem parseError_root {M : List Nat} {c c' : Ctx} (h : CtxRel (SameName E F) I M c c') {p q : Ptr} {d e : PDef}
    (hp : E.defs[p]? = some d) (hq : F.defs[q]? = some e) :
    Res.Rel (ErrRel d.pname e.pname) (parseError E c p) (parseError F c' q) := by
  obtain ⟨r, f, rfl, hr, hf, hM⟩ := h
  unfold parseError Env.nodeName
  rw [hp, hq]
  simp only [Res.bind_ok]
  have hb : (c.failing == none) = (f == none) := by
    revert hf
    generalize c.failing = x
    intro hf
    cases hf <;> rfl
  rw [hb]
  cases findLine c.tokens (if (f == none) = true then ↑c.consumed else c.failOffset) with
  | ok x => exact .ok (.root _ _ _)
  | panic => exact .panic
  | oof => exact .oof

theorem finalizeParse_rel (hE : EnvRel True B R I E F) {M : List Nat} {c c' : Ctx} (h : CtxRel (SameName E F) I M c c')
    {p q : Ptr} {d e : PDef} (hp : E.defs[p]? = some d) (hq : F.defs[q]? = some e) (hid : I d.id e.id) :
    Res.Rel (fun x y => OptRel (ErrRel d.pname e.pname) x.1 y.1 ∧ CtxRel (SameName E F) I M x.2 y.2)
      (finalizeParse E c p) (finalizeParse F c' q) := by
  unfold finalizeParse
  have hfp : Res.Rel (ErrRel d.pname e.pname) (parseError E c (c.failing.getD p)) (parseError F c' (c'.failing.getD q)) := by
    cases hf : c.failing with
    | none =>
      have hf' : c'.failing = none := by
        obtain ⟨r, f, rfl, hr, hf', hM⟩ := h
        rw [hf] at hf'
        cases hf'
        rfl
      rw [hf']
      exact parseError_root h hp hq
    | some x =>
      obtain ⟨y, hy, hxy⟩ : ∃ y, c'.failing = some y ∧ SameName E F x y := by
        obtain ⟨r, f, rfl, hr, hf', hM⟩ := h
        rw [hf] at hf'
        cases hf' with
        | some hs => exact ⟨_, rfl, hs⟩
      rw [hy]
      simp only [Option.getD_some]
      rw [parseError_rel h hxy]
      cases parseError F c' y with
      | ok e => exact .ok (.same e)
      | panic => exact .panic
      | oof => exact .oof
  rw [hp, hq]
  simp only
  have hro : c'.readOffset = c.readOffset := by obtain ⟨r, f, rfl, hr, hf, hM⟩ := h; rfl
  rw [← h.res.longestResult hid, hro]
  have herr : Res.Rel (fun x y => OptRel (ErrRel d.pname e.pname) x.1 y.1 ∧ CtxRel (SameName E F) I M x.2 y.2)
      ((parseError E c (c.failing.getD p)).bind fun e => .ok (some e, c))
      ((parseError F c' (c'.failing.getD q)).bind fun e => .ok (some e, c')) :=
    hfp.bind fun _ _ he => .ok ⟨.some he, h⟩
  have hgo : Res.Rel (fun x y => OptRel (ErrRel d.pname e.pname) x.1 y.1 ∧ CtxRel (SameName E F) I M x.2 y.2)
      (if c.read.2.eof = true then .ok (none, c.read.2) else
        match c.read.2.readErr with
        | some e => .ok (some e, c.read.2)
        | none => (parseError E c.read.2 p).bind fun e => .ok (some e, c.read.2))
      (if c'.read.2.eof = true then .ok (none, c'.read.2) else
        match c'.read.2.readErr with
        | some e => .ok (some e, c'.read.2)
        | none => (parseError F c'.read.2 q).bind fun e => .ok (some e, c'.read.2)) := by
    have h2 := h.read.2
    generalize c.read.2 = c1 at h2
    generalize c'.read.2 = c1' at h2
    have he : c1'.eof = c1.eof := by obtain ⟨r, f, rfl, hr, hf, hM⟩ := h2; rfl
    have hre : c1'.readErr = c1.readErr := by obtain ⟨r, f, rfl, hr, hf, hM⟩ := h2; rfl
    rw [he, hre]
    split
    · exact .ok ⟨.none, h2⟩
    · split
      · exact .ok ⟨.some (.same _), h2⟩
      · exact (parseError_root h2 hp hq).bind fun _ _ he => .ok ⟨.some he, h2⟩
  cases c.res.longestResult 0 d.id with
  | none => exact herr
  | some o =>
    cases o with
    | none => exact herr
    | some to =>
      simp only
      by_cases hlt : decide (to < c.readOffset) = true
      · rw [if_pos hlt, if_pos hlt]; exact herr
      · rw [if_neg hlt, if_neg hlt]; exact hgo

/-- The same tree, or the same error up to the name of the root. -/
inductive OutcomeRel (n n' : Name) : Except Err Node → Except Err Node → Prop
  | node (t : Node) : OutcomeRel n n' (.ok t) (.ok t)
  | error {e e' : Err} : ErrRel n n' e e' → OutcomeRel n n' (.error e) (.error e')

theorem CtxRel.imp {S' : Ptr → Ptr → Prop} {M : List Nat} {c c' : Ctx} (h : CtxRel S I M c c')
    (hS : ∀ p q, S p q → S' p q) : CtxRel S' I M c c' := by
  obtain ⟨r, f, rfl, hr, hf, hM⟩ := h
  refine ⟨r, f, rfl, hr, ?_, hM⟩
  generalize c.failing = x at hf
  cases hf with
  | none => exact .none
  | some h => exact .some (hS _ _ h)

/-- Parsers and builders that correspond to those of one environment return the same tree or the same error, up to the
name of the root, for every input. -/
theorem parseWith_rel {E F G : Env} {R R' : Ptr → Ptr → Prop} (hP : EnvRel True B R I E F) (hB : EnvRel P True R' I E G)
    {p q b : Ptr} (hpq : R p q) (hpb : R' p b) {d e : PDef} (hp : E.defs[p]? = some d) (hq : F.defs[q]? = some e)
    (hid : I d.id e.id) (fuel : Nat) (reader : List Rune) (readerEnd : Option Nat) :
    Res.Rel (OutcomeRel d.pname e.pname) (parseInput E fuel p reader readerEnd)
      (parseWith F G fuel q b reader readerEnd) := by
  have h0 : CtxRel (SameName E F) I [] (newContext reader readerEnd) (newContext reader readerEnd) :=
    ⟨{}, none, rfl, ⟨fun _ _ _ _ => rfl, fun _ _ _ _ => by simp [Results.isNoM, newContext], fun _ _ _ => rfl⟩, .none, by simp [Touched]⟩
  unfold parseInput parseWith
  refine (parse_rel hP fuel [] p q _ _ hpq h0).bind ?_
  intro c c' h
  have hre : c'.readErr = c.readErr := by obtain ⟨r, f, rfl, hr, hf, hM⟩ := h; rfl
  rw [hre]
  cases c.readErr with
  | some e => exact .ok (.error (.same _))
  | none =>
    simp only
    refine (finalizeParse_rel hP h hp hq hid).bind ?_
    rintro ⟨x, c1⟩ ⟨y, c1'⟩ ⟨hxy, h1⟩
    simp only at hxy h1
    cases hxy with
    | some he => exact .ok (.error he)
    | none =>
      simp only
      have h2 : CtxRel (fun _ _ => True) I [] { c1 with offset := 0, res := c1.res.resetPending }
          { c1' with offset := 0, res := c1'.res.resetPending } := by
        obtain ⟨r, f, rfl, hr, hf, hM⟩ := h1.imp (S' := fun _ _ => True) fun _ _ _ => trivial
        exact ⟨_, f, rfl, hr.resetPending, hf, by simp [Touched]⟩
      refine (build_rel hB fuel [] p b _ _ hpb h2).bind ?_
      rintro ⟨n, c3⟩ ⟨n', c3'⟩ ⟨hn, -⟩
      simp only at hn
      subst hn
      simp only
      split
      · exact .ok (.node _)
      · exact .panic

/-- Corresponding environments return the same tree or the same error, for every input. -/
theorem parseInput_rel (hE : EnvRel True True R I E F) {p q : Ptr} (hpq : R p q) {d e : PDef}
    (hp : E.defs[p]? = some d) (hq : F.defs[q]? = some e) (hid : I d.id e.id) (hn : d.pname = e.pname) (fuel : Nat)
    (reader : List Rune) (readerEnd : Option Nat) :
    parseInput E fuel p reader readerEnd = parseInput F fuel q reader readerEnd := by
  have h := parseWith_rel hE hE hpq hpq hp hq hid fuel reader readerEnd
  rw [← parseInput_eq, hn] at h
  generalize parseInput E fuel p reader readerEnd = x at h
  generalize parseInput F fuel q reader readerEnd = y at h
  cases h with
  | ok h =>
    cases h with
    | node t => rfl
    | error h => rw [h.eq]
  | panic => rfl
  | oof => rfl

end

end Treerack
