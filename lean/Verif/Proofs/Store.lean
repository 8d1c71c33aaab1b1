import Verif.Model.Store
import Verif.Proofs.Results

/-
The slice level store implements the operations of `Verif.Model.Results`.
-/

namespace Treerack

theorem getD_ge {α : Type} {l : List α} {i : Nat} {d : α} (h : l.length ≤ i) : l.getD i d = d := by
  rw [List.getD_eq_getElem?_getD, List.getElem?_eq_none h]; rfl

namespace Slice
variable {α : Type}

/-- The length is within the capacity, and everything behind the length is zero.  The second part is
what makes re-slicing up to the capacity correct. -/
structure WF (zero : α) (s : Slice α) : Prop where
  le : s.len ≤ s.arr.length
  tail : ∀ a ∈ s.arr.drop s.len, a = zero

theorem WF.nil (zero : α) : WF zero ({} : Slice α) := ⟨Nat.le_refl _, by simp⟩

theorem WF.length {zero : α} {s : Slice α} (h : s.WF zero) : s.toList.length = s.len := by
  rw [toList, List.length_take]; exact Nat.min_eq_left h.le

theorem WF.drop {zero : α} {s : Slice α} (h : s.WF zero) :
    s.arr.drop s.len = List.replicate (s.arr.length - s.len) zero := by
  rw [List.eq_replicate_iff]
  exact ⟨by simp, h.tail⟩

theorem WF.arr {zero : α} {s : Slice α} (h : s.WF zero) :
    s.arr = s.toList ++ List.replicate (s.arr.length - s.len) zero := by
  rw [← h.drop, toList, List.take_append_drop]

theorem index_eq (s : Slice α) (i : Nat) :
    s.index i = Res.index s.toList i := by
  unfold Slice.index Res.index toList
  by_cases hi : i < s.len
  · rw [if_pos hi, List.getElem?_take, if_pos hi]
  · rw [if_neg hi, List.getElem?_take, if_neg hi]

theorem WF.set {zero : α} {s : Slice α} (h : s.WF zero) {i : Nat} (hi : i < s.len) (a : α) :
    ∃ s', s.set i a = .ok s' ∧ s'.WF zero ∧ s'.toList = s.toList.set i a ∧ s'.len = s.len := by
  refine ⟨{ s with arr := s.arr.set i a }, by rw [Slice.set, if_pos hi], ⟨by simpa using h.le, ?_⟩,
    ?_, rfl⟩
  · intro b hb
    rw [List.drop_set, if_pos hi] at hb
    exact h.tail b hb
  · simp only [toList, List.take_set]

theorem set_panic {s : Slice α} {i : Nat} (hi : s.len ≤ i) (a : α) : s.set i a = .panic := by
  rw [Slice.set, if_neg (Nat.not_lt.2 hi)]

theorem WF.reslice {zero : α} {s : Slice α} (h : s.WF zero) {n : Nat} (hn : n ≤ s.arr.length)
    (hs : s.len ≤ n) :
    ∃ s', s.reslice n = .ok s' ∧ s'.WF zero ∧
      s'.toList = s.toList ++ List.replicate (n - s.len) zero ∧ s'.len = n ∧ s'.arr = s.arr := by
  refine ⟨{ s with len := n }, by rw [Slice.reslice, cap, if_pos hn], ⟨hn, ?_⟩, ?_, rfl, rfl⟩
  · intro a ha
    have : s.arr.drop n = (s.arr.drop s.len).drop (n - s.len) := by
      rw [List.drop_drop]; congr 1; omega
    rw [this] at ha
    exact h.tail a (List.mem_of_mem_drop ha)
  · have hl := h.length
    show s.arr.take n = _
    rw [h.arr, List.take_append, List.take_of_length_le (by omega), List.take_replicate]
    congr 2
    rw [hl]
    omega

theorem WF.append {zero : α} {s : Slice α} (h : s.WF zero) (g : Nat → Nat → Nat) (xs : List α) :
    (s.append g zero xs).WF zero ∧ (s.append g zero xs).toList = s.toList ++ xs ∧
      (s.append g zero xs).len = s.len + xs.length := by
  have hle : min s.len s.arr.length = s.len := Nat.min_eq_left h.le
  unfold Slice.append
  simp only []
  split
  · refine ⟨⟨by simp; omega, ?_⟩, ?_, rfl⟩
    · intro a ha
      simp only at ha
      rw [List.drop_append, List.drop_of_length_le (by simp; omega)] at ha
      rw [List.nil_append] at ha
      have ha := List.mem_of_mem_drop ha
      have : s.arr.drop (s.len + xs.length) = (s.arr.drop s.len).drop xs.length := by
        rw [List.drop_drop]
      rw [this] at ha
      exact h.tail a (List.mem_of_mem_drop ha)
    · simp only [toList]
      rw [List.take_append, List.take_of_length_le (by simp; omega)]
      have : s.len + xs.length - (s.arr.take s.len ++ xs).length = 0 := by simp; omega
      rw [this]; simp
  · refine ⟨⟨by simp; omega, ?_⟩, ?_, rfl⟩
    · intro a ha
      simp only at ha
      rw [List.drop_append, List.drop_of_length_le (by simp; omega)] at ha
      rw [List.nil_append] at ha
      exact List.eq_of_mem_replicate (List.mem_of_mem_drop ha)
    · simp only [toList]
      rw [List.take_append, List.take_of_length_le (by simp; omega)]
      have : s.len + xs.length - (s.arr.take s.len ++ xs).length = 0 := by simp; omega
      rw [this]; simp

theorem WF.appendZeros {zero : α} (g : Nat → Nat → Nat) : ∀ (k : Nat) {s : Slice α}, s.WF zero →
    (s.appendZeros g zero k).WF zero ∧
      (s.appendZeros g zero k).toList = s.toList ++ List.replicate k zero ∧
      (s.appendZeros g zero k).len = s.len + k
  | 0, s, h => ⟨h, by simp [Slice.appendZeros], rfl⟩
  | k + 1, s, h => by
    obtain ⟨h1, h2, h3⟩ := h.append g [zero]
    obtain ⟨i1, i2, i3⟩ := WF.appendZeros g k h1
    refine ⟨i1, ?_, ?_⟩
    · rw [Slice.appendZeros, i2, h2, List.append_assoc]; rfl
    · rw [Slice.appendZeros, i3, h3]; simp; omega

/-- Regardless of the capacity, the slice is extended with zeros until the offset is valid. -/
theorem WF.ensureOffset {zero : α} {s : Slice α} (h : s.WF zero) (g : Nat → Nat → Nat)
    (offset : Nat) :
    ∃ s', s.ensureOffset g zero offset = .ok s' ∧ s'.WF zero ∧
      s'.toList = s.toList ++ List.replicate (offset + 1 - s.len) zero ∧
      s'.len = max s.len (offset + 1) := by
  unfold Slice.ensureOffset
  by_cases h1 : s.len > offset
  · rw [if_pos h1]
    refine ⟨s, rfl, h, ?_, by omega⟩
    rw [show offset + 1 - s.len = 0 by omega]; simp
  · rw [if_neg h1]
    by_cases h2 : s.cap > offset
    · rw [if_pos h2]
      obtain ⟨s', a, b, c, d, _⟩ := h.reslice (n := offset + 1) (by unfold cap at h2; omega) (by omega)
      exact ⟨s', a, b, c, by omega⟩
    · rw [if_neg h2]
      obtain ⟨s', a, b, c, d, _⟩ := h.reslice (n := s.arr.length) (Nat.le_refl _) h.le
      have hc : s.cap = s.arr.length := rfl
      rw [hc] at h2 ⊢
      rw [a]
      obtain ⟨i1, i2, i3⟩ := WF.appendZeros g (offset + 1 - s'.len) b
      have hle := h.le
      refine ⟨_, rfl, i1, ?_, by omega⟩
      rw [i2, c, List.append_assoc, List.replicate_append_replicate]
      congr 2; omega

end Slice

/-! ### Bit sets -/

namespace IdSet
variable {w : Nat}

def WF (s : IdSet w) : Prop := s.ids.WF 0#w

/-- The bit of an id, `false` outside of the slice. -/
def bit (s : IdSet w) (id : Nat) : Bool := (s.ids.toList.getD (id / w) 0#w).getLsbD (id % w)

theorem and_shift_ne (x : BitVec w) (m : Nat) (hm : m < w) :
    ((x &&& (1#w <<< m)) != 0#w) = x.getLsbD m := by
  have : (x &&& (1#w <<< m)) = 0#w ↔ x.getLsbD m = false := by
    constructor
    · intro h
      have := congrArg (fun y => y.getLsbD m) h
      simpa [hm] using this
    · intro h
      apply BitVec.eq_of_getLsbD_eq
      intro i hi
      simp only [BitVec.getLsbD_and, BitVec.getLsbD_shiftLeft, BitVec.getLsbD_one,
        BitVec.getLsbD_zero]
      by_cases hc : i = m
      · subst hc; simp [h]
      · by_cases h2 : i < m
        · simp [h2]
        · have : i - m ≠ 0 := by omega
          simp [this]
  cases h : x.getLsbD m with
  | false => rw [this.2 h]; simp
  | true =>
    rw [bne_iff_ne]
    intro h'
    rw [this.1 h'] at h
    exact absurd h (by simp)

theorem or_shift (x : BitVec w) (m i : Nat) (hm : m < w) (hi : i < w) :
    (x ||| (1#w <<< m)).getLsbD i = (x.getLsbD i || decide (i = m)) := by
  simp only [BitVec.getLsbD_or, BitVec.getLsbD_shiftLeft, BitVec.getLsbD_one]
  by_cases hc : i = m
  · subst hc
    have : 0 < w := by omega
    simp [hi, this]
  · by_cases h2 : i < m
    · simp [h2, hc]
    · have : i - m ≠ 0 := by omega
      simp [this, hc]

theorem andNot_shift (x : BitVec w) (m i : Nat) (hm : m < w) (hi : i < w) :
    (x &&& ~~~(1#w <<< m)).getLsbD i = (x.getLsbD i && decide (i ≠ m)) := by
  simp only [BitVec.getLsbD_and, BitVec.getLsbD_not, BitVec.getLsbD_shiftLeft, BitVec.getLsbD_one]
  by_cases hc : i = m
  · subst hc
    have : 0 < w := by omega
    simp [hi, this]
  · by_cases h2 : i < m
    · simp [h2, hc, hi]
    · have : i - m ≠ 0 := by omega
      simp [this, hc, hi]

theorem has_eq (hw : 0 < w) {s : IdSet w} (h : s.WF) (id : Nat) : s.has id = .ok (s.bit id) := by
  have hm : id % w < w := Nat.mod_lt _ hw
  unfold has bit
  have hl := Slice.WF.length h
  by_cases hd : id / w ≥ s.ids.len
  · rw [if_pos hd, getD_ge (by omega)]
    simp
  · rw [if_neg hd, Slice.index_eq, Res.index]
    have hlt : id / w < s.ids.toList.length := by omega
    rw [List.getElem?_eq_getElem hlt]
    simp only [Res.bind_ok, and_shift_ne _ _ hm]
    rw [List.getD_eq_getElem?_getD, List.getElem?_eq_getElem hlt]
    rfl

theorem divMod_inj {a b w : Nat} (h : a / w = b / w) (h' : a % w = b % w) : a = b := by
  rw [← Nat.div_add_mod a w, ← Nat.div_add_mod b w, h, h']

theorem set_eq (hw : 0 < w) (g : Nat → Nat → Nat) {s : IdSet w} (h : s.WF) (id : Nat) :
    ∃ s', s.set g id = .ok s' ∧ s'.WF ∧ ∀ i, s'.bit i = (s.bit i || decide (i = id)) := by
  obtain ⟨a, ha, hwf, hl, hlen⟩ := Slice.WF.ensureOffset h g (id / w)
  have hlt : id / w < a.len := by omega
  have hlt' : id / w < a.toList.length := by rw [hwf.length]; exact hlt
  have hx : a.index (id / w) = .ok (a.toList[id / w]) := by
    rw [Slice.index_eq, Res.index, List.getElem?_eq_getElem hlt']
  obtain ⟨b, hb, bwf, bl, blen⟩ := hwf.set hlt (a.toList[id / w] ||| (1#w <<< (id % w)))
  refine ⟨⟨b⟩, by unfold IdSet.set; rw [ha, Res.bind_ok, hx, Res.bind_ok, hb]; rfl, bwf, ?_⟩
  intro i
  have hm : id % w < w := Nat.mod_lt _ hw
  have hmi : i % w < w := Nat.mod_lt _ hw
  have hold : ∀ k, a.toList.getD k 0#w = s.ids.toList.getD k 0#w := by
    intro k
    rw [hl]
    simp only [List.getD_eq_getElem?_getD, List.getElem?_append, List.getElem?_replicate]
    split
    · rfl
    · rename_i hk
      rw [List.getElem?_eq_none (by omega)]
      split <;> rfl
  unfold bit
  simp only [bl]
  by_cases hd : i / w = id / w
  · rw [hd, List.getD_eq_getElem?_getD, List.getElem?_set_self hlt', Option.getD_some,
      or_shift _ _ _ hm hmi]
    have : a.toList[id / w] = a.toList.getD (id / w) 0#w := by
      rw [List.getD_eq_getElem?_getD, List.getElem?_eq_getElem hlt']; rfl
    rw [this, hold]
    congr 1
    by_cases hc : i = id
    · subst hc; simp
    · have : i % w ≠ id % w := fun h' => hc (divMod_inj hd h')
      simp [hc, this]
  · have hne : i ≠ id := fun h => hd (by rw [h])
    rw [List.getD_eq_getElem?_getD, List.getElem?_set_ne (fun h => hd h.symm),
      ← List.getD_eq_getElem?_getD, hold]
    simp [hne]

theorem unset_eq (hw : 0 < w) {s : IdSet w} (h : s.WF) (id : Nat) :
    ∃ s', s.unset id = .ok s' ∧ s'.WF ∧ ∀ i, s'.bit i = (s.bit i && decide (i ≠ id)) := by
  have hm : id % w < w := Nat.mod_lt _ hw
  have hlen := Slice.WF.length h
  unfold unset
  by_cases hd : id / w ≥ s.ids.len
  · rw [if_pos hd]
    refine ⟨s, rfl, h, fun i => ?_⟩
    by_cases hc : i = id
    · subst hc
      unfold bit
      rw [getD_ge (by omega)]; simp
    · simp [hc]
  · rw [if_neg hd]
    have hlt : id / w < s.ids.len := by omega
    have hlt' : id / w < s.ids.toList.length := by omega
    have hx : s.ids.index (id / w) = .ok (s.ids.toList[id / w]) := by
      rw [Slice.index_eq, Res.index, List.getElem?_eq_getElem hlt']
    obtain ⟨b, hb, bwf, bl, blen⟩ :=
      Slice.WF.set h hlt (s.ids.toList[id / w] &&& ~~~(1#w <<< (id % w)))
    refine ⟨⟨b⟩, by rw [hx, Res.bind_ok, hb]; rfl, bwf, ?_⟩
    intro i
    have hmi : i % w < w := Nat.mod_lt _ hw
    unfold bit
    simp only [bl]
    by_cases hd : i / w = id / w
    · rw [hd, List.getD_eq_getElem?_getD, List.getElem?_set_self hlt', Option.getD_some,
        andNot_shift _ _ _ hm hmi, List.getD_eq_getElem?_getD, List.getElem?_eq_getElem hlt',
        Option.getD_some]
      congr 1
      by_cases hc : i = id
      · subst hc; simp
      · have : i % w ≠ id % w := fun h' => hc (divMod_inj hd h')
        simp [hc, this]
    · have hne : i ≠ id := fun h => hd (by rw [h])
      rw [List.getD_eq_getElem?_getD, List.getElem?_set_ne (fun h => hd h.symm),
        ← List.getD_eq_getElem?_getD]
      simp [hne]

theorem wf_empty : ({} : IdSet w).WF := Slice.WF.nil _

theorem bit_empty (id : Nat) : ({} : IdSet w).bit id = false := by
  unfold bit; simp [Slice.toList]

end IdSet

/-! ### The flat layout -/

/-- results.go:56: the entries of an offset are stored one after the other. -/
def flat (l : List (Int × Nat)) : List Int := l.flatMap fun e => [e.1, (e.2 : Int)]

theorem flat_cons (e : Int × Nat) (l : List (Int × Nat)) :
    flat (e :: l) = e.1 :: (e.2 : Int) :: flat l := rfl

theorem flat_append (l m : List (Int × Nat)) : flat (l ++ m) = flat l ++ flat m := by
  simp [flat]

theorem flat_nil : flat [] = [] := rfl

theorem intBeq (a b : Nat) : ((a : Int) == (b : Int)) = (a == b) := by
  by_cases h : a = b
  · subst h; simp
  · have : (a : Int) ≠ (b : Int) := fun h' => h (Int.ofNat_inj.1 h')
    rw [beq_eq_false_iff_ne.2 h, beq_eq_false_iff_ne.2 this]

theorem pairLoop_flat (id to : Nat) : ∀ l : List (Int × Nat),
    Store.pairLoop id to (flat l) = .ok (l.any fun e => e.1 == (id : Int) && e.2 == to)
  | [] => rfl
  | e :: l => by
    have ih := pairLoop_flat id to l
    rw [flat_cons, Store.pairLoop]
    by_cases h1 : e.1 = (id : Int)
    · rw [if_neg (by simp [h1])]
      simp only [intBeq, List.any_cons, h1, beq_self_eq_true, Bool.true_and]
      by_cases h2 : e.2 = to
      · simp [h2]
      · rw [if_neg (by simpa using h2), ih, beq_eq_false_iff_ne.2 h2, Bool.false_or]
    · rw [if_pos (by simpa using h1)]
      simp only [List.any_cons, beq_eq_false_iff_ne.2 h1, Bool.false_and, Bool.false_or]
      exact ih

theorem idLoop_flat (id : Nat) : ∀ l : List (Int × Nat),
    Store.idLoop id (flat l) = l.any fun e => e.1 == (id : Int)
  | [] => rfl
  | e :: l => by
    have ih := idLoop_flat id l
    rw [flat_cons, Store.idLoop]
    by_cases h1 : e.1 = (id : Int)
    · rw [if_neg (by simp [h1])]; simp [h1]
    · rw [if_pos (by simpa using h1), ih, List.any_cons, beq_eq_false_iff_ne.2 h1, Bool.false_or]

/-- The variables `to` and `found` of results.go:101-102. -/
def encode : Option Nat → Int × Bool
  | none => (-1, false)
  | some t => ((t : Int), true)

theorem longestLoop_hit (id y : Int) (rest : List Int) (to : Int) (found : Bool) :
    Store.longestLoop id (id :: y :: rest) (to, found) =
      Store.longestLoop id rest (if y > to then y else to, true) := by
  rw [Store.longestLoop, if_neg (by simp)]

theorem longestLoop_miss {id x : Int} (h : x ≠ id) (y : Int) (rest : List Int) (acc : Int × Bool) :
    Store.longestLoop id (x :: y :: rest) acc = Store.longestLoop id rest acc := by
  obtain ⟨to, found⟩ := acc
  rw [Store.longestLoop, if_pos (by simpa using h)]

theorem longestLoop_flat (id : Nat) : ∀ (l : List (Int × Nat)) (acc : Option Nat),
    Store.longestLoop id (flat l) (encode acc) = .ok (encode (Results.longestLoop id l acc))
  | [], acc => by
    rw [flat_nil]; cases acc <;> rfl
  | e :: l, acc => by
    have ih := longestLoop_flat id l
    rw [flat_cons, Results.longestLoop.eq_def]
    simp only []
    by_cases h1 : e.1 = (id : Int)
    · rw [if_pos (by simpa using h1), h1]
      cases acc with
      | none =>
        have := ih (some e.2)
        rw [show encode none = (-1, false) from rfl, longestLoop_hit, if_pos (by omega)]
        exact this
      | some t =>
        have := ih (some (if e.2 > t then e.2 else t))
        rw [show encode (some t) = ((t : Int), true) from rfl, longestLoop_hit]
        simp only []
        rw [← this]
        show _ = Store.longestLoop id (flat l) (((if e.2 > t then e.2 else t : Nat) : Int), true)
        congr 2
        by_cases h2 : e.2 > t
        · rw [if_pos h2, if_pos (by omega)]
        · rw [if_neg h2, if_neg (by omega)]
    · rw [if_neg (by simpa using h1), longestLoop_miss h1]
      exact ih acc

theorem dropIndex_flat (id to : Nat) : ∀ (l : List (Int × Nat)) (i : Nat),
    (Store.dropIndex id to i (flat l) = .ok none ∧ Results.dropLoop id to l = l) ∨
    (∃ k, Store.dropIndex id to i (flat l) = .ok (some (i + k)) ∧ k < (flat l).length ∧
      flat (Results.dropLoop id to l) = (flat l).set k (-1))
  | [], i => .inl ⟨rfl, rfl⟩
  | e :: l, i => by
    rw [flat_cons]
    by_cases h1 : e.1 = (id : Int)
    · by_cases h2 : e.2 = to
      · right
        refine ⟨0, ?_, by simp, ?_⟩
        · simp [Store.dropIndex, h1, h2]
        · simp only [Results.dropLoop, h1, h2, beq_self_eq_true, Bool.and_self, if_true]
          rw [flat_cons, List.set_cons_zero]
      · have e1 : Store.dropIndex id to i (e.1 :: (e.2 : Int) :: flat l)
            = Store.dropIndex id to (i + 2) (flat l) := by
          simp only [Store.dropIndex, h1, bne_self_eq_false, Bool.false_eq_true, if_false, intBeq,
            beq_eq_false_iff_ne.2 h2]
        have e2 : Results.dropLoop id to (e :: l) = e :: Results.dropLoop id to l := by
          simp [Results.dropLoop, h2]
        rw [e1, e2]
        rcases dropIndex_flat id to l (i + 2) with ⟨a, b⟩ | ⟨k, a, b, c⟩
        · exact .inl ⟨a, by rw [b]⟩
        · refine .inr ⟨k + 2, by rw [a]; congr 2; omega, by simpa using b, ?_⟩
          rw [flat_cons, c, List.set_cons_succ, List.set_cons_succ]
    · have e1 : Store.dropIndex id to i (e.1 :: (e.2 : Int) :: flat l)
          = Store.dropIndex id to (i + 2) (flat l) := by
        have h3 : (e.1 != (id : Int)) = true := by simpa using h1
        simp only [Store.dropIndex, h3, if_true]
      have e2 : Results.dropLoop id to (e :: l) = e :: Results.dropLoop id to l := by
        simp [Results.dropLoop, h1]
      rw [e1, e2]
      rcases dropIndex_flat id to l (i + 2) with ⟨a, b⟩ | ⟨k, a, b, c⟩
      · exact .inl ⟨a, by rw [b]⟩
      · refine .inr ⟨k + 2, by rw [a]; congr 2; omega, by simpa using b, ?_⟩
        rw [flat_cons, c, List.set_cons_succ, List.set_cons_succ]

theorem markLoop_eq (o : Nat) : ∀ l : List Int, Results.markLoop o l =
    match l.findIdx? (fun x => x == -1) with
    | some i => l.set i (o : Int)
    | none => l ++ [(o : Int)]
  | [] => rfl
  | x :: l => by
    have ih := markLoop_eq o l
    by_cases h : x = -1
    · simp [Results.markLoop, h, List.findIdx?_cons]
    · have h' := beq_eq_false_iff_ne.2 h
      simp only [Results.markLoop, List.findIdx?_cons, h', Bool.false_eq_true, if_false]
      rw [ih]
      cases l.findIdx? (fun x => x == -1) <;> rfl

theorem unmarkLoop_eq (o : Nat) : ∀ l : List Int, Results.unmarkLoop o l =
    match l.findIdx? (fun x => x == (o : Int)) with
    | some i => l.set i (-1)
    | none => l
  | [] => rfl
  | x :: l => by
    have ih := unmarkLoop_eq o l
    by_cases h : x = (o : Int)
    · simp [Results.unmarkLoop, h, List.findIdx?_cons]
    · have h' := beq_eq_false_iff_ne.2 h
      simp only [Results.unmarkLoop, List.findIdx?_cons, h', Bool.false_eq_true, if_false]
      rw [ih]
      cases l.findIdx? (fun x => x == (o : Int)) <;> rfl

theorem findIdx?_lt {p : Int → Bool} {l : List Int} {i : Nat} (h : l.findIdx? p = some i) :
    i < l.length := by
  rw [List.findIdx?_eq_some_iff_getElem] at h
  exact h.1

/-! ### The store -/

/-- A slice of slices with the given contents. -/
structure Rows (s : Slice (Slice Int)) (l : List (List Int)) : Prop where
  wf : s.WF {}
  rows : ∀ x ∈ s.toList, x.WF 0
  eq : s.toList.map Slice.toList = l

theorem Rows.length {s : Slice (Slice Int)} {l : List (List Int)} (h : Rows s l) :
    s.len = l.length := by
  rw [← h.eq, List.length_map, h.wf.length]

theorem Rows.index {s : Slice (Slice Int)} {l : List (List Int)} (h : Rows s l) {i : Nat}
    (hi : i < l.length) :
    ∃ x, s.index i = .ok x ∧ x.WF 0 ∧ some x.toList = l[i]? ∧ x ∈ s.toList := by
  have hlt : i < s.toList.length := by rw [h.wf.length, h.length]; exact hi
  refine ⟨s.toList[i], ?_, h.rows _ (List.getElem_mem _), ?_, List.getElem_mem _⟩
  · rw [Slice.index_eq, Res.index, List.getElem?_eq_getElem hlt]
  · rw [← h.eq, List.getElem?_map, List.getElem?_eq_getElem hlt]; rfl

theorem Rows.index_panic {s : Slice (Slice Int)} {l : List (List Int)} (h : Rows s l) {i : Nat}
    (hi : l.length ≤ i) : s.index i = .panic := by
  rw [Slice.index, if_neg (by rw [h.length]; omega)]

theorem Rows.set {s : Slice (Slice Int)} {l : List (List Int)} (h : Rows s l) {i : Nat}
    (hi : i < l.length) {x : Slice Int} (hx : x.WF 0) :
    ∃ s', s.set i x = .ok s' ∧ Rows s' (l.set i x.toList) := by
  obtain ⟨s', a, b, c, _⟩ := h.wf.set (i := i) (by rw [h.length]; exact hi) x
  refine ⟨s', a, b, ?_, ?_⟩
  · intro y hy
    rw [c] at hy
    rcases List.mem_or_eq_of_mem_set hy with hy | rfl
    · exact h.rows y hy
    · exact hx
  · rw [c, List.map_set, h.eq]

theorem Rows.ensureOffset {s : Slice (Slice Int)} {l : List (List Int)} (h : Rows s l)
    (g : Nat → Nat → Nat) (o : Nat) :
    ∃ s', s.ensureOffset g {} o = .ok s' ∧ Rows s' (Treerack.ensureOffset l o) := by
  obtain ⟨s', a, b, c, _⟩ := h.wf.ensureOffset g o
  refine ⟨s', a, b, ?_, ?_⟩
  · intro y hy
    rw [c] at hy
    rcases List.mem_append.1 hy with hy | hy
    · exact h.rows y hy
    · rw [List.eq_of_mem_replicate hy]; exact .nil 0
  · rw [c, List.map_append, h.eq, List.map_replicate, Treerack.ensureOffset, h.length]
    rfl

theorem Rows.nil : Rows {} [] := ⟨.nil _, by simp [Slice.toList], rfl⟩

theorem modify_eq_set {α : Type} (l : List α) (i : Nat) (f : α → α) (a : α) (h : l[i]? = some a) :
    l.modify i f = l.set i (f a) := by
  apply List.ext_getElem?
  intro k
  rw [List.getElem?_modify, List.getElem?_set]
  by_cases hk : i = k
  · subst hk
    have hlt : i < l.length := (List.getElem?_eq_some_iff.1 h).1
    simp only [h, if_true, if_pos hlt]; rfl
  · simp [hk]

namespace Store
variable {w : Nat}

/-- The bit of an id in the bit set of an offset; `false` when there is none. -/
def noMatchBit (st : Store w) (offset id : Nat) : Bool :=
  match st.noMatch.toList.getD offset none with
  | some s => s.bit id
  | none => false

/-- The slice level store represents the abstract one. -/
structure Abs (st : Store w) (r : Results) : Prop where
  noWF : st.noMatch.WF none
  sets : ∀ s, some s ∈ st.noMatch.toList → s.WF
  noMatch : ∀ o id, st.noMatchBit o id = (r.noMatch.getD o []).contains id
  mtch : Rows st.mtch (r.matches_.map flat)
  isPending : Rows st.isPending r.isPending

theorem Abs.empty : Abs ({} : Store w) {} where
  noWF := .nil _
  sets := by simp [Slice.toList]
  noMatch := by intro o id; simp [noMatchBit, Slice.toList]
  mtch := Rows.nil
  isPending := Rows.nil

theorem map_ensureOffset (l : List (List (Int × Nat))) (o : Nat) :
    (Treerack.ensureOffset l o).map flat = Treerack.ensureOffset (l.map flat) o := by
  unfold Treerack.ensureOffset
  rw [List.map_append, List.map_replicate, List.length_map]
  rfl

theorem getElem?_of_some {l : List (List (Int × Nat))} {o : Nat} {x : List Int}
    (h : some x = (l.map flat)[o]?) : ∃ es, l[o]? = some es ∧ x = flat es := by
  rw [List.getElem?_map] at h
  cases hl : l[o]? with
  | none => rw [hl] at h; exact absurd h (by simp)
  | some es => rw [hl] at h; exact ⟨es, rfl, Option.some.inj h⟩

theorem setMatch_abs {st : Store w} {r : Results} (h : st.Abs r) (g : Nat → Nat → Nat)
    (o i t : Nat) : ∃ st', st.setMatch g o i t = .ok st' ∧ st'.Abs (r.setMatch o i t) := by
  obtain ⟨m, hm, hr⟩ := h.mtch.ensureOffset g o
  rw [← map_ensureOffset] at hr
  have hlt : o < ((Treerack.ensureOffset r.matches_ o).map flat).length := by
    rw [List.length_map, length_ensureOffset]; omega
  obtain ⟨x, hx, xwf, xeq, _⟩ := hr.index hlt
  obtain ⟨es, hes, hflat⟩ := getElem?_of_some xeq
  have hD : (Treerack.ensureOffset r.matches_ o).getD o [] = es := by
    rw [List.getD_eq_getElem?_getD, hes]; rfl
  unfold setMatch Results.setMatch
  rw [hm, Res.bind_ok, hx, Res.bind_ok, hflat, pairLoop_flat, Res.bind_ok]
  simp only [hD]
  by_cases hf : (es.any fun e => e.1 == (i : Int) && e.2 == t) = true
  · rw [if_pos hf, if_pos hf]
    exact ⟨_, rfl, ⟨h.noWF, h.sets, h.noMatch, hr, h.isPending⟩⟩
  · rw [if_neg hf, if_neg hf]
    obtain ⟨a1, a2, _⟩ := xwf.append g [(i : Int), (t : Int)]
    obtain ⟨m', hm', hr'⟩ := hr.set hlt a1
    rw [hm']
    refine ⟨_, rfl, ⟨h.noWF, h.sets, h.noMatch, ?_, h.isPending⟩⟩
    rw [modify_eq_set _ _ _ _ hes, List.map_set, flat_append]
    rw [a2, hflat] at hr'
    exact hr'

theorem at_eq {st : Store w} {r : Results} (h : st.Abs r) {o : Nat} (ho : o < r.matches_.length) :
    ∃ x, st.mtch.index o = .ok x ∧ x.toList = flat (r.at_ o) ∧ x.WF 0 ∧
      r.matches_[o]? = some (r.at_ o) := by
  obtain ⟨x, hx, xwf, xeq, _⟩ := h.mtch.index (i := o) (by rw [List.length_map]; exact ho)
  obtain ⟨es, hes, hflat⟩ := getElem?_of_some xeq
  have : r.at_ o = es := by rw [Results.at_, List.getD_eq_getElem?_getD, hes]; rfl
  rw [this]
  exact ⟨x, hx, hflat, xwf, hes⟩

theorem at_nil {r : Results} {o : Nat} (ho : r.matches_.length ≤ o) : r.at_ o = [] := by
  rw [Results.at_, getD_ge ho]

theorem setNoMatch_abs (hw : 0 < w) {st : Store w} {r : Results} (h : st.Abs r)
    (g : Nat → Nat → Nat) (o i : Nat) :
    ∃ st', st.setNoMatch g o i = .ok st' ∧ st'.Abs (r.setNoMatch o i) := by
  have hfound : (if st.mtch.len > o then
      (st.mtch.index o).bind fun es => Res.ok (idLoop i es.toList)
      else Res.ok false) = .ok ((r.at_ o).any fun e => e.1 == (i : Int)) := by
    have hl : st.mtch.len = r.matches_.length := by rw [h.mtch.length, List.length_map]
    by_cases ho : o < r.matches_.length
    · rw [if_pos (by omega)]
      obtain ⟨x, hx, hfl, _, _⟩ := at_eq h ho
      rw [hx, Res.bind_ok, hfl, idLoop_flat]
    · rw [if_neg (by omega), at_nil (by omega)]; rfl
  unfold setNoMatch Results.setNoMatch
  rw [hfound, Res.bind_ok]
  by_cases hf : ((r.at_ o).any fun e => e.1 == (i : Int)) = true
  · rw [if_pos hf, if_pos hf]
    exact ⟨_, rfl, h⟩
  · rw [if_neg hf, if_neg hf]
    obtain ⟨nm, hnm, nwf, nl, nlen⟩ := h.noWF.ensureOffset g o
    have hlt : o < nm.len := by omega
    have hlt' : o < nm.toList.length := by rw [nwf.length]; exact hlt
    have hx : nm.index o = .ok (nm.toList[o]) := by
      rw [Slice.index_eq, Res.index, List.getElem?_eq_getElem hlt']
    have hold : ∀ k, nm.toList.getD k none = st.noMatch.toList.getD k none := by
      intro k
      rw [nl]
      simp only [List.getD_eq_getElem?_getD, List.getElem?_append, List.getElem?_replicate]
      split
      · rfl
      · rename_i hk
        rw [List.getElem?_eq_none (by omega)]
        split <;> rfl
    have hmem : ∀ s, some s ∈ nm.toList → s.WF := by
      intro s hs
      rw [nl] at hs
      rcases List.mem_append.1 hs with hs | hs
      · exact h.sets s hs
      · exact absurd (List.eq_of_mem_replicate hs) (by simp)
    have hset : ∃ s', ((nm.toList[o]).getD {}).set g i = .ok s' ∧ s'.WF ∧
        ∀ k, s'.bit k = (st.noMatchBit o k || decide (k = i)) := by
      have hD : st.noMatch.toList.getD o none = nm.toList[o] := by
        rw [← hold, List.getD_eq_getElem?_getD, List.getElem?_eq_getElem hlt']; rfl
      unfold noMatchBit
      rw [hD]
      cases hc : nm.toList[o] with
      | none =>
        obtain ⟨s', a, b, c⟩ := IdSet.set_eq hw g (IdSet.wf_empty (w := w)) i
        exact ⟨s', a, b, fun k => by rw [c, IdSet.bit_empty]⟩
      | some s =>
        obtain ⟨s', a, b, c⟩ := IdSet.set_eq hw g (hmem s (hc ▸ List.getElem_mem _)) i
        exact ⟨s', a, b, c⟩
    obtain ⟨s', hs, swf, sbit⟩ := hset
    obtain ⟨nm', hnm', nwf', nl', _⟩ := nwf.set hlt (some s')
    rw [hnm, Res.bind_ok, hx, Res.bind_ok, hs, Res.bind_ok, hnm']
    refine ⟨_, rfl, ⟨nwf', ?_, ?_, h.mtch, h.isPending⟩⟩
    · intro s hs
      simp only [nl'] at hs
      rcases List.mem_or_eq_of_mem_set hs with hs | hs
      · exact hmem s hs
      · obtain rfl := Option.some.inj hs; exact swf
    · intro k id
      have hN := h.noMatch k id
      simp only [getD_modify, getD_ensureOffset, length_ensureOffset]
      unfold noMatchBit
      simp only [nl']
      by_cases hk : k = o
      · subst hk
        rw [if_pos ⟨rfl, by omega⟩, List.getD_eq_getElem?_getD, List.getElem?_set_self hlt',
          Option.getD_some]
        simp only [sbit, hN, List.contains_cons]
        rw [Bool.or_comm]
        congr 1
      · rw [if_neg (fun h => hk h.1), List.getD_eq_getElem?_getD,
          List.getElem?_set_ne (fun h => hk h.symm), ← List.getD_eq_getElem?_getD, hold]
        exact hN

theorem hasMatchTo_abs {st : Store w} {r : Results} (h : st.Abs r) (o i t : Nat) :
    st.hasMatchTo o i t = .ok (r.hasMatchTo o i t) := by
  unfold hasMatchTo Results.hasMatchTo
  have hl : st.mtch.len = r.matches_.length := by rw [h.mtch.length, List.length_map]
  by_cases ho : o < r.matches_.length
  · rw [if_neg (by omega)]
    obtain ⟨x, hx, hfl, _, _⟩ := at_eq h ho
    rw [hx, Res.bind_ok, hfl, pairLoop_flat]
  · rw [if_pos (by omega), at_nil (by omega)]; rfl

/-- How Go returns the optional result of `longestMatch`; the number is only used when found. -/
def Longest (x : Option Nat) (y : Int × Bool) : Prop :=
  match x with
  | some t => y = ((t : Int), true)
  | none => y.2 = false

theorem longestMatch_abs {st : Store w} {r : Results} (h : st.Abs r) (o i : Nat) :
    ∃ y, st.longestMatch o i = .ok y ∧ Longest (r.longestMatch o i) y := by
  unfold longestMatch Results.longestMatch
  have hl : st.mtch.len = r.matches_.length := by rw [h.mtch.length, List.length_map]
  by_cases ho : o < r.matches_.length
  · rw [if_neg (by omega)]
    obtain ⟨x, hx, hfl, _, _⟩ := at_eq h ho
    rw [hx, Res.bind_ok, hfl]
    refine ⟨_, longestLoop_flat i (r.at_ o) none, ?_⟩
    cases Results.longestLoop i (r.at_ o) none <;> rfl
  · rw [if_pos (by omega), at_nil (by omega)]; exact ⟨_, rfl, rfl⟩

theorem noMatchHas_abs (hw : 0 < w) {st : Store w} {r : Results} (h : st.Abs r) (o i : Nat) :
    st.noMatchHas o i = .ok ((r.noMatch.getD o []).contains i) := by
  unfold noMatchHas
  rw [← h.noMatch, noMatchBit]
  by_cases ho : st.noMatch.len > o
  · rw [if_pos ho]
    have hlt : o < st.noMatch.toList.length := by rw [h.noWF.length]; exact ho
    rw [Slice.index_eq, Res.index, List.getElem?_eq_getElem hlt, List.getD_eq_getElem?_getD,
      List.getElem?_eq_getElem hlt]
    simp only [Res.bind_ok, Option.getD_some]
    cases hc : st.noMatch.toList[o] with
    | none => rfl
    | some s => exact IdSet.has_eq hw (h.sets s (hc ▸ List.getElem_mem _)) i
  · rw [if_neg ho, getD_ge (by rw [h.noWF.length]; omega)]

/-- How Go returns the result of `longestResult`: to, matched, found. -/
def LongestResult (x : Option (Option Nat)) (y : Int × Bool × Bool) : Prop :=
  match x with
  | some (some t) => y = ((t : Int), true, true)
  | some none => y.2 = (false, true)
  | none => y.2 = (false, false)

theorem longestResult_abs (hw : 0 < w) {st : Store w} {r : Results} (h : st.Abs r) (o i : Nat) :
    ∃ y, st.longestResult o i = .ok y ∧ LongestResult (r.longestResult o i) y := by
  unfold longestResult Results.longestResult
  rw [noMatchHas_abs hw h, Res.bind_ok]
  by_cases hn : (r.noMatch.getD o []).contains i = true
  · rw [if_pos hn, if_pos hn]; exact ⟨_, rfl, rfl⟩
  · rw [if_neg hn, if_neg hn]
    obtain ⟨y, hy, hL⟩ := longestMatch_abs h o i
    rw [hy, Res.bind_ok]
    refine ⟨_, rfl, ?_⟩
    unfold Longest at hL
    cases hm : r.longestMatch o i with
    | none => rw [hm] at hL; simp only at hL; simp [LongestResult, hL]
    | some t => rw [hm] at hL; simp only at hL; subst hL; rfl

theorem dropMatchTo_abs {st : Store w} {r : Results} (h : st.Abs r) (o i t : Nat) :
    match r.dropMatchTo o i t with
    | .ok r' => ∃ st', st.dropMatchTo o i t = .ok st' ∧ st'.Abs r'
    | .panic => st.dropMatchTo o i t = .panic
    | .oof => False := by
  unfold Results.dropMatchTo dropMatchTo
  by_cases ho : o < r.matches_.length
  · rw [if_pos ho]
    obtain ⟨x, hx, hfl, xwf, hat⟩ := at_eq h ho
    simp only []
    rw [hx, Res.bind_ok, hfl, modify_eq_set _ _ _ _ hat]
    rcases dropIndex_flat i t (r.at_ o) 0 with ⟨a, b⟩ | ⟨k, a, b, c⟩
    · rw [a, Res.bind_ok, b]
      refine ⟨st, rfl, ⟨h.noWF, h.sets, h.noMatch, ?_, h.isPending⟩⟩
      have : r.matches_.set o (r.at_ o) = r.matches_ := by
        obtain ⟨hlt, he⟩ := List.getElem?_eq_some_iff.1 hat
        rw [← he, List.set_getElem_self]
      simp only [this]
      exact h.mtch
    · rw [a, Res.bind_ok, Nat.zero_add]
      have hk : k < x.len := by rw [← xwf.length, hfl]; exact b
      obtain ⟨x', hx', xwf', xl', _⟩ := xwf.set hk (-1)
      simp only []
      obtain ⟨m', hm', hr'⟩ := h.mtch.set (i := o) (by rw [List.length_map]; exact ho) xwf'
      rw [hx', Res.bind_ok, hm']
      refine ⟨_, rfl, ⟨h.noWF, h.sets, h.noMatch, ?_, h.isPending⟩⟩
      simp only [List.map_set, c]
      rw [xl', hfl] at hr'
      exact hr'
  · rw [if_neg ho]
    simp only []
    rw [h.mtch.index_panic (by rw [List.length_map]; omega)]; rfl

theorem resetPending_abs {st : Store w} {r : Results} (h : st.Abs r) :
    st.resetPending.Abs r.resetPending :=
  ⟨h.noWF, h.sets, h.noMatch, h.mtch, Rows.nil⟩

theorem pending_abs {st : Store w} {r : Results} (h : st.Abs r) (o i : Nat) :
    st.pending o i = .ok (r.pending o i) := by
  unfold pending Results.pending
  have hl := h.isPending.length
  by_cases hi : i < r.isPending.length
  · rw [if_neg (by omega)]
    obtain ⟨x, hx, _, xeq, _⟩ := h.isPending.index hi
    rw [hx, Res.bind_ok, List.getD_eq_getElem?_getD, ← xeq]
    simp only [Option.getD_some, Res.ok.injEq]
    rw [List.contains_eq_any_beq]
    congr 1; funext a
    rw [Bool.beq_comm]
  · rw [if_pos (by omega), getD_ge (by omega)]; rfl

theorem markPending_abs {st : Store w} {r : Results} (h : st.Abs r) (g : Nat → Nat → Nat)
    (o i : Nat) : ∃ st', st.markPending g o i = .ok st' ∧ st'.Abs (r.markPending o i) := by
  obtain ⟨m, hm, hr⟩ := h.isPending.ensureOffset g i
  have hlt : i < (Treerack.ensureOffset r.isPending i).length := by
    rw [length_ensureOffset]; omega
  obtain ⟨x, hx, xwf, xeq, _⟩ := hr.index hlt
  unfold markPending Results.markPending
  rw [hm, Res.bind_ok, hx, Res.bind_ok, modify_eq_set _ _ _ _ xeq.symm, markLoop_eq]
  cases hf : x.toList.findIdx? (fun o => o == -1) with
  | some k =>
    obtain ⟨x', hx', xwf', xl', _⟩ := xwf.set (i := k) (by rw [← xwf.length]; exact findIdx?_lt hf) (o : Int)
    obtain ⟨m', hm', hr'⟩ := hr.set hlt xwf'
    simp only []
    rw [hx', Res.bind_ok, hm']
    exact ⟨_, rfl, ⟨h.noWF, h.sets, h.noMatch, h.mtch, by rw [xl'] at hr'; exact hr'⟩⟩
  | none =>
    obtain ⟨a1, a2, _⟩ := xwf.append g [(o : Int)]
    obtain ⟨m', hm', hr'⟩ := hr.set hlt a1
    simp only []
    rw [Res.bind_ok, hm']
    exact ⟨_, rfl, ⟨h.noWF, h.sets, h.noMatch, h.mtch, by rw [a2] at hr'; exact hr'⟩⟩

theorem unmarkPending_abs {st : Store w} {r : Results} (h : st.Abs r) (o i : Nat) :
    match r.unmarkPending o i with
    | .ok r' => ∃ st', st.unmarkPending o i = .ok st' ∧ st'.Abs r'
    | .panic => st.unmarkPending o i = .panic
    | .oof => False := by
  unfold Results.unmarkPending unmarkPending
  by_cases hi : i < r.isPending.length
  · rw [if_pos hi]
    obtain ⟨x, hx, xwf, xeq, _⟩ := h.isPending.index hi
    simp only []
    rw [hx, Res.bind_ok, modify_eq_set _ _ _ _ xeq.symm, unmarkLoop_eq]
    cases hf : x.toList.findIdx? (fun a => a == (o : Int)) with
    | none =>
      simp only []
      refine ⟨st, rfl, ⟨h.noWF, h.sets, h.noMatch, h.mtch, ?_⟩⟩
      have : r.isPending.set i x.toList = r.isPending := by
        obtain ⟨hlt, he⟩ := List.getElem?_eq_some_iff.1 xeq.symm
        rw [← he, List.set_getElem_self]
      simp only [this]
      exact h.isPending
    | some k =>
      obtain ⟨x', hx', xwf', xl', _⟩ := xwf.set (i := k) (by rw [← xwf.length]; exact findIdx?_lt hf) (-1)
      obtain ⟨m', hm', hr'⟩ := h.isPending.set hi xwf'
      simp only []
      rw [hx', Res.bind_ok, hm']
      exact ⟨_, rfl, ⟨h.noWF, h.sets, h.noMatch, h.mtch, by rw [xl'] at hr'; exact hr'⟩⟩
  · rw [if_neg hi]
    simp only []
    rw [h.isPending.index_panic (by omega)]; rfl

end Store
end Treerack
