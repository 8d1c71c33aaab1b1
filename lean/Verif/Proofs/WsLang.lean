import Verif.Proofs.Step
import Verif.Proofs.WsStrong

/-
The language of the definitions with the whitespace applied.
-/

namespace Treerack
open Spec Whitespace

/-- The grammar with whitespace meant by the registered definitions. -/
def Syntax.wgrammar (s : Syntax) : WGrammar Name where
  G := s.grammar
  ws := (s.registry.definitions.filter fun p => (Syntax.commitOf s.heap p).whitespace).filterMap
    fun p => (s.heap[p]?).map Def.name
  tight := fun n => (s.registry.lookup n).any fun p =>
    (Syntax.commitOf s.heap p).noWhitespace || (Syntax.commitOf s.heap p).whitespace
  root := s.rootName

/-- A reference, with the meaning of its quantifier. -/
def SeqItem.ref (i : SeqItem) : Name × Int × Int := (i.name, bounds i.min i.max)

def SeqItem.Normal (i : SeqItem) : Prop := 0 ≤ i.min ∧ (i.max = -1 ∨ 1 ≤ i.max)

theorem normal_normalize (i : SeqItem) : (normalizeItemRange i).Normal := by
  rcases i with ⟨n, mn, mx⟩
  rw [normalizeItemRange_eq]
  unfold SeqItem.Normal
  by_cases h0 : mn = 0 ∧ mx = 0
  · simp [h0]
  · simp only [if_neg h0]
    by_cases h1 : mn ≤ 0 <;> by_cases h2 : mx ≤ 0 <;> simp [h1, h2] <;> omega

theorem SeqItem.Normal.ref {i : SeqItem} (h : i.Normal) : i.ref = (i.name, i.min, i.max) := by
  obtain ⟨h1, h2⟩ := h
  unfold SeqItem.ref bounds
  rw [if_neg (by omega)]
  have e1 : (if i.min ≤ 0 then 0 else i.min) = i.min := by split <;> omega
  have e2 : (if i.max ≤ 0 then -1 else i.max) = i.max := by split <;> omega
  rw [e1, e2]

section Facts

variable {s : Syntax} (hs : SInv s)
include hs

theorem SInv.has {p : Ptr} (hp : p ∈ s.registry.definitions) : ∃ d, s.heap[p]? = some d ∧ s.Has p d.initRanges := by
  obtain ⟨e, he⟩ : ∃ e, s.heap[p]? = some e := ⟨_, List.getElem?_eq_getElem (hs.mem_lt hp)⟩
  exact ⟨e, he, hp, by rw [hs.preHeap_get, if_pos hp, he]; rfl⟩

theorem SInv.has_heap {p : Ptr} {d : Def} (h : s.Has p d) : ∃ e, s.heap[p]? = some e ∧ d = e.initRanges := by
  obtain ⟨e, h1, h2⟩ := hs.has h.1
  exact ⟨e, h1, Option.some.inj (h.2.symm.trans h2.2)⟩

theorem SInv.has_lookup {p : Ptr} {d : Def} (h : s.Has p d) : s.registry.lookup d.name = some p := by
  obtain ⟨e, h1, rfl⟩ := hs.has_heap h
  exact (hs.lookup _ _).2 ⟨h.1, e, h1, (initRanges_name e).symm⟩

theorem SInv.has_inj {p q : Ptr} {d e : Def} (h1 : s.Has p d) (h2 : s.Has q e) (h : d.name = e.name) :
    p = q ∧ d = e := by
  have := hs.has_lookup h1
  rw [h, hs.has_lookup h2] at this
  obtain rfl := Option.some.inj this
  exact ⟨rfl, Option.some.inj (h1.2.symm.trans h2.2)⟩

theorem SInv.has_grammar {p : Ptr} {d : Def} (h : s.Has p d) : s.grammar d.name = some d.gdef := by
  obtain ⟨e, h1, rfl⟩ := hs.has_heap h
  unfold Syntax.grammar
  rw [hs.has_lookup h, Option.bind_some, h1]
  simp only [Option.map_some, Option.some.injEq]
  have h2 := hs.preSk p
  rw [h1, h.2] at h2
  simp only [Option.map_some, Option.some.injEq] at h2
  exact Def.gdef_sk h2.symm

theorem SInv.grammar_has {n : Name} {gd : GDef Name} (h : s.grammar n = some gd) :
    ∃ p d, s.Has p d ∧ d.name = n ∧ d.gdef = gd := by
  unfold Syntax.grammar at h
  cases hl : s.registry.lookup n with
  | none => rw [hl] at h; simp at h
  | some p =>
    obtain ⟨h1, e, h2, h3⟩ := (hs.lookup n p).1 hl
    obtain ⟨e', h4, h5⟩ := hs.has h1
    rw [h2] at h4; obtain rfl := Option.some.inj h4
    refine ⟨p, _, h5, by rw [initRanges_name, h3], ?_⟩
    have := hs.has_grammar h5
    rw [initRanges_name, h3] at this
    unfold Syntax.grammar at this
    exact Option.some.inj (this.symm.trans h)

theorem SInv.has_tight {p : Ptr} {d : Def} (h : s.Has p d) :
    s.wgrammar.tight d.name = (d.commitType.noWhitespace || d.commitType.whitespace) := by
  obtain ⟨e, h1, rfl⟩ := hs.has_heap h
  simp only [Syntax.wgrammar, hs.has_lookup h, Option.any_some, Syntax.commitOf, h1, initRanges_commitType]

theorem SInv.has_ws {n : Name} : n ∈ s.wgrammar.ws ↔ ∃ p d, s.Has p d ∧ d.name = n ∧ d.commitType.whitespace = true := by
  simp only [Syntax.wgrammar, List.mem_filterMap, List.mem_filter]
  constructor
  · rintro ⟨p, ⟨h1, h2⟩, h3⟩
    obtain ⟨d, h4, h5⟩ := hs.has h1
    rw [h4] at h3
    simp only [Option.map_some, Option.some.injEq] at h3
    refine ⟨p, _, h5, by rw [initRanges_name, h3], ?_⟩
    simp only [Syntax.commitOf, h4] at h2
    rw [initRanges_commitType]; exact h2
  · rintro ⟨p, d, h1, h2, h3⟩
    obtain ⟨e, h4, rfl⟩ := hs.has_heap h1
    refine ⟨p, ⟨h1.1, ?_⟩, ?_⟩
    · simp only [Syntax.commitOf, h4]; rw [initRanges_commitType] at h3; exact h3
    · rw [h4]; simp only [Option.map_some]; rw [← h2, initRanges_name]

theorem SInv.merged : ((wsPart s.preHeap s.registry.definitions).filterMap fun p => (s.preHeap[p]?).map Def.name) =
    s.wgrammar.ws := by
  unfold wsPart Syntax.wgrammar
  simp only
  have h1 : ∀ p, Syntax.commitOf s.preHeap p = Syntax.commitOf s.heap p := fun p => commitOf_pre hs p
  simp only [h1]
  have : ∀ l : List Ptr, (∀ q ∈ l, q ∈ s.registry.definitions) →
      l.filterMap (fun p => (s.preHeap[p]?).map Def.name) = l.filterMap (fun p => (s.heap[p]?).map Def.name) := by
    intro l hl
    induction l with
    | nil => rfl
    | cons a l ih =>
      obtain ⟨d, h2, h3⟩ := hs.has (hl a (by simp))
      rw [List.filterMap_cons, List.filterMap_cons, h3.2, h2]
      simp only [Option.map_some, initRanges_name]
      rw [ih fun q hq => hl q (by simp [hq])]
  exact this _ fun q hq => (List.mem_filter.1 hq).1

theorem SInv.has_items {p : Ptr} {d : Def} (h : s.Has p d) : ∀ i ∈ d.items, i.Normal := by
  obtain ⟨e, h1, rfl⟩ := hs.has_heap h
  unfold Def.items Def.initRanges
  intro i hi
  cases hk : e.kind with
  | char => rw [hk] at hi; simp [hk] at hi
  | choice => rw [hk] at hi; simp [hk] at hi
  | seq orig items ds rs ac =>
    rw [hk] at hi
    simp only [List.mem_map] at hi
    obtain ⟨i0, -, rfl⟩ := hi
    exact normal_normalize i0

end Facts

theorem seq_gdef {d : Def} (h : d.replaced = true) : d.gdef.expr = .seq (d.items.map SeqItem.ref) := by
  unfold Def.replaced at h
  unfold Def.gdef Def.items SeqItem.ref
  cases hk : d.kind <;> simp_all

/-! ### The generated definitions -/

def restName (item seqName : Name) (i : Nat) : Name := patchName [item, seqName, runes "wsrest", itoa i]
def optName (item seqName : Name) (i : Nat) : Name := patchName [item, seqName, runes "wsopt", itoa i]

/-- The items with which the occurrences after the first one are matched. -/
def restItem (item : SeqItem) (seqName : Name) (i : Nat) : SeqItem :=
  { name := restName item.name seqName i
    min := if item.min > 0 then item.min - 1 else 0
    max := if item.max > 1 then item.max - 1 else -1 }

def leadItems (i : Nat) : List SeqItem := if i > 0 then [wsItem] else []

def oneItem (item : SeqItem) : SeqItem := { name := item.name, min := 1, max := 1 }

theorem applyToItem_once {n : Name} {i : Nat} {item : SeqItem} (h : item.max = 1) :
    applyToItem n i item = ([], leadItems i ++ [item]) := by
  unfold applyToItem; simp [h, leadItems]

theorem applyToItem_many {n : Name} {i : Nat} {item : SeqItem} (h : item.max ≠ 1) (hm : 0 < item.min) :
    applyToItem n i item =
      ([newSequence (restName item.name n i) { alias := true } [wsItem, oneItem item]],
       leadItems i ++ [oneItem item, restItem item n i]) := by
  unfold applyToItem; simp [h, hm, leadItems, restName, oneItem, restItem]

theorem applyToItem_opt {n : Name} {i : Nat} {item : SeqItem} (h : item.max ≠ 1) (hm : item.min ≤ 0) :
    applyToItem n i item =
      ([newSequence (restName item.name n i) { alias := true } [wsItem, oneItem item],
        newSequence (optName item.name n i) { alias := true } (leadItems i ++ [oneItem item, restItem item n i])],
       [{ name := optName item.name n i, min := 0, max := 1 }]) := by
  have hm' : ¬ item.min > 0 := by omega
  unfold applyToItem; simp [h, hm', leadItems, restName, oneItem, restItem, optName]

theorem applyToItems_cons (n : Name) (i : Nat) (item : SeqItem) (items : List SeqItem) :
    applyToItems n i (item :: items) =
      ((applyToItem n i item).1 ++ (applyToItems n (i + 1) items).1,
       (applyToItem n i item).2 ++ (applyToItems n (i + 1) items).2) := by
  rw [applyToItems]

/-- The number of occurrences after the first one. -/
theorem inRange_rest {item : SeqItem} (hn : item.Normal) (h1 : item.max ≠ 1) (k : Nat) :
    InRange (if item.min > 0 then item.min - 1 else 0) (if item.max > 1 then item.max - 1 else -1) k ↔
    InRange item.min item.max (k + 1) := by
  obtain ⟨h2, h3⟩ := hn
  unfold InRange
  by_cases h4 : item.min > 0 <;> by_cases h5 : item.max > 1 <;> simp only [h4, h5, if_true, if_false] <;> omega

theorem restItem_ref {item : SeqItem} (n : Name) (i : Nat) (hn : item.Normal) :
    (restItem item n i).ref = (restName item.name n i, (if item.min > 0 then item.min - 1 else 0),
      (if item.max > 1 then item.max - 1 else -1)) := by
  apply SeqItem.Normal.ref
  obtain ⟨h1, h2⟩ := hn
  unfold SeqItem.Normal restItem
  simp only
  constructor <;> split <;> omega

theorem wsItem_ref : wsItem.ref = (whitespaceName, 0, -1) := by decide

theorem oneItem_ref (item : SeqItem) : (oneItem item).ref = (item.name, 1, 1) := by
  simp [oneItem, SeqItem.ref, bounds]

theorem newSequence_expr (n : Name) (ct : Commit) (items : List SeqItem) :
    (newSequence n ct items).gdef.expr = .seq (items.map SeqItem.ref) := rfl

/-! ### From the definitions with the whitespace applied to the specification -/

section Sound

variable {W : WGrammar Name} {input : List Rune} {D : Name → Nat → Nat → Prop}

theorem gap_item {E : Nat → Nat → Prop} (hws : ∀ a b, E a b → ∃ w ∈ W.ws, WDerives W input w a b)
    {k a b : Nat} (h : TimesOf E k a b) : Gap W input a b := gap_of (h.mono hws)

theorem lead_sound (hws : ∀ a b, D whitespaceName a b → ∃ w ∈ W.ws, WDerives W input w a b) {i : Nat}
    {its : List SeqItem} {a b : Nat} (h : ItemsOf D ((leadItems i ++ its).map SeqItem.ref) a b) :
    ∃ m, (i = 0 → m = a) ∧ Gap W input a m ∧ ItemsOf D (its.map SeqItem.ref) m b := by
  unfold leadItems at h
  by_cases hi : i > 0
  · rw [if_pos hi] at h
    simp only [List.cons_append, List.nil_append, List.map_cons, wsItem_ref] at h
    cases h with
    | cons h1 _ h2 => exact ⟨_, by omega, gap_item hws h1, h2⟩
  · rw [if_neg hi] at h
    exact ⟨a, fun _ => rfl, .nil, h⟩

theorem times_once {E : Nat → Nat → Prop} {k a b : Nat} (h : TimesOf E k a b) (hk : InRange 1 1 k) : E a b := by
  have : k = 1 := by unfold InRange at hk; omega
  subst this
  exact TimesOf.one.1 h

theorem occ_first {n : Name} {i m a b : Nat} (h0 : i = 0 → m = a) (hg : Gap W input a m)
    (hd : WDerives W input n m b) : WOcc W input (i == 0) n 1 a b := by
  by_cases hi : i = 0
  · subst hi
    rw [h0 rfl] at hd
    exact .first hd
  · have : (i == 0) = false := by simp [hi]
    rw [this]
    exact .succ .zero (by simp) hg hd

theorem occ_rest {E : Nat → Nat → Prop} {first : Bool} {n : Name} {c k a m b : Nat}
    (hE : ∀ a b, E a b → ∃ m, Gap W input a m ∧ WDerives W input n m b)
    (h : WOcc W input first n (c + 1) a m) (t : TimesOf E k m b) : WOcc W input first n (c + 1 + k) a b := by
  induction t with
  | zero => exact h
  | succ _ d ih =>
    obtain ⟨m', h1, h2⟩ := hE _ _ d
    exact .succ (ih h) (fun _ => Nat.lt_of_lt_of_le (Nat.succ_pos _) (Nat.le_add_right _ _)) h1 h2

/-- The meaning of the generated items for one item. -/
theorem occ_sound {sn : Name} {i : Nat} {it : SeqItem} (hn : it.Normal) (h1 : it.max ≠ 1)
    (hws : ∀ a b, D whitespaceName a b → ∃ w ∈ W.ws, WDerives W input w a b)
    (hitem : ∀ a b, D it.name a b → WDerives W input it.name a b)
    (hrest : ∀ a b, D (restName it.name sn i) a b → ∃ m, Gap W input a m ∧ WDerives W input it.name m b)
    {a b : Nat} (h : ItemsOf D ((leadItems i ++ [oneItem it, restItem it sn i]).map SeqItem.ref) a b) :
    ∃ c, WOcc W input (i == 0) it.name (c + 1) a b ∧ InRange it.min it.max (c + 1) := by
  obtain ⟨m, h2, h3, h4⟩ := lead_sound hws h
  simp only [List.map_cons, List.map_nil, oneItem_ref, restItem_ref sn i hn] at h4
  cases h4 with
  | cons t1 r1 h4 =>
    cases h4 with
    | cons t2 r2 h4 =>
      cases h4
      have o1 := occ_first h2 h3 (hitem _ _ (times_once t1 r1))
      have o2 := occ_rest (c := 0) hrest o1 t2
      rename_i k
      refine ⟨k, by rw [Nat.add_comm]; simpa using o2, (inRange_rest hn h1 k).1 r2⟩

theorem loose_sound {sn : Name}
    (hws : ∀ a b, D whitespaceName a b → ∃ w ∈ W.ws, WDerives W input w a b) :
    ∀ (items : List SeqItem) (i a b : Nat), (∀ it ∈ items, it.Normal) →
    (∀ it ∈ items, ∀ a b, D it.name a b → WDerives W input it.name a b) →
    (∀ (k : Nat) it, items[k]? = some it → it.max ≠ 1 → ∀ a b, D (restName it.name sn (i + k)) a b →
      ∃ m, Gap W input a m ∧ WDerives W input it.name m b) →
    (∀ (k : Nat) it, items[k]? = some it → it.max ≠ 1 → it.min ≤ 0 → ∀ a b,
      D (optName it.name sn (i + k)) a b →
      ∃ c, WOcc W input (i + k == 0) it.name (c + 1) a b ∧ InRange it.min it.max (c + 1)) →
    ItemsOf D ((applyToItems sn i items).2.map SeqItem.ref) a b →
    WLoose W input (i == 0) (items.map SeqItem.ref) a b
  | [], i, a, b, _, _, _, _, h => by
    simp only [applyToItems, List.map_nil] at h
    cases h; exact .nil
  | it :: items, i, a, b, hn, hitem, hrest, hopt, h => by
    rw [applyToItems_cons] at h
    simp only [List.map_append] at h
    obtain ⟨m, h1, h2⟩ := ItemsOf.append.1 h
    have ih : ∀ {m b}, ItemsOf D ((applyToItems sn (i + 1) items).2.map SeqItem.ref) m b →
        WLoose W input false (items.map SeqItem.ref) m b := by
      intro m b h
      have := loose_sound hws items (i + 1) m b (fun x hx => hn x (by simp [hx]))
        (fun x hx => hitem x (by simp [hx]))
        (fun k x hx => by
          rw [show i + 1 + k = i + (k + 1) by omega]; exact hrest (k + 1) x (by simpa using hx))
        (fun k x hx => by
          rw [show i + 1 + k = i + (k + 1) by omega]; exact hopt (k + 1) x (by simpa using hx)) h
      simpa using this
    have hn0 := hn it (by simp)
    rw [List.map_cons, hn0.ref]
    by_cases hm1 : it.max = 1
    · rw [applyToItem_once hm1] at h1
      obtain ⟨m', g1, g2, g3⟩ := lead_sound hws h1
      simp only [List.map_cons, List.map_nil, hn0.ref] at g3
      cases g3 with
      | cons t1 r1 g3 =>
        cases g3
        rename_i k
        have hk : k = 0 ∨ k = 1 := by
          have := hn0.1
          unfold InRange at r1; rw [hm1] at r1; omega
        rcases hk with rfl | rfl
        · cases t1
          by_cases hi : i = 0
          · rw [g1 hi] at h2
            exact .cons .zero r1 (ih h2)
          · have hf : (i == 0) = false := by simp [hi]
            rw [hf, hm1]
            exact .absent (by unfold InRange at r1; omega) g2 (ih h2)
        · exact .cons (occ_first g1 g2 (hitem it (by simp) _ _ (TimesOf.one.1 t1))) r1 (ih h2)
    · by_cases hmn : 0 < it.min
      · rw [applyToItem_many hm1 hmn] at h1
        obtain ⟨c, o, r⟩ := occ_sound hn0 hm1 hws (hitem it (by simp)) (by simpa using hrest 0 it (by simp) hm1) h1
        exact .cons o r (ih h2)
      · rw [applyToItem_opt hm1 (by omega)] at h1
        simp only [List.map_cons, List.map_nil] at h1
        have hr : (SeqItem.mk (optName it.name sn i) 0 1).ref = (optName it.name sn i, 0, 1) := by
          simp [SeqItem.ref, bounds]
        rw [hr] at h1
        cases h1 with
        | cons t1 r1 h1 =>
          cases h1
          rename_i k
          have hk : k = 0 ∨ k = 1 := by unfold InRange at r1; omega
          rcases hk with rfl | rfl
          · cases t1
            exact .cons .zero (by have := hn0.1; have := hn0.2; unfold InRange; omega) (ih h2)
          · obtain ⟨c, o, r⟩ := hopt 0 it (by simp) hm1 (by omega) _ _ (TimesOf.one.1 t1)
            exact .cons (by simpa using o) r (ih h2)

end Sound

/-- The references of the registered definitions do not refer to generated definitions. -/
def RefsIn (s : Syntax) (G : Grammar Name) : Prop :=
  ∀ p d, s.Has p d → ∀ n ∈ d.gdef.expr.refs, (G n).isSome = true → ∃ q e, s.Has q e ∧ e.name = n

/-- What the definitions with the whitespace applied derive, by their role. -/
structure Meaning (s : Syntax) (input : List Rune) (n : Name) (i j : Nat) : Prop where
  orig : ∀ p d, s.Has p d → d.name = n → WDerives s.wgrammar input n i j
  ws : n = whitespaceName → ∃ w ∈ s.wgrammar.ws, WDerives s.wgrammar input w i j
  rest : ∀ p d, s.Has p d → d.commitType.whitespace = false → d.replaced = true →
    ∀ (k : Nat) it, d.items[k]? = some it → it.max ≠ 1 → n = restName it.name d.name k →
    ∃ m, Gap s.wgrammar input i m ∧ WDerives s.wgrammar input it.name m j
  opt : ∀ p d, s.Has p d → d.commitType.whitespace = false → d.replaced = true →
    ∀ (k : Nat) it, d.items[k]? = some it → it.max ≠ 1 → it.min ≤ 0 → n = optName it.name d.name k →
    ∃ c, WOcc s.wgrammar input (k == 0) it.name (c + 1) i j ∧ InRange it.min it.max (c + 1)
  body : n = patchName [s.rootName, runes "wsroot"] → WBody s.wgrammar input s.rootName i j

theorem wsGen_rest {sn : Name} : ∀ {items : List SeqItem} {i k : Nat} {it : SeqItem}, items[k]? = some it →
    it.max ≠ 1 → newSequence (restName it.name sn (i + k)) { alias := true } [wsItem, oneItem it] ∈
      (applyToItems sn i items).1
  | [], _, _, _, h, _ => by simp at h
  | x :: xs, i, 0, it, h, h1 => by
    simp only [List.getElem?_cons_zero, Option.some.injEq] at h
    subst h
    rw [applyToItems_cons]
    apply List.mem_append_left
    by_cases hm : 0 < x.min
    · rw [applyToItem_many h1 hm]; simp
    · rw [applyToItem_opt h1 (by omega)]; simp
  | x :: xs, i, k + 1, it, h, h1 => by
    rw [applyToItems_cons]
    apply List.mem_append_right
    have := wsGen_rest (sn := sn) (i := i + 1) (k := k) (by simpa using h) h1
    rwa [Nat.add_right_comm, Nat.add_assoc] at this

theorem wsGen_opt {sn : Name} : ∀ {items : List SeqItem} {i k : Nat} {it : SeqItem}, items[k]? = some it →
    it.max ≠ 1 → it.min ≤ 0 → newSequence (optName it.name sn (i + k)) { alias := true }
      (leadItems (i + k) ++ [oneItem it, restItem it sn (i + k)]) ∈ (applyToItems sn i items).1
  | [], _, _, _, h, _, _ => by simp at h
  | x :: xs, i, 0, it, h, h1, h2 => by
    simp only [List.getElem?_cons_zero, Option.some.injEq] at h
    subst h
    rw [applyToItems_cons]
    apply List.mem_append_left
    rw [applyToItem_opt h1 h2]; simp
  | x :: xs, i, k + 1, it, h, h1, h2 => by
    rw [applyToItems_cons]
    apply List.mem_append_right
    have := wsGen_opt (sn := sn) (i := i + 1) (k := k) (by simpa using h) h1 h2
    rwa [Nat.add_right_comm, Nat.add_assoc] at this

section Main

variable {s : Syntax} {r0 : Ptr} {G : Grammar Name} {input : List Rune}

theorem SInv.has_root (hs : SInv s) (hroot : s.root = some r0) : ∃ d, s.Has r0 d ∧ d.name = s.rootName := by
  obtain ⟨d, h1, h2⟩ := hs.has (hs.rootIn r0 hroot)
  refine ⟨_, h2, ?_⟩
  rw [initRanges_name]
  simp [Syntax.rootName, Syntax.nameAt, hroot, h1]

theorem WsGrammar.root_ws (WG : WsGrammar s r0 G) {d : Def}
    (h : s.Has r0 d) : d.commitType.whitespace = false := by
  cases hw : d.commitType.whitespace
  · rfl
  · have h1 := WG.ws _ _ h hw
    rw [WG.root_ d h] at h1
    have := congrArg GDef.alias (Option.some.inj h1)
    simp [wsRootDef, newSequence, Def.gdef, Def.commitType] at this

theorem not_replaced_seq {d : Def} (h : d.replaced = false) {items : List (Name × Int × Int)}
    (he : d.gdef.expr = .seq items) : d.commitType.noWhitespace = true := by
  unfold Def.replaced at h
  unfold Def.gdef at he
  cases hk : d.kind <;> rw [hk] at h he <;> simp_all

/-- The body of a definition. -/
theorem body_sound (hs : SInv s) {D : Name → Nat → Nat → Prop}
    (hws : ∀ a b, D whitespaceName a b → ∃ w ∈ s.wgrammar.ws, WDerives s.wgrammar input w a b)
    {p : Ptr} {d : Def} (hp : s.Has p d)
    (href : ∀ n ∈ d.gdef.expr.refs, ∀ a b, D n a b → WDerives s.wgrammar input n a b)
    (hrest : d.commitType.whitespace = false → d.replaced = true →
      ∀ (k : Nat) it, d.items[k]? = some it → it.max ≠ 1 → ∀ a b, D (restName it.name d.name k) a b →
      ∃ m, Gap s.wgrammar input a m ∧ WDerives s.wgrammar input it.name m b)
    (hopt : d.commitType.whitespace = false → d.replaced = true →
      ∀ (k : Nat) it, d.items[k]? = some it → it.max ≠ 1 → it.min ≤ 0 → ∀ a b,
      D (optName it.name d.name k) a b →
      ∃ c, WOcc s.wgrammar input (k == 0) it.name (c + 1) a b ∧ InRange it.min it.max (c + 1))
    {e : Expr Name} {i j : Nat} (h : ExprStep D input e i j)
    (he : (d.commitType.whitespace = false ∧ e = d.wsRepl.gdef.expr) ∨
      (d.commitType.whitespace = true ∧ e = d.gdef.expr)) : WBody s.wgrammar input d.name i j := by
  have hg : s.wgrammar.G d.name = some d.gdef := hs.has_grammar hp
  by_cases hr : d.commitType.whitespace = false ∧ d.replaced = true
  · obtain ⟨hw, hr⟩ := hr
    have he : e = d.wsRepl.gdef.expr := by
      rcases he with ⟨_, he⟩ | ⟨h2, _⟩
      · exact he
      · rw [hw] at h2; simp at h2
    unfold Def.wsRepl at he
    rw [if_pos hr, newSequence_expr] at he
    subst he
    have hse := seq_gdef hr
    refine .loose hg hse ?_ ?_
    · rw [hs.has_tight hp, hw]
      unfold Def.replaced at hr
      revert hr; cases d.commitType.noWhitespace <;> simp
    · have := loose_sound (sn := d.name) hws d.items 0 i j (hs.has_items hp)
        (fun it hit => href it.name (by
          rw [hse]; simp only [Expr.refs, List.map_map, List.mem_map]
          exact ⟨it, hit, rfl⟩))
        (fun k it h1 h2 => by rw [Nat.zero_add]; exact hrest hw hr k it h1 h2)
        (fun k it h1 h2 h3 => by rw [Nat.zero_add]; exact hopt hw hr k it h1 h2 h3) h
      exact this
  · have he : e = d.gdef.expr := by
      rcases he with ⟨h1, he⟩ | ⟨_, he⟩
      · rw [he, Def.wsRepl, if_neg (fun h => hr ⟨h1, h⟩)]
      · exact he
    subst he
    cases hexp : d.gdef.expr with
    | char neg cs rs =>
      rw [hexp] at h
      obtain ⟨t, h1, h2, rfl⟩ := h
      exact .char hg hexp h1 h2
    | choice os =>
      rw [hexp] at h
      obtain ⟨o, h1, h2⟩ := h
      exact .choice hg hexp h1 (href o (by rw [hexp]; exact h1) _ _ h2)
    | seq items =>
      rw [hexp] at h
      refine .tight hg hexp ?_ (wTight_of (ItemsOf.mono h fun x hx => href x.1 (by
        rw [hexp]; exact List.mem_map.2 ⟨x, hx, rfl⟩)))
      rw [hs.has_tight hp]
      cases hw : d.commitType.whitespace
      · have : d.replaced = false := by
          cases h2 : d.replaced
          · rfl
          · exact absurd ⟨hw, h2⟩ hr
        rw [not_replaced_seq this hexp]; rfl
      · simp

/-- What is derived with the whitespace applied, is derived by the specification. -/
theorem WsGrammar.sound (hs : SInv s) (hroot : s.root = some r0) (hrf : RefsIn s G) (WG : WsGrammar s r0 G)
    {n : Name} {i j : Nat} (h : Derives G input n i j) : Meaning s input n i j := by
  refine Derives.induct' (P := Meaning s input) ?_ h
  intro n gd i j hgd hstep
  have hws : ∀ a b, Derives G input whitespaceName a b ∧ Meaning s input whitespaceName a b →
      ∃ w ∈ s.wgrammar.ws, WDerives s.wgrammar input w a b := fun a b h => h.2.ws rfl
  have href : ∀ p d, s.Has p d → ∀ n ∈ d.gdef.expr.refs, ∀ a b, Derives G input n a b ∧ Meaning s input n a b →
      WDerives s.wgrammar input n a b := by
    intro p d hp n hn a b h
    obtain ⟨gd, hgd, -⟩ := derives_iff.1 h.1
    obtain ⟨q, e, hq, rfl⟩ := hrf p d hp n hn (by rw [hgd]; rfl)
    exact h.2.orig q e hq rfl
  obtain ⟨dr, hdr, hdrn⟩ := hs.has_root hroot
  have hbody : ∀ p d, s.Has p d → ∀ e, ExprStep (fun n i j => Derives G input n i j ∧ Meaning s input n i j) input e i j →
      ((d.commitType.whitespace = false ∧ e = d.wsRepl.gdef.expr) ∨
      (d.commitType.whitespace = true ∧ e = d.gdef.expr)) → WBody s.wgrammar input d.name i j := by
    intro p d hp e hstep he
    exact body_sound hs hws hp (href p d hp)
      (fun hw hr k it h1 h2 a b h => h.2.rest p d hp hw hr k it h1 h2 rfl)
      (fun hw hr k it h1 h2 h3 a b h => h.2.opt p d hp hw hr k it h1 h2 h3 rfl) hstep he
  refine ⟨?_, ?_, ?_, ?_, ?_⟩
  · -- a registered definition
    rintro p d hp rfl
    by_cases hpr : p = r0
    · subst hpr
      obtain rfl := Option.some.inj (hp.2.symm.trans hdr.2)
      rw [WG.root_ d hp] at hgd
      obtain rfl := Option.some.inj hgd
      simp only [wsRootDef, newSequence_expr, List.map_cons, List.map_nil, wsItem_ref] at hstep
      have hb : (SeqItem.mk (patchName [d.name, runes "wsroot"]) 1 1).ref =
          (patchName [d.name, runes "wsroot"], 1, 1) := by simp [SeqItem.ref, bounds]
      rw [hb] at hstep
      cases hstep with
      | cons t1 r1 h1 =>
        cases h1 with
        | cons t2 r2 h2 =>
          cases h2 with
          | cons t3 r3 h3 =>
            cases h3
            have hbd := (times_once t2 r2).2.body (by rw [hdrn])
            rw [hdrn]
            exact .root (gap_item hws t1) hbd (gap_item hws t3)
    · have hne : d.name ≠ s.wgrammar.root := by
        intro h
        exact hpr (hs.has_inj hp hdr (by rw [h, hdrn]; rfl)).1
      refine .def_ hne ?_
      cases hw : d.commitType.whitespace
      · rw [WG.repl p d hp hw hpr] at hgd
        obtain rfl := Option.some.inj hgd
        exact hbody p d hp _ hstep (Or.inl ⟨hw, rfl⟩)
      · rw [WG.ws p d hp hw] at hgd
        obtain rfl := Option.some.inj hgd
        exact hbody p d hp _ hstep (Or.inr ⟨hw, rfl⟩)
  · rintro rfl
    rw [WG.merged, hs.merged] at hgd
    obtain rfl := Option.some.inj hgd
    obtain ⟨o, h1, h2, h3⟩ := hstep
    obtain ⟨p, d, hp, hn, -⟩ := hs.has_ws.1 h1
    exact ⟨o, h1, h3.orig p d hp hn⟩
  · rintro p d hp hw hr k it hk hm rfl
    have hgen := WG.gen p d hp hw (newSequence (restName it.name d.name k) { alias := true } [wsItem, oneItem it])
      (by unfold Def.wsGen; rw [if_pos hr]; simpa using wsGen_rest (sn := d.name) (i := 0) hk hm)
    have hgen : G (restName it.name d.name k) = _ := hgen
    rw [hgen] at hgd
    obtain rfl := Option.some.inj hgd
    simp only [newSequence_expr, List.map_cons, List.map_nil, wsItem_ref, oneItem_ref] at hstep
    cases hstep with
    | cons t1 r1 h1 =>
      cases h1 with
      | cons t2 r2 h2 =>
        cases h2
        refine ⟨_, gap_item hws t1, href p d hp it.name ?_ _ _ (times_once t2 r2)⟩
        rw [seq_gdef hr]
        simp only [Expr.refs, List.map_map, List.mem_map]
        exact ⟨it, List.mem_of_getElem? hk, rfl⟩
  · rintro p d hp hw hr k it hk hm hm2 rfl
    have hgen := WG.gen p d hp hw (newSequence (optName it.name d.name k) { alias := true }
        (leadItems k ++ [oneItem it, restItem it d.name k]))
      (by unfold Def.wsGen; rw [if_pos hr]; simpa using wsGen_opt (sn := d.name) (i := 0) hk hm hm2)
    have hgen : G (optName it.name d.name k) = _ := hgen
    rw [hgen] at hgd
    obtain rfl := Option.some.inj hgd
    rw [newSequence_expr] at hstep
    refine occ_sound (hs.has_items hp it (List.mem_of_getElem? hk)) hm hws (href p d hp it.name ?_) ?_ hstep
    · rw [seq_gdef hr]
      simp only [Expr.refs, List.map_map, List.mem_map]
      exact ⟨it, List.mem_of_getElem? hk, rfl⟩
    · intro a b h
      exact h.2.rest p d hp hw hr k it hk hm rfl
  · rintro rfl
    have hb := WG.body dr hdr
    rw [hdrn] at hb
    rw [hb] at hgd
    obtain rfl := Option.some.inj hgd
    rw [← hdrn]
    exact hbody r0 dr hdr _ hstep (Or.inl ⟨WG.root_ws hdr, rfl⟩)

/-! ### From the specification to the definitions with the whitespace applied -/

/-- The right hand side of a definition, with the whitespace applied. -/
def Def.bodyExpr (d : Def) : Expr Name := if d.commitType.whitespace then d.gdef.expr else d.wsRepl.gdef.expr

theorem WsGrammar.bodyExpr (WG : WsGrammar s r0 G) {p : Ptr} {d : Def} (hp : s.Has p d) (hr : p ≠ r0) :
    ∃ gd, G d.name = some gd ∧ gd.expr = d.bodyExpr := by
  unfold Def.bodyExpr
  cases hw : d.commitType.whitespace
  · exact ⟨_, WG.repl p d hp hw hr, by simp⟩
  · exact ⟨_, WG.ws p d hp hw, by simp⟩

theorem bodyExpr_plain {d : Def} (h : d.commitType.whitespace = true ∨ d.replaced = false) :
    d.bodyExpr = d.gdef.expr := by
  unfold Def.bodyExpr Def.wsRepl
  rcases h with h | h <;> simp [h]

theorem char_plain {d : Def} {neg : Bool} {cs : List Rune} {rs : List (Rune × Rune)}
    (h : d.gdef.expr = .char neg cs rs) : d.replaced = false := by
  cases hr : d.replaced
  · rfl
  · rw [seq_gdef hr] at h; simp at h

theorem choice_plain {d : Def} {os : List Name} (h : d.gdef.expr = .choice os) : d.replaced = false := by
  cases hr : d.replaced
  · rfl
  · rw [seq_gdef hr] at h; simp at h

/-- Occurrences with gaps, as they are matched: the first one, and then the rest. -/
def OccOf (D : Name → Nat → Nat → Prop) (first : Bool) (n : Name) (k i j : Nat) : Prop :=
  (k = 0 ∧ i = j) ∨ ∃ c m m', k = c + 1 ∧
    (if first then i = m else ∃ g, TimesOf (D whitespaceName) g i m) ∧ D n m m' ∧
    TimesOf (fun a b => ∃ q g, TimesOf (D whitespaceName) g a q ∧ D n q b) c m' j

theorem inRange_any (k : Nat) : InRange 0 (-1) k := Or.inl ⟨Int.natCast_nonneg k, by omega⟩
theorem inRange_once : InRange 1 1 1 := Or.inl ⟨by omega, by omega⟩

theorem lead_complete {D : Name → Nat → Nat → Prop} {i a m : Nat}
    (h : if (i == 0) = true then a = m else ∃ g, TimesOf (D whitespaceName) g a m) :
    ItemsOf D ((leadItems i).map SeqItem.ref) a m := by
  unfold leadItems
  by_cases hi : i = 0
  · subst hi
    simp only [BEq.rfl, if_true] at h
    subst h
    exact .nil
  · have : (i == 0) = false := by simp [hi]
    rw [this] at h
    obtain ⟨g, h⟩ := h
    rw [if_pos (by omega)]
    simp only [List.map_cons, List.map_nil, wsItem_ref]
    exact .cons h (inRange_any g) .nil

/-- The generated items match the occurrences of one item. -/
theorem occ_complete {sn : Name} {i : Nat} {it : SeqItem} (hn : it.Normal) (h1 : it.max ≠ 1)
    (hG : G (restName it.name sn i) =
      some (newSequence (restName it.name sn i) { alias := true } [wsItem, oneItem it]).gdef)
    {c a b : Nat} (ho : OccOf (Derives G input) (i == 0) it.name (c + 1) a b)
    (hr : InRange it.min it.max (c + 1)) :
    ItemsOf (Derives G input) ((leadItems i ++ [oneItem it, restItem it sn i]).map SeqItem.ref) a b := by
  rcases ho with ⟨h, -⟩ | ⟨c', m, m', hc, hlead, hd, ht⟩
  · omega
  · obtain rfl : c' = c := by omega
    rw [List.map_append]
    refine ItemsOf.append.2 ⟨m, lead_complete hlead, ?_⟩
    simp only [List.map_cons, List.map_nil, oneItem_ref, restItem_ref sn i hn]
    refine .cons (TimesOf.one.2 hd) inRange_once (.cons (k := c') ?_ ((inRange_rest hn h1 c').2 hr) .nil)
    refine ht.mono ?_
    rintro a b ⟨q, g, h2, h3⟩
    refine derives_iff.2 ⟨_, hG, ?_⟩
    simp only [newSequence_expr, List.map_cons, List.map_nil, wsItem_ref, oneItem_ref]
    exact .cons h2 (inRange_any g) (.cons (TimesOf.one.2 h3) inRange_once .nil)

mutual

theorem WsGrammar.complete (hs : SInv s) (hroot : s.root = some r0) (WG : WsGrammar s r0 G) :
    ∀ {n i j}, WDerives s.wgrammar input n i j → Derives G input n i j
  | _, _, _, .def_ hne hb => by
    obtain ⟨p, d, hp, rfl, hstep⟩ := WG.completeBody hs hroot hb
    have hr : p ≠ r0 := by
      rintro rfl
      obtain ⟨dr, hdr, hdrn⟩ := hs.has_root hroot
      obtain rfl := Option.some.inj (hp.2.symm.trans hdr.2)
      exact hne hdrn
    obtain ⟨gd, h1, h2⟩ := WG.bodyExpr hp hr
    exact derives_iff.2 ⟨gd, h1, by rw [h2]; exact hstep⟩
  | _, _, _, .root (a := a) (b := b) h1 hb h2 => by
    obtain ⟨k1, t1⟩ := WG.completeGap hs hroot h1
    obtain ⟨k2, t2⟩ := WG.completeGap hs hroot h2
    obtain ⟨p, d, hp, hpn, hstep⟩ := WG.completeBody hs hroot hb
    obtain ⟨dr, hdr, hdrn⟩ := hs.has_root hroot
    obtain ⟨rfl, rfl⟩ := hs.has_inj hp hdr (by rw [hpn, hdrn]; rfl)
    have hbd : Derives G input (patchName [d.name, runes "wsroot"]) a b := by
      refine derives_iff.2 ⟨_, WG.body d hdr, ?_⟩
      unfold Def.bodyExpr at hstep
      rw [WG.root_ws hdr] at hstep
      exact hstep
    rw [← hpn]
    refine derives_iff.2 ⟨_, WG.root_ d hdr, ?_⟩
    have hb : (SeqItem.mk (patchName [d.name, runes "wsroot"]) 1 1).ref =
        (patchName [d.name, runes "wsroot"], 1, 1) := by simp [SeqItem.ref, bounds]
    simp only [wsRootDef, newSequence_expr, List.map_cons, List.map_nil, wsItem_ref, hb]
    exact .cons t1 (inRange_any k1) (.cons (TimesOf.one.2 hbd) inRange_once (.cons t2 (inRange_any k2) .nil))

theorem WsGrammar.completeBody (hs : SInv s) (hroot : s.root = some r0) (WG : WsGrammar s r0 G) :
    ∀ {n i j}, WBody s.wgrammar input n i j → ∃ p d, s.Has p d ∧ d.name = n ∧
      ExprStep (Derives G input) input d.bodyExpr i j
  | _, _, _, .char h1 h2 h3 h4 => by
    obtain ⟨p, d, hp, rfl, rfl⟩ := hs.grammar_has h1
    refine ⟨p, d, hp, rfl, ?_⟩
    rw [bodyExpr_plain (Or.inr (char_plain h2)), h2]
    exact ⟨_, h3, h4, rfl⟩
  | _, _, _, .choice h1 h2 h3 h4 => by
    obtain ⟨p, d, hp, rfl, rfl⟩ := hs.grammar_has h1
    refine ⟨p, d, hp, rfl, ?_⟩
    rw [bodyExpr_plain (Or.inr (choice_plain h2)), h2]
    exact ⟨_, h3, WG.complete hs hroot h4⟩
  | _, _, _, .tight h1 h2 h3 h4 => by
    have ih := WG.completeTight hs hroot h4
    obtain ⟨p, d, hp, rfl, rfl⟩ := hs.grammar_has h1
    refine ⟨p, d, hp, rfl, ?_⟩
    rw [hs.has_tight hp] at h3
    rw [bodyExpr_plain, h2]
    · exact ih
    · cases hw : d.commitType.whitespace
      · right
        rw [hw, Bool.or_false] at h3
        simp [Def.replaced, h3]
      · exact Or.inl rfl
  | _, _, _, .loose h1 h2 h3 h4 => by
    have ih := @WsGrammar.completeLoose hs hroot WG _ _ _ _ h4
    obtain ⟨p, d, hp, rfl, rfl⟩ := hs.grammar_has h1
    refine ⟨p, d, hp, rfl, ?_⟩
    rw [hs.has_tight hp, Bool.or_eq_false_iff] at h3
    have hr : d.replaced = true := by
      cases hr : d.replaced
      · have := not_replaced_seq hr h2; rw [h3.1] at this; simp at this
      · rfl
    unfold Def.bodyExpr Def.wsRepl
    rw [h3.2, if_pos hr]
    rw [seq_gdef hr] at h2
    injection h2 with h2
    refine ih d.name 0 d.items h2.symm (hs.has_items hp) rfl ?_
    intro e he
    exact WG.gen p d hp h3.2 e (by unfold Def.wsGen; rw [if_pos hr]; exact he)

theorem WsGrammar.completeGap (hs : SInv s) (hroot : s.root = some r0) (WG : WsGrammar s r0 G) :
    ∀ {i j}, Gap s.wgrammar input i j → ∃ k, TimesOf (Derives G input whitespaceName) k i j
  | _, _, .nil => ⟨0, .zero⟩
  | _, _, .cons h1 h2 h3 => by
    obtain ⟨k, t⟩ := WG.completeGap hs hroot h1
    refine ⟨k + 1, .succ t (derives_iff.2 ⟨_, WG.merged, ?_⟩)⟩
    refine ⟨_, ?_, WG.complete hs hroot h3⟩
    rw [hs.merged]; exact h2

theorem WsGrammar.completeTight (hs : SInv s) (hroot : s.root = some r0) (WG : WsGrammar s r0 G) :
    ∀ {items i j}, WTight s.wgrammar input items i j → ItemsOf (Derives G input) items i j
  | _, _, _, .nil => .nil
  | _, _, _, .cons h1 h2 h3 => .cons (WG.completeTimes hs hroot h1) h2 (WG.completeTight hs hroot h3)

theorem WsGrammar.completeTimes (hs : SInv s) (hroot : s.root = some r0) (WG : WsGrammar s r0 G) :
    ∀ {n k i j}, WTimes s.wgrammar input n k i j → TimesOf (Derives G input n) k i j
  | _, _, _, _, .zero => .zero
  | _, _, _, _, .succ h1 h2 => .succ (WG.completeTimes hs hroot h1) (WG.complete hs hroot h2)

theorem WsGrammar.completeLoose (hs : SInv s) (hroot : s.root = some r0) (WG : WsGrammar s r0 G) :
    ∀ {first its i j}, WLoose s.wgrammar input first its i j → ∀ (sn : Name) (idx : Nat) (items : List SeqItem),
      its = items.map SeqItem.ref → (∀ it ∈ items, it.Normal) → first = (idx == 0) →
      (∀ e ∈ (applyToItems sn idx items).1, G e.name = some e.gdef) →
      ItemsOf (Derives G input) ((applyToItems sn idx items).2.map SeqItem.ref) i j
  | _, _, _, _, .nil => by
    intro sn idx items he _ _ _
    cases items with
    | nil => exact .nil
    | cons => simp at he
  | _, _, _, _, .cons h1 h2 h3 => by
    have ih1 := WG.completeOcc hs hroot h1
    have ih2 := @WsGrammar.completeLoose hs hroot WG _ _ _ _ h3
    intro sn idx items he hn hf hgen
    cases items with
    | nil => simp at he
    | cons it items =>
      have hn0 := hn it (by simp)
      rw [List.map_cons, hn0.ref] at he
      simp only [List.cons.injEq, Prod.mk.injEq] at he
      obtain ⟨⟨rfl, rfl, rfl⟩, rfl⟩ := he
      subst hf
      rw [applyToItems_cons] at hgen ⊢
      simp only [List.map_append]
      refine ItemsOf.append.2 ⟨_, ?_, ih2 sn (idx + 1) items rfl (fun x hx => hn x (by simp [hx])) (by simp)
        (fun e he => hgen e (List.mem_append_right _ he))⟩
      by_cases hm1 : it.max = 1
      · rw [applyToItem_once hm1, List.map_append]
        rcases ih1 with ⟨rfl, rfl⟩ | ⟨c, m, m', rfl, hlead, hd, ht⟩
        · refine ItemsOf.append.2 ⟨_, lead_complete (by split; rfl; exact ⟨0, .zero⟩), ?_⟩
          simp only [List.map_cons, List.map_nil, hn0.ref]
          exact .cons .zero h2 .nil
        · refine ItemsOf.append.2 ⟨m, lead_complete hlead, ?_⟩
          have : c = 0 := by unfold InRange at h2; rw [hm1] at h2; omega
          subst this
          cases ht
          simp only [List.map_cons, List.map_nil, hn0.ref]
          exact .cons (TimesOf.one.2 hd) h2 .nil
      · by_cases hmn : 0 < it.min
        · rw [applyToItem_many hm1 hmn] at hgen ⊢
          rcases ih1 with ⟨rfl, rfl⟩ | ⟨c, m, m', rfl, hlead, hd, ht⟩
          · unfold InRange at h2; omega
          · exact occ_complete hn0 hm1 (hgen (newSequence (restName it.name sn idx) { alias := true } [wsItem, oneItem it]) (by simp)) (Or.inr ⟨c, m, m', rfl, hlead, hd, ht⟩) h2
        · rw [applyToItem_opt hm1 (by omega)] at hgen ⊢
          have hr : (SeqItem.mk (optName it.name sn idx) 0 1).ref = (optName it.name sn idx, 0, 1) := by
            simp [SeqItem.ref, bounds]
          simp only [List.map_cons, List.map_nil, hr]
          rcases ih1 with ⟨rfl, rfl⟩ | ⟨c, m, m', rfl, hlead, hd, ht⟩
          · exact .cons .zero (Or.inl ⟨by omega, by omega⟩) .nil
          · refine .cons (TimesOf.one.2 (derives_iff.2 ⟨_, hgen (newSequence (optName it.name sn idx) { alias := true }
                (leadItems idx ++ [oneItem it, restItem it sn idx])) (by simp), ?_⟩))
              (Or.inl ⟨by omega, by omega⟩) .nil
            rw [newSequence_expr]
            exact occ_complete hn0 hm1 (hgen (newSequence (restName it.name sn idx) { alias := true } [wsItem, oneItem it]) (by simp)) (Or.inr ⟨c, m, m', rfl, hlead, hd, ht⟩) h2
  | _, _, _, _, .absent h1 h2 h3 => by
    obtain ⟨g, hg⟩ := WG.completeGap hs hroot h2
    have ih2 := @WsGrammar.completeLoose hs hroot WG _ _ _ _ h3
    intro sn idx items he hn hf hgen
    cases items with
    | nil => simp at he
    | cons it items =>
      have hn0 := hn it (by simp)
      rw [List.map_cons, hn0.ref] at he
      simp only [List.cons.injEq, Prod.mk.injEq] at he
      obtain ⟨⟨rfl, rfl, hm1⟩, rfl⟩ := he
      rw [applyToItems_cons] at hgen ⊢
      simp only [List.map_append]
      refine ItemsOf.append.2 ⟨_, ?_, ih2 sn (idx + 1) items rfl (fun x hx => hn x (by simp [hx])) (by simp)
        (fun e he => hgen e (List.mem_append_right _ he))⟩
      rw [applyToItem_once hm1.symm, List.map_append]
      refine ItemsOf.append.2 ⟨_, lead_complete (by rw [← hf]; exact ⟨g, hg⟩), ?_⟩
      simp only [List.map_cons, List.map_nil, hn0.ref]
      exact .cons .zero (Or.inl ⟨by omega, by omega⟩) .nil

theorem WsGrammar.completeOcc (hs : SInv s) (hroot : s.root = some r0) (WG : WsGrammar s r0 G) :
    ∀ {first n k i j}, WOcc s.wgrammar input first n k i j → OccOf (Derives G input) first n k i j
  | _, _, _, _, _, .zero => Or.inl ⟨rfl, rfl⟩
  | _, _, _, _, _, .first h => Or.inr ⟨0, _, _, rfl, rfl, WG.complete hs hroot h, .zero⟩
  | first, _, _, _, _, .succ h1 h2 h3 h4 => by
    have hd := WG.complete hs hroot h4
    obtain ⟨g, hg⟩ := WG.completeGap hs hroot h3
    rcases WG.completeOcc hs hroot h1 with ⟨rfl, rfl⟩ | ⟨c, m, m', rfl, hlead, hd', ht⟩
    · cases first with
      | true => exact absurd (h2 rfl) (Nat.lt_irrefl _)
      | false => exact Or.inr ⟨0, _, _, rfl, ⟨g, hg⟩, hd, .zero⟩
    · exact Or.inr ⟨c + 1, m, m', rfl, hlead, hd', .succ ht ⟨_, g, hg, hd⟩⟩

end

/-- With the whitespace applied, the registered definitions derive what the specification says. -/
theorem WsGrammar.derives_iff (hs : SInv s) (hroot : s.root = some r0) (hrf : RefsIn s G)
    (WG : WsGrammar s r0 G) {p : Ptr} {d : Def} (hp : s.Has p d) {i j : Nat} :
    Derives G input d.name i j ↔ WDerives s.wgrammar input d.name i j :=
  ⟨fun h => (WG.sound hs hroot hrf h).orig p d hp rfl, WG.complete hs hroot⟩

end Main

end Treerack
