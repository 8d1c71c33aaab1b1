import Verif.Proofs.Parse
import Verif.Proofs.Mono
import Verif.Spec.Tree

/-
The basic lemma about building the tree: every node is a match of a visible definition, and the
recursion is bounded.
-/

namespace Treerack

/-! ### Recorded matches that were not dropped yet -/

/-- The number of live entries. -/
def live (r : Results) : Nat := (r.matches_.map fun es => es.countP fun e => decide (0 ≤ e.1)).sum

theorem countP_dropLoop_le (i t : Nat) (es : List (Int × Nat)) :
    (Results.dropLoop i t es).countP (fun e => decide (0 ≤ e.1)) ≤ es.countP (fun e => decide (0 ≤ e.1)) := by
  induction es with
  | nil => simp [Results.dropLoop]
  | cons e es ih =>
    unfold Results.dropLoop
    split
    · simp [List.countP_cons]
    · simp only [List.countP_cons]; omega

theorem countP_dropLoop_lt {i t : Nat} {es : List (Int × Nat)} (h : ((i : Int), t) ∈ es) :
    (Results.dropLoop i t es).countP (fun e => decide (0 ≤ e.1)) < es.countP (fun e => decide (0 ≤ e.1)) := by
  induction es with
  | nil => simp at h
  | cons e es ih =>
    unfold Results.dropLoop
    split
    · rename_i h2
      simp only [Bool.and_eq_true, beq_iff_eq] at h2
      have : 0 ≤ e.1 := by omega
      simp [this]
    · rename_i h2
      simp only [Bool.and_eq_true, beq_iff_eq] at h2
      rcases List.mem_cons.1 h with rfl | h'
      · exact absurd ⟨rfl, rfl⟩ h2
      · simp only [List.countP_cons]
        have := ih h'
        omega

theorem sum_modify_le (f : List (Int × Nat) → List (Int × Nat)) (g : List (Int × Nat) → Nat)
    (hfg : ∀ x, g (f x) ≤ g x) (l : List (List (Int × Nat))) (o : Nat) :
    ((l.modify o f).map g).sum ≤ (l.map g).sum := by
  induction l generalizing o with
  | nil => simp
  | cons x l ih =>
    cases o with
    | zero => simp; exact hfg x
    | succ o => simp; exact ih o

theorem sum_modify_lt (f : List (Int × Nat) → List (Int × Nat)) (g : List (Int × Nat) → Nat)
    (l : List (List (Int × Nat))) (o : Nat) (ho : o < l.length)
    (hfg : g (f (l.getD o [])) < g (l.getD o [])) :
    ((l.modify o f).map g).sum < (l.map g).sum := by
  induction l generalizing o with
  | nil => simp at ho
  | cons x l ih =>
    cases o with
    | zero => simp at hfg ⊢; exact hfg
    | succ o => simp at ho hfg ⊢; exact ih o ho hfg

theorem live_drop_le {r r' : Results} {o i t : Nat} (h : r.dropMatchTo o i t = .ok r') :
    live r' ≤ live r := by
  unfold Results.dropMatchTo at h
  split at h
  · cases h
    exact sum_modify_le _ _ (fun x => countP_dropLoop_le i t x) _ _
  · cases h

theorem live_drop_lt {r r' : Results} {o i t : Nat} (h : r.dropMatchTo o i t = .ok r')
    (hh : r.Has o i t) : live r' < live r := by
  have ho := Results.has_lt hh
  unfold Results.dropMatchTo at h
  split at h
  · cases h
    exact sum_modify_lt _ _ _ _ ho (countP_dropLoop_lt hh)
  · contradiction

/-- Dropping the match of a definition and of its generalizations. -/
theorem dropAll_spec (o t : Nat) : ∀ (ids : List Nat) (r : Results), o < r.matches_.length →
    ∃ r', dropAll o t ids r = .ok r' ∧ r'.isPending = r.isPending ∧ r'.noMatch = r.noMatch ∧
      r'.matches_.length = r.matches_.length ∧ live r' ≤ live r ∧
      (∀ off id to, r'.Has off id to → r.Has off id to) ∧
      (∀ off id to, r.Has off id to → (off ≠ o ∨ id ∉ ids ∨ to ≠ t) → r'.Has off id to)
  | [], r, _ => ⟨r, rfl, rfl, rfl, rfl, Nat.le_refl _, fun _ _ _ h => h, fun _ _ _ h _ => h⟩
  | i :: ids, r, h => by
    obtain ⟨r1, h1⟩ := Results.dropMatchTo_spec r o i t h
    obtain ⟨a1, a2, a3, -⟩ := Results.dropMatchTo_ok h1
    obtain ⟨r2, b1, b2, b3, b4, b5, b6, b7⟩ := dropAll_spec o t ids r1 (by omega)
    refine ⟨r2, ?_, b2.trans a2, b3.trans a1, b4.trans a3, Nat.le_trans b5 (live_drop_le h1), ?_, ?_⟩
    · simp [dropAll, h1, b1]
    · intro off id to hh
      exact Results.has_of_drop h1 (b6 off id to hh)
    · intro off id to hh hne
      refine b7 off id to (Results.has_drop_of_ne h1 hh ?_) ?_
      · rcases hne with h | h | h
        · exact Or.inl h
        · exact Or.inr (Or.inl fun he => h (by simp [he]))
        · exact Or.inr (Or.inr h)
      · rcases hne with h | h | h
        · exact Or.inl h
        · exact Or.inr (Or.inl fun he => h (by simp [he]))
        · exact Or.inr (Or.inr h)

theorem dropAll_lt {o t i : Nat} {ids : List Nat} {r r' : Results} (h : r.Has o i t)
    (hd : dropAll o t (i :: ids) r = .ok r') : live r' < live r := by
  have ho := Results.has_lt h
  obtain ⟨r1, h1⟩ := Results.dropMatchTo_spec r o i t ho
  obtain ⟨-, -, a3, -⟩ := Results.dropMatchTo_ok h1
  obtain ⟨r2, b1, -, -, -, b5, -⟩ := dropAll_spec o t ids r1 (by omega)
  simp only [dropAll, h1, Res.bind_ok, b1] at hd
  cases hd
  exact Nat.lt_of_le_of_lt b5 (live_drop_lt h1 h)

/-! ### Marking and unmarking -/

theorem markAll_spec (o : Nat) : ∀ (ids : List Nat) (r : Results),
    (markAll o ids r).matches_ = r.matches_ ∧ (markAll o ids r).noMatch = r.noMatch ∧
    r.isPending.length ≤ (markAll o ids r).isPending.length ∧
    (∀ i ∈ ids, i < (markAll o ids r).isPending.length) ∧
    (∀ off id, (markAll o ids r).pcount off id =
      r.pcount off id + if off = o then ids.count id else 0)
  | [], r => ⟨rfl, rfl, Nat.le_refl _, by simp, by simp [markAll]⟩
  | i :: ids, r => by
    obtain ⟨h1, h2, h3, h4, h5⟩ := markAll_spec o ids (r.markPending o i)
    have hl := Results.length_markPending r o i
    have he : markAll o (i :: ids) r = markAll o ids (r.markPending o i) := rfl
    rw [he]
    refine ⟨h1, h2, by omega, ?_, ?_⟩
    · intro j hj
      rcases List.mem_cons.1 hj with rfl | hj
      · omega
      · exact h4 j hj
    · intro off id
      rw [h5, Results.pcount_markPending, List.count_cons]
      by_cases ho : off = o
      · by_cases hi : id = i
        · subst hi; simp [ho]; omega
        · have : ¬ i = id := fun h => hi h.symm
          simp [ho, hi, this]
      · simp [ho]

theorem unmarkAll_spec (o : Nat) : ∀ (ids : List Nat) (r : Results),
    (∀ i ∈ ids, i < r.isPending.length) →
    ∃ r', unmarkAll o ids r = .ok r' ∧ r'.matches_ = r.matches_ ∧ r'.noMatch = r.noMatch ∧
      r'.isPending.length = r.isPending.length ∧
      (∀ off id, r'.pcount off id = r.pcount off id - if off = o then ids.count id else 0)
  | [], r, _ => ⟨r, rfl, rfl, rfl, rfl, by simp⟩
  | i :: ids, r, h => by
    obtain ⟨r1, a1, a2, a3, a4, a5⟩ := Results.unmarkPending_spec r o i (h i (by simp))
    obtain ⟨r2, b1, b2, b3, b4, b5⟩ := unmarkAll_spec o ids r1
      (fun j hj => by rw [a4]; exact h j (by simp [hj]))
    refine ⟨r2, by simp [unmarkAll, a1, b1], b2.trans a2, b3.trans a3, b4.trans a4, ?_⟩
    intro off id
    rw [b5, a5, List.count_cons]
    by_cases ho : off = o
    · by_cases hi : id = i
      · subst hi; simp [ho]; omega
      · have : ¬ i = id := fun h => hi h.symm
        simp [ho, hi, this]
    · simp [ho]

theorem live_congr {r r' : Results} (h : r'.matches_ = r.matches_) : live r' = live r := by
  unfold live; rw [h]

/-! ### The invariant -/

section
variable {env : Env} {R : Ptr → Prop} {toks : List Rune} {D : Ptr → Nat → Nat → Prop}
  {H : Nat → Nat → Nat → Prop} {ob : Prop} {B M : Nat}

/-- The invariant of the context while building. -/
structure BInv (toks : List Rune) (H : Nat → Nat → Nat → Prop) (c : Ctx) : Prop where
  tks : c.tokens = toks
  off : c.offset ≤ toks.length
  store : ∀ off id to, c.res.Has off id to → off ≤ to ∧ to ≤ toks.length ∧ H off id to

/-- What building changes. -/
structure BFrame (c c' : Ctx) : Prop where
  off : c.offset ≤ c'.offset
  pc : ∀ o i, c'.res.pcount o i = c.res.pcount o i
  plen : c.res.isPending.length ≤ c'.res.isPending.length
  live : live c'.res ≤ live c.res
  has : ∀ off id to, c'.res.Has off id to → c.res.Has off id to

theorem BFrame.refl (c : Ctx) : BFrame c c :=
  ⟨Nat.le_refl _, fun _ _ => rfl, Nat.le_refl _, Nat.le_refl _, fun _ _ _ h => h⟩

theorem BFrame.trans {a b c : Ctx} (h : BFrame a b) (h' : BFrame b c) : BFrame a c :=
  ⟨Nat.le_trans h.off h'.off, fun o i => (h'.pc o i).trans (h.pc o i), Nat.le_trans h.plen h'.plen,
   Nat.le_trans h'.live h.live, fun o i t x => h.has o i t (h'.has o i t x)⟩

/-- A node made for a visible definition and one of its matches. -/
def NodeOK (env : Env) (R : Ptr → Prop) (D : Ptr → Nat → Nat → Prop) (toks : List Rune) (n : Node) :
    Prop :=
  ∃ p d, R p ∧ env.defs[p]? = some d ∧ d.kind.isChar = false ∧ d.commit.alias = false ∧
    n.name = d.name ∧ n.tokens = toks ∧ n.from_ ≤ n.to ∧ n.to ≤ toks.length ∧ D p n.from_ n.to

/-- All the nodes in a list, at any depth. -/
def NodesOK (env : Env) (R : Ptr → Prop) (D : Ptr → Nat → Nat → Prop) (toks : List Rune)
    (ns : List Node) : Prop := ∀ n ∈ ns, ∀ m, Spec.Sub m n → NodeOK env R D toks m

theorem NodesOK.nil : NodesOK env R D toks [] := by intro n hn; simp at hn

theorem NodesOK.append {a b : List Node} (h : NodesOK env R D toks a) (h' : NodesOK env R D toks b) :
    NodesOK env R D toks (a ++ b) := by
  intro n hn
  rcases List.mem_append.1 hn with hn | hn
  · exact h n hn
  · exact h' n hn

theorem NodesOK.replicate {a : List Node} (h : NodesOK env R D toks a) (k : Nat) :
    NodesOK env R D toks (List.replicate k a).flatten := by
  intro n hn
  obtain ⟨l, hl, hn⟩ := List.mem_flatten.1 hn
  rw [List.eq_of_mem_replicate hl] at hn
  exact h n hn

theorem NodesOK.single {n : Node} (h : NodeOK env R D toks n) (hs : NodesOK env R D toks n.nodes) :
    NodesOK env R D toks [n] := by
  intro n' hn' m hm
  simp at hn'
  subst hn'
  cases hm with
  | refl => exact h
  | child hk hs' => exact hs _ hk _ hs'

/-- The postcondition of building. -/
structure BPost (env : Env) (R : Ptr → Prop) (D : Ptr → Nat → Nat → Prop) (toks : List Rune)
    (H : Nat → Nat → Nat → Prop) (c : Ctx) (x : Option (List Node) × Ctx) : Prop where
  frame : BFrame c x.2
  inv : BInv toks H x.2
  nodes : ∀ ns, x.1 = some ns → NodesOK env R D toks ns

/-- The measure of the recursion. -/
def bm (L B : Nat) (c : Ctx) : Nat := live c.res + free L B c.res.pcount

theorem bm_mono {L B : Nat} {c c' : Ctx} (h : BFrame c c') : bm L B c' ≤ bm L B c := by
  unfold bm
  rw [free_congr h.pc]
  have := h.live
  omega

/-- What is assumed of nested calls. -/
def BRecOK (env : Env) (R : Ptr → Prop) (D : Ptr → Nat → Nat → Prop) (toks : List Rune)
    (H : Nat → Nat → Nat → Prop) (B : Nat) (ob : Prop) (rec : BuildRec) (K : Nat) : Prop :=
  ∀ q c, R q → BInv toks H c → bm toks.length B c < K →
    (rec q c).Spec True ob (BPost env R D toks H c)

theorem findOption_mem {r : Results} {off to : Nat} {o : Ptr} :
    ∀ {os : List Ptr}, findOption env r off to os = .ok (some o) →
      o ∈ os ∧ ∃ d, env.defs[o]? = some d ∧ r.Has off d.id to
  | [], h => by simp [findOption] at h
  | x :: os, h => by
    unfold findOption at h
    split at h
    · cases h
    · rename_i d hd
      split at h
      · rename_i hm
        cases h
        exact ⟨by simp, d, hd, (Results.hasMatchTo_iff ..).1 hm⟩
      · obtain ⟨h1, h2⟩ := findOption_mem h
        exact ⟨by simp [h1], h2⟩

theorem findOption_ne_oof {r : Results} {off to : Nat} :
    ∀ (os : List Ptr), findOption env r off to os ≠ .oof
  | [] => by simp [findOption]
  | x :: os => by
    unfold findOption
    split
    · simp
    · split
      · simp
      · exact findOption_ne_oof os

/-- The preparation of the context before the nested calls, and the clean up. -/
theorem build_enter {c : Ctx} {id to : Nat} {gens : List Nat} (h : BInv toks H c)
    (hh : c.res.Has c.offset id to) (hid : id < B)
    (hp : ¬ ((!decide (to > c.offset) && c.res.pending c.offset id) = true)) :
    ∃ r, (if decide (to > c.offset) = true then dropAll c.offset to (id :: gens) c.res
        else .ok (markAll c.offset (id :: gens) c.res)) = .ok r ∧
      BInv toks H { c with res := r } ∧ bm toks.length B { c with res := r } < bm toks.length B c ∧
      ∀ c2, BFrame { c with res := r } c2 → BInv toks H c2 →
        ∃ r2, (if decide (to > c.offset) = true then .ok c2.res
          else unmarkAll c.offset (id :: gens) c2.res) = .ok r2 ∧
          BFrame c { c2 with res := r2 } ∧ BInv toks H { c2 with res := r2 } := by
  by_cases hlt : to > c.offset
  · simp only [hlt, decide_true, if_true]
    obtain ⟨r, h1, h2, h3, h4, h5, h6, -⟩ := dropAll_spec c.offset to (id :: gens) c.res
      (Results.has_lt hh)
    refine ⟨r, h1, ⟨h.tks, h.off, fun o i t x => h.store o i t (h6 o i t x)⟩, ?_, ?_⟩
    · have := dropAll_lt hh h1
      unfold bm
      have hf : free toks.length B r.pcount = free toks.length B c.res.pcount :=
        free_congr (fun o i => by simp [Results.pcount, h2])
      simp only [hf]; omega
    · intro c2 hf hi
      refine ⟨c2.res, rfl, ?_, hi⟩
      refine BFrame.trans (b := { c with res := r }) ?_ hf
      exact ⟨Nat.le_refl _, fun o i => by simp [Results.pcount, h2], by simp [h2], h5, h6⟩
  · simp only [hlt, decide_false, Bool.false_eq_true, if_false]
    obtain ⟨h1, h2, h3, h4, h5⟩ := markAll_spec c.offset (id :: gens) c.res
    refine ⟨_, rfl, ⟨h.tks, h.off, fun o i t x => h.store o i t ((Results.Has.congr h1).1 x)⟩, ?_, ?_⟩
    · unfold bm
      simp only [live_congr h1]
      have hpend : c.res.pending c.offset id = false := by simpa [hlt] using hp
      have h0 := (Results.pending_false_iff ..).1 hpend
      have : free toks.length B (markAll c.offset (id :: gens) c.res).pcount <
          free toks.length B c.res.pcount := by
        unfold free
        refine countP_lt ?_ (mem_allPairs.2 ⟨h.off, hid⟩) ?_ ?_
        · intro x _ hx
          simp only [h5, beq_iff_eq] at hx ⊢
          omega
        · simp [h0]
        · simp [h5]
      omega
    · intro c2 hf hi
      have hpl := hf.plen
      simp only at hpl
      obtain ⟨r2, k1, k2, k3, k4, k5⟩ := unmarkAll_spec c.offset (id :: gens) c2.res
        (fun i hi => Nat.lt_of_lt_of_le (h4 i hi) hpl)
      refine ⟨r2, k1, ⟨hf.off, ?_, ?_, ?_, ?_⟩, ⟨hi.tks, hi.off, ?_⟩⟩
      · intro o i
        have := hf.pc o i
        simp only [h5] at this
        simp only [k5, this]
        omega
      · simp only [k4]; omega
      · have := hf.live
        simp only [live_congr h1] at this
        simp only [live_congr k2]; exact this
      · intro o i t x
        have := hf.has o i t ((Results.Has.congr k2).1 x)
        exact (Results.Has.congr h1).1 this
      · intro o i t x
        exact hi.store o i t ((Results.Has.congr k2).1 x)

theorem choiceBuild_spec (I : Interp env R toks D H) {p : Ptr} {d : PDef} {os : List Ptr} (hR : R p)
    (hd : env.defs[p]? = some d) (hk : d.kind = .choice os) (hid : d.id < B) (hos : ∀ o ∈ os, R o)
    {rec : BuildRec} {c : Ctx} (h : BInv toks H c)
    (hrec : BRecOK env R D toks H B ob rec (bm toks.length B c)) :
    (choiceBuild rec env d os c).Spec True ob (BPost env R D toks H c) := by
  have hk' : d.kind.isChar = false := by rw [hk]; rfl
  unfold choiceBuild
  split
  · exact ⟨.refl _, h, by simp⟩
  · rename_i to hto
    have hh := ((Results.longestMatch_some ..).1 hto).1
    obtain ⟨s1, s2, s3⟩ := h.store _ _ _ hh
    simp only
    split
    · exact ⟨.refl _, h, by simp⟩
    · rename_i hp
      obtain ⟨r, e1, e2, e3, e4⟩ := build_enter (gens := d.gens) h hh hid hp
      rw [e1]
      simp only [Res.bind_ok]
      cases ho : findOption env r c.offset to os with
      | oof => exact absurd ho (findOption_ne_oof _)
      | panic => trivial
      | ok o =>
        cases o with
        | none => trivial
        | some o =>
          simp only [Res.bind_ok]
          refine Res.Spec.bind (hrec o _ (hos o (findOption_mem ho).1) e2 e3) ?_
          rintro ⟨n, c2⟩ hc2
          obtain ⟨r2, f1, f2, f3⟩ := e4 c2 hc2.frame hc2.inv
          simp only
          rw [f1]
          simp only [Res.bind_ok]
          have hn : NodesOK env R D toks (n.getD []) := by
            cases n with
            | none => exact .nil
            | some ns => exact hc2.nodes ns rfl
          split
          · refine ⟨f2, f3, ?_⟩
            intro ns hns
            cases hns
            exact hn
          · rename_i hal
            refine ⟨f2, f3, ?_⟩
            intro ns hns
            cases hns
            refine NodesOK.single ?_ hn
            exact ⟨p, d, hR, hd, hk', by simpa using hal, rfl, f3.tks, s1, s2, I.load hR hd hk' s3⟩

theorem seqBuildLoop_spec {rec : BuildRec} {K : Nat}
    (hrec : BRecOK env R D toks H B ob rec K) {c0 : Ctx} :
    ∀ (n : Nat) (its : List (Ptr × (Int × Int))) (k : Nat) (nodes : List Node) (c : Ctx),
      (∀ x ∈ its, R x.1) → (n ≤ its.length + (toks.length - c.offset) → ob) →
      BInv toks H c → BFrame c0 c → bm toks.length B c0 < K → NodesOK env R D toks nodes →
      (seqBuildLoop rec n its k nodes c).Spec True ob (fun x =>
        BFrame c0 x.2 ∧ BInv toks H x.2 ∧ NodesOK env R D toks x.1)
  | 0, _, _, _, _, _, hob, _, _, _, _ => hob (Nat.zero_le _)
  | n + 1, [], k, nodes, c, _, _, h, hf, _, hn => ⟨hf, h, hn⟩
  | n + 1, (item, (mn, mx)) :: rest, k, nodes, c, hQ, hob, h, hf, hK, hn => by
    unfold seqBuildLoop
    have hm := bm_mono (L := toks.length) (B := B) hf
    refine Res.Spec.bind (hrec item c (hQ (item, (mn, mx)) (by simp)) h (by omega)) ?_
    rintro ⟨ns, c'⟩ hc'
    have hfr := hf.trans hc'.frame
    have hoff := hc'.frame.off
    have hoff' := hc'.inv.off
    simp only at hoff hoff' hfr
    have hQ' : ∀ x ∈ rest, R x.1 := fun x hx => hQ x (by simp [hx])
    have hrest : n ≤ rest.length + (toks.length - c'.offset) → ob := by
      intro hh; apply hob; simp only [List.length_cons]; omega
    cases ns with
    | none => exact seqBuildLoop_spec hrec n rest 0 nodes c' hQ' hrest hc'.inv hfr hK hn
    | some ns =>
      have hns := hc'.nodes ns rfl
      simp only
      split
      · split
        · exact seqBuildLoop_spec hrec n rest 0 _ c' hQ' hrest hc'.inv hfr hK (hn.append hns)
        · refine seqBuildLoop_spec hrec n _ _ _ c' hQ ?_ hc'.inv hfr hK (hn.append hns)
          intro hh; apply hob; simp only [List.length_cons] at hh ⊢; omega
      · exact seqBuildLoop_spec hrec n rest 0 _ c' hQ' hrest hc'.inv hfr hK
          (hn.append (hns.replicate _))

theorem seqBuild_spec (I : Interp env R toks D H) {p : Ptr} {d : PDef} {is : List Ptr}
    {rs : List (Int × Int)} {ac : Bool} (hR : R p)
    (hd : env.defs[p]? = some d) (hk : d.kind = .seq is rs ac) (hid : d.id < B) (his : ∀ o ∈ is, R o)
    {rec : BuildRec} {lfuel : Nat} (hlf : lfuel ≤ is.length + toks.length → ob) {c : Ctx}
    (h : BInv toks H c) (hrec : BRecOK env R D toks H B ob rec (bm toks.length B c)) :
    (seqBuild rec lfuel d is rs ac c).Spec True ob (BPost env R D toks H c) := by
  have hk' : d.kind.isChar = false := by rw [hk]; rfl
  unfold seqBuild
  split
  · exact ⟨.refl _, h, by simp⟩
  · rename_i to hto
    have hh := ((Results.longestMatch_some ..).1 hto).1
    obtain ⟨s1, s2, s3⟩ := h.store _ _ _ hh
    have hnode : ∀ ts ns, d.commit.alias = false → ts = toks → NodesOK env R D toks ns →
        NodesOK env R D toks [Node.mk d.name c.offset to ts ns] := by
      intro ts ns hal hts hn
      refine NodesOK.single ?_ hn
      exact ⟨p, d, hR, hd, hk', hal, rfl, hts, s1, s2, I.load hR hd hk' s3⟩
    simp only
    split
    · have hfr : BFrame c { c with offset := to } :=
        ⟨s1, fun _ _ => rfl, Nat.le_refl _, Nat.le_refl _, fun _ _ _ h => h⟩
      have hi : BInv toks H { c with offset := to } := ⟨h.tks, s2, h.store⟩
      split
      · refine ⟨hfr, hi, ?_⟩
        intro ns hns; cases hns; exact .nil
      · rename_i hal
        refine ⟨hfr, hi, ?_⟩
        intro ns hns; cases hns
        exact hnode _ _ (by simpa using hal) h.tks .nil
    · split
      · exact ⟨.refl _, h, by simp⟩
      · rename_i hp
        obtain ⟨r, e1, e2, e3, e4⟩ := build_enter (gens := d.gens) h hh hid hp
        rw [e1]
        simp only [Res.bind_ok]
        refine Res.Spec.bind (seqBuildLoop_spec hrec (c0 := { c with res := r }) lfuel _ 0 [] _ ?_ ?_ e2
          (.refl _) e3 .nil) ?_
        · intro x hx
          obtain ⟨a, b⟩ := x
          exact his _ (List.of_mem_zip hx).1
        · intro hn
          apply hlf
          have : (is.zip rs).length ≤ is.length := by simp; omega
          omega
        · rintro ⟨ns, c2⟩ ⟨g1, g2, g3⟩
          obtain ⟨r2, f1, f2, f3⟩ := e4 c2 g1 g2
          simp only
          rw [f1]
          simp only [Res.bind_ok]
          split
          · refine ⟨f2, f3, ?_⟩
            intro ns' hns; cases hns; exact g3
          · rename_i hal
            refine ⟨f2, f3, ?_⟩
            intro ns' hns; cases hns
            exact hnode _ _ (by simpa using hal) f3.tks g3

/-- The basic lemma about building. -/
theorem build_spec (C : Closed env R) (I : Interp env R toks D H) (hb : Bounds env R B M) :
    ∀ (n : Nat) (p : Ptr) (c : Ctx), R p → BInv toks H c →
      (build env n p c).Spec True (n ≤ bm toks.length B c + toks.length + M) (BPost env R D toks H c)
  | 0, p, c, _, _ => Nat.zero_le _
  | n + 1, p, c, hR, h => by
    obtain ⟨d, hd⟩ := C.def_ hR
    unfold build
    simp only [hd]
    have hrec : BRecOK env R D toks H B (n + 1 ≤ bm toks.length B c + toks.length + M)
        (build env n) (bm toks.length B c) := by
      intro q c' hq hc' hlt
      exact (build_spec C I hb n q c' hq hc').mono id (fun hle => by omega) (fun _ h => h)
    cases hk : d.kind with
    | char neg cs rs => exact ⟨.refl _, h, by simp⟩
    | choice os =>
      exact choiceBuild_spec I hR hd hk (hb.id hR hd (by rw [hk]; rfl))
        (fun o ho => C.child hR hd (by rw [hk]; exact ho)) h hrec
    | seq is rs ac =>
      have hlen := hb.len hR hd hk
      exact seqBuild_spec I hR hd hk (hb.id hR hd (by rw [hk]; rfl))
        (fun o ho => C.child hR hd (by rw [hk]; exact ho)) (fun hle => by omega) h hrec

end
end Treerack
