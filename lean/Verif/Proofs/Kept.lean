import Verif.Proofs.ExactStore

/-
While a left recursive choice is pending at an offset, its left recursive options are recorded at that offset only by
their own parse calls.
-/

namespace Treerack
open Spec

/-- Between `c` and `c'` the pending marks of `a` and the records of `s`, at `off`, do not change. -/
structure HoldsOn (off a s : Nat) (c c' : Ctx) : Prop where
  pc : c'.res.pcount off a = c.res.pcount off a
  has : ∀ t, c'.res.Has off s t → c.res.Has off s t

theorem HoldsOn.refl (off a s : Nat) (c : Ctx) : HoldsOn off a s c c := ⟨rfl, fun _ h => h⟩

theorem HoldsOn.trans {off a s : Nat} {c c' c'' : Ctx} (h : HoldsOn off a s c c') (h' : HoldsOn off a s c' c'') : HoldsOn off a s c c'' :=
  ⟨h'.pc.trans h.pc, fun t ht => h.has t (h'.has t ht)⟩

/-- The same store. -/
theorem HoldsOn.of_res {off a s : Nat} {c c' : Ctx} (h : c'.res = c.res) : HoldsOn off a s c c' := by
  constructor
  · rw [h]
  · intro t ht; rwa [h] at ht

theorem HoldsOn.after {off a s : Nat} {c c1 c' : Ctx} (h : HoldsOn off a s c1 c') (hr : c1.res = c.res) : HoldsOn off a s c c' :=
  (HoldsOn.of_res hr).trans h

theorem HoldsOn.setMatch {off a s : Nat} {c c' : Ctx} {from_ id to : Nat} (hr : c'.res = c.res.setMatch from_ id to)
    (h : ¬ (off = from_ ∧ s = id)) : HoldsOn off a s c c' := by
  constructor
  · simp [hr]
  · intro t ht
    rw [hr] at ht
    rcases (Results.has_setMatch ..).1 ht with ht | ⟨h1, h2, -⟩
    · exact ht
    · exact absurd ⟨h1, h2⟩ h

theorem HoldsOn.setNoMatch {off a s : Nat} {c c' : Ctx} {from_ id : Nat} (hr : c'.res = c.res.setNoMatch from_ id) :
    HoldsOn off a s c c' := by
  constructor
  · simp [hr]
  · intro t ht
    rw [hr] at ht
    simpa using ht

theorem HoldsOn.mark {off a s : Nat} {c c' : Ctx} {from_ id : Nat} (hr : c'.res = c.res.markPending from_ id)
    (h : ¬ (off = from_ ∧ a = id)) : HoldsOn off a s c c' := by
  constructor
  · rw [hr, Results.pcount_markPending, if_neg h]; rfl
  · intro t ht
    rw [hr] at ht
    exact ht

theorem HoldsOn.unmark {off a s : Nat} {c : Ctx} {from_ id : Nat} (h : ¬ (off = from_ ∧ a = id)) :
    (c.res.unmarkPending from_ id).Spec True True fun r => HoldsOn off a s c { c with res := r } := by
  by_cases hl : id < c.res.isPending.length
  · obtain ⟨r, h1, h2, -, -, h3⟩ := Results.unmarkPending_spec c.res from_ id hl
    rw [h1]
    refine ⟨?_, fun t ht => (Results.Has.congr h2).1 ht⟩
    rw [h3, if_neg h]; rfl
  · simp only [Results.unmarkPending, if_neg hl]
    trivial

theorem HoldsOn.unmarkUnless {off a s : Nat} {c : Ctx} {ac : Bool} {from_ id : Nat} (h : ¬ (off = from_ ∧ a = id)) :
    (unmarkUnless ac from_ id c).Spec True True fun c' => HoldsOn off a s c c' ∧ c'.matchLast = c.matchLast ∧ c'.offset = c.offset := by
  unfold Treerack.unmarkUnless
  split
  · exact ⟨.refl .., rfl, rfl⟩
  · refine Res.Spec.bind (HoldsOn.unmark (c := c) (s := s) h) ?_
    intro r hr
    exact ⟨hr, rfl, rfl⟩

theorem Ctx.fromResults_res {c c' : Ctx} {id : Nat} (h : c.fromResults id = some c') : c'.res = c.res := by
  unfold Ctx.fromResults at h
  split at h
  · cases h
  · cases h; rfl
  · cases h; rfl

theorem Ctx.read_res (c : Ctx) : c.read.2.res = c.res := by
  unfold Ctx.read
  split
  · rfl
  · split
    · split <;> rfl
    · split <;> rfl

theorem Ctx.token_res (c : Ctx) : c.token.Spec True True fun x => x.2.res = c.res := by
  unfold Ctx.token
  split
  · rfl
  · split
    · have := c.read_res
      split
      · rename_i h; rw [h] at this; exact this
      · rename_i h
        rw [h] at this
        refine Res.Spec.bind (P := fun _ => True) ?_ fun _ _ => this
        unfold Res.index; split <;> trivial
    · refine Res.Spec.bind (P := fun _ => True) ?_ fun _ _ => rfl
      unfold Res.index; split <;> trivial

section
variable {env : Env} {R : Ptr → Prop} {input : List Rune} {f : Ptr → Nat → Match} {root : Ptr}

/-- What a parse call of `p` does to the records of the left recursive option of `x` at `off`. -/
structure Kept (x : Growing) (off : Nat) (p : Ptr) (c c' : Ctx) : Prop where
  pc : c'.res.pcount off x.d.id = c.res.pcount off x.d.id
  has : ∀ t, c'.res.Has off x.e.id t → c.res.Has off x.e.id t ∨
    (p = x.s ∧ c.offset = off ∧ c'.matchLast = true ∧ c'.offset = t)

theorem HoldsOn.kept {x : Growing} {off : Nat} {p : Ptr} {c c' : Ctx} (h : HoldsOn off x.d.id x.e.id c c') : Kept x off p c c' :=
  ⟨h.pc, fun t ht => Or.inl (h.has t ht)⟩

theorem Kept.keeps {x : Growing} {off : Nat} {p : Ptr} {c c' : Ctx} (h : Kept x off p c c') (hp : p = x.s → c.offset ≠ off) :
    HoldsOn off x.d.id x.e.id c c' := by
  refine ⟨h.pc, fun t ht => ?_⟩
  rcases h.has t ht with h | ⟨h1, h2, -⟩
  · exact h
  · exact absurd h2 (hp h1)

/-- The calls keep the records of left recursive options. -/
def RecF (env : Env) (R : Ptr → Prop) (rec : Ptr → Ctx → Res Ctx) : Prop :=
  ∀ a x off p c, R a → Growing.Of x env a → R p → c.res.pcount off x.d.id ≠ 0 → (rec p c).Spec True True (Kept x off p c)

theorem charParse_kept {x : Growing} {off : Nat} {p : Ptr} {neg : Bool} {cs : List Rune} {rs : List (Rune × Rune)} {c : Ctx} :
    (charParse neg cs rs c).Spec True True (Kept x off p c) := by
  unfold charParse
  refine Res.Spec.bind c.token_res ?_
  rintro ⟨tok, c'⟩ ht
  have key : ∀ c2 : Ctx, c2.res = c.res → Kept x off p c c2 := fun c2 h => (HoldsOn.of_res h).kept
  cases tok with
  | none =>
    simp only [Bool.false_eq_true, if_false]
    split
    · exact key _ ht
    · exact key _ ht
  | some t =>
    simp only
    split
    · exact key _ ht
    · split
      · exact key _ ht
      · exact key _ ht

theorem choicePass_kept {x : Growing} {a : Ptr} (hR : R a) (hx : x.Of env a) {rec : Ptr → Ctx → Res Ctx} (hrec : RecF env R rec)
    {off id from_ : Nat} (hid : x.e.id ≠ id) :
    ∀ (opts : List Ptr) (st : ChoiceSt), (∀ o ∈ opts, R o ∧ (o = x.s → from_ ≠ off)) → st.c.offset = from_ →
      st.c.res.pcount off x.d.id ≠ 0 →
      (choicePass rec id from_ opts st).Spec True True fun st' => HoldsOn off x.d.id x.e.id st.c st'.c ∧ st'.c.offset = from_
  | [], st, _, hf, _ => ⟨.refl .., hf⟩
  | o :: opts, st, ho, hf, hp => by
    unfold choicePass
    have ho' := ho o (by simp)
    refine Res.Spec.bind (hrec a x off o st.c hR hx ho'.1 hp) ?_
    intro c' hc'
    have h1 : HoldsOn off x.d.id x.e.id st.c c' := hc'.keeps (by rw [hf]; exact ho'.2)
    generalize hst1 : (if !c'.matchLast && decide (c'.failOffset > st.failOffset) then
          { st with failOffset := c'.failOffset, failing := c'.failing } else st) = st1
    simp only
    split
    · refine (choicePass_kept hR hx hrec hid opts { st1 with c := { c' with offset := from_ } } (fun o h => ho o (by simp [h])) rfl
        (by simp only; rw [h1.pc]; exact hp)).imp ?_
      intro st' h
      exact ⟨h1.trans (h.1.after rfl), h.2⟩
    · refine (choicePass_kept hR hx hrec hid opts { st1 with mtch := true, found := true, to := c'.offset, c := { c' with offset := from_, res := c'.res.setMatch from_ id c'.offset } }
        (fun o h => ho o (by simp [h])) rfl (by simp only [Results.pcount_setMatch]; rw [h1.pc]; exact hp)).imp ?_
      intro st' h
      exact ⟨h1.trans (HoldsOn.trans (.setMatch (c' := { c' with offset := from_, res := c'.res.setMatch from_ id c'.offset }) rfl fun h => hid h.2) h.1), h.2⟩

theorem choiceLoop_kept {x : Growing} {a : Ptr} (hR : R a) (hx : x.Of env a) {rec : Ptr → Ctx → Res Ctx} (hrec : RecF env R rec)
    {off id from_ : Nat} (hid : x.e.id ≠ id) {os : List Ptr} (ho : ∀ o ∈ os, R o ∧ (o = x.s → from_ ≠ off)) :
    ∀ (n : Nat) (st : ChoiceSt), st.c.offset = from_ → st.c.res.pcount off x.d.id ≠ 0 →
      (choiceLoop rec id from_ os n st).Spec True True fun st' => HoldsOn off x.d.id x.e.id st.c st'.c ∧ st'.c.offset = from_
  | 0, _, _, _ => trivial
  | n + 1, st, hf, hp => by
    unfold choiceLoop
    refine Res.Spec.bind (choicePass_kept hR hx hrec hid os { st with found := false } ho hf hp) ?_
    intro st' h
    split
    · refine (choiceLoop_kept hR hx hrec hid ho n st' h.2 (by rw [h.1.pc]; exact hp)).imp ?_
      intro st'' h'
      exact ⟨h.1.trans h'.1, h'.2⟩
    · exact h

theorem choiceParse_kept (K : Ctxt env R input f root) {x : Growing} {a p : Ptr} {d : PDef} {os : List Ptr} (hR : R a)
    (hx : x.Of env a) (hp : R p) (hd : env.defs[p]? = some d) (hk : d.kind = .choice os)
    {rec : Ptr → Ctx → Res Ctx} (hrec : RecF env R rec) {off lfuel : Nat} {c : Ctx} (hpc : c.res.pcount off x.d.id ≠ 0) :
    (choiceParse rec env.keywords lfuel p d os c).Spec True True (Kept x off p c) := by
  unfold choiceParse
  split
  · rename_i c' h
    exact (HoldsOn.of_res (Ctx.fromResults_res h)).kept
  · split
    · exact HoldsOn.kept (c' := c.fail c.offset) (HoldsOn.of_res rfl)
    · rename_i hnp
      have hne : ¬ (off = c.offset ∧ x.d.id = d.id) := by
        rintro ⟨rfl, h⟩
        rw [Bool.not_eq_true, Results.pending_false_iff, ← h] at hnp
        exact hpc hnp
      have hid : x.e.id ≠ d.id := by
        intro h
        have := K.ids (hx.reach K hR) hp hx.ds hd (by rw [hx.ks]; rfl) (by rw [hk]; rfl) h
        rw [← this, hx.ds] at hd
        cases hd
        rw [hx.ks] at hk; cases hk
      have ho : ∀ o ∈ os, R o ∧ (o = x.s → c.offset ≠ off) := by
        intro o ho
        refine ⟨K.closed.child hp hd (by rw [hk]; exact ho), ?_⟩
        rintro rfl h
        have := K.sole hx.recurs hp hd (by rw [hk]; exact ho)
        subst this
        rw [hx.da] at hd; cases hd
        exact hne ⟨h.symm, rfl⟩
      simp only
      have hm : HoldsOn off x.d.id x.e.id c { c with res := c.res.markPending c.offset d.id } := .mark rfl hne
      refine Res.Spec.bind (choiceLoop_kept hR hx hrec hid ho lfuel _ rfl (by simp only; rw [hm.pc]; exact hpc)) ?_
      intro st hst
      have h1 := hm.trans hst.1
      have fin : ∀ c2 : Ctx, c2.res = st.c.res ∨ c2.res = st.c.res.setNoMatch c.offset d.id →
          ((c2.res.unmarkPending c.offset d.id).bind fun r => .ok { c2 with res := r }).Spec True True (Kept x off p c) := by
        intro c2 h2
        have h3 : HoldsOn off x.d.id x.e.id st.c c2 := by
          rcases h2 with h2 | h2
          · exact .of_res h2
          · exact .setNoMatch h2
        refine Res.Spec.bind (HoldsOn.unmark (c := c2) (s := x.e.id) hne) ?_
        intro r hr
        exact (h1.trans (h3.trans hr)).kept
      split
      · rw [K.keywords hp hd hk]
        refine Res.Spec.bind (P := fun y => y = (false, st.c)) rfl ?_
        rintro _ rfl
        simp only [Bool.false_eq_true, if_false]
        split
        · exact fin _ (Or.inl rfl)
        · split
          · exact fin _ (Or.inl rfl)
          · exact fin _ (Or.inl rfl)
      · unfold choiceNoMatch
        simp only
        split
        · exact fin _ (Or.inr (by simp [Ctx.fail]))
        · exact fin _ (Or.inr rfl)

theorem isKeywordLoop_kept {x : Growing} {a : Ptr} (hR : R a) (hx : x.Of env a) {rec : Ptr → Ctx → Res Ctx} (hrec : RecF env R rec)
    {off from_ to : Nat} : ∀ (kws : List Ptr) (c : Ctx), (∀ k ∈ kws, R k ∧ k ≠ x.s) → c.res.pcount off x.d.id ≠ 0 →
      (isKeywordLoop rec from_ to kws c).Spec True True fun y => HoldsOn off x.d.id x.e.id c y.2
  | [], c, _, _ => .refl ..
  | k :: kws, c, hk, hp => by
    unfold isKeywordLoop
    have hk' := hk k (by simp)
    refine Res.Spec.bind (hrec a x off k { c with offset := from_ } hR hx hk'.1 hp) ?_
    intro c' hc'
    have h1 : HoldsOn off x.d.id x.e.id c c' := (hc'.keeps fun h => absurd h hk'.2).after rfl
    split
    · exact h1
    · refine (isKeywordLoop_kept hR hx hrec kws c' (fun k h => hk k (by simp [h])) (by rw [h1.pc]; exact hp)).imp ?_
      intro y hy
      exact h1.trans hy

theorem seqItemFailed_kept {x : Growing} {off : Nat} {p : Ptr} {d : PDef} {ac : Bool} {from_ to : Nat} {c0 c : Ctx}
    (hk : HoldsOn off x.d.id x.e.id c0 c) (h : ¬ (off = from_ ∧ x.d.id = d.id)) :
    (seqItemFailed p d ac from_ to c).Spec True True (Kept x off p c0) := by
  have fin : ∀ c2 : Ctx, c2.res = c.res → (unmarkUnless ac from_ d.id c2).Spec True True (Kept x off p c0) := by
    intro c2 h2
    refine (HoldsOn.unmarkUnless (s := x.e.id) h).imp ?_
    intro c' hc'
    exact (hk.trans ((HoldsOn.of_res h2).trans hc'.1)).kept
  unfold seqItemFailed
  simp only
  split
  · rename_i c' hc'
    have := Ctx.fromResults_res hc'
    split
    · exact fin _ this
    · exact fin _ this
  · exact fin _ (by simp [Ctx.fail])

theorem seqLoop_kept {x : Growing} {a : Ptr} (hR : R a) (hx : x.Of env a) {rec : Ptr → Ctx → Res Ctx} (hrec : RecF env R rec)
    {off from_ : Nat} {p : Ptr} {d : PDef} {ac : Bool} (h : ¬ (off = from_ ∧ x.d.id = d.id)) {c0 : Ctx} :
    ∀ (n : Nat) (its : List (Ptr × (Int × Int))) (k to : Nat) (c : Ctx), (∀ y ∈ its, R y.1 ∧ y.1 ≠ x.s) →
      HoldsOn off x.d.id x.e.id c0 c → c.res.pcount off x.d.id ≠ 0 →
      (seqLoop rec p d ac from_ n its k to c).Spec True True fun
        | .complete _ c => HoldsOn off x.d.id x.e.id c0 c
        | .returned c => Kept x off p c0 c
  | 0, _, _, _, _, _, _, _ => trivial
  | n + 1, [], k, to, c, _, hc, _ => hc
  | n + 1, (item, (mn, mx)) :: rest, k, to, c, hi, hc, hp => by
    unfold seqLoop
    have hi' := hi (item, (mn, mx)) (by simp)
    refine Res.Spec.bind (hrec a x off item c hR hx hi'.1 hp) ?_
    intro c' hc'
    have h1 : HoldsOn off x.d.id x.e.id c c' := hc'.keeps fun h => absurd h hi'.2
    have hp' : c'.res.pcount off x.d.id ≠ 0 := by rw [h1.pc]; exact hp
    have hrest : ∀ y ∈ rest, R y.1 ∧ y.1 ≠ x.s := fun y hy => hi y (by simp [hy])
    split
    · split
      · exact seqLoop_kept hR hx hrec h n rest 0 to c' hrest (hc.trans h1) hp'
      · refine Res.Spec.bind (seqItemFailed_kept (hc.trans h1) h) ?_
        intro c2 h2
        exact h2
    · simp only
      generalize (if decide (c'.offset > to) = true then k + 1 else k) = k'
      split
      · exact seqLoop_kept hR hx hrec h n rest 0 _ c' hrest (hc.trans h1) hp'
      · exact seqLoop_kept hR hx hrec h n _ _ _ c' hi (hc.trans h1) hp'

theorem setGeneralizations_kept {off a s from_ to : Nat} : ∀ (gens : List Nat) (c : Ctx), (∀ g ∈ gens, s ≠ g) →
    HoldsOn off a s c { c with res := setGeneralizations from_ to gens c.res }
  | [], c, _ => .refl ..
  | g :: gens, c, h => by
    have h1 : HoldsOn off a s c { c with res := if c.res.pending from_ g then c.res.setMatch from_ g to else c.res } := by
      split
      · exact .setMatch rfl fun h' => h g (by simp) h'.2
      · exact .refl ..
    exact h1.trans (setGeneralizations_kept gens { c with res := if c.res.pending from_ g then c.res.setMatch from_ g to else c.res }
      fun g hg => h g (by simp [hg]))

theorem seqParse_kept (K : Ctxt env R input f root) {x : Growing} {a p : Ptr} {d : PDef} {is : List Ptr} {rs : List (Int × Int)}
    {ac : Bool} (hR : R a) (hx : x.Of env a) (hp : R p) (hd : env.defs[p]? = some d) (hk : d.kind = .seq is rs ac)
    {rec : Ptr → Ctx → Res Ctx} (hrec : RecF env R rec) {off lfuel : Nat} {c : Ctx} (hpc : c.res.pcount off x.d.id ≠ 0) :
    (seqParse rec env.keywords lfuel p d is rs ac c).Spec True True (Kept x off p c) := by
  unfold seqParse
  split
  · exact HoldsOn.kept (c' := c.fail c.offset) (HoldsOn.of_res rfl)
  · have hid : x.d.id ≠ d.id := by
      intro h
      have := K.ids hR hp hx.da hd (by rw [hx.ka]; rfl) (by rw [hk]; rfl) h
      rw [← this, hx.da] at hd
      cases hd
      rw [hx.ka] at hk; cases hk
    have hne : ¬ (off = c.offset ∧ x.d.id = d.id) := fun h => hid h.2
    have hm : HoldsOn off x.d.id x.e.id c (if ac then c else { c with res := c.res.markPending c.offset d.id }) := by
      split
      · exact .refl ..
      · exact .mark rfl hne
    simp only
    refine Res.Spec.bind (seqLoop_kept hR hx hrec hne lfuel (is.zip rs) 0 c.offset _ ?_ hm (by rw [hm.pc]; exact hpc)) ?_
    · intro y hy
      have hy := (List.of_mem_zip (show (y.1, y.2) ∈ is.zip rs from hy)).1
      refine ⟨K.closed.child hp hd (by rw [hk]; exact hy), ?_⟩
      intro h
      exact K.item_not_tail hp hd hk hy ⟨a, h ▸ hx.recurs⟩
    · rintro (⟨to, c1⟩ | c1) hc1
      · simp only at hc1 ⊢
        have hkw : (if d.commit.noKeyword = true then isKeyword rec env.keywords c1 c.offset to else .ok (false, c1)).Spec True True
            fun y => HoldsOn off x.d.id x.e.id c1 y.2 := by
          split
          · rename_i hkw
            have hks : ∀ k ∈ env.keywords, R k ∧ k ≠ x.s := by
              intro k hkk
              refine ⟨K.closed.keyword hkk, ?_⟩
              rintro rfl
              rcases K.noKw hp hd hkw with h | ⟨-, h⟩
              · rw [h] at hkk; cases hkk
              · exact K.keyword_not_tail hkk (h _ hkk) ⟨a, hx.recurs⟩
            unfold isKeyword
            refine Res.Spec.bind (isKeywordLoop_kept hR hx hrec env.keywords { c1 with offsetLimit := (to : Int) } hks
              (by simp only; rw [hc1.pc]; exact hpc)) ?_
            rintro ⟨b, c2⟩ h2
            exact (h2.trans (HoldsOn.of_res (c' := { c2 with offsetLimit := c1.offsetLimit }) rfl)).after rfl
          · exact .refl ..
        refine Res.Spec.bind hkw ?_
        rintro ⟨kw, c2⟩ h2
        simp only at h2 ⊢
        have h3 := hc1.trans h2
        split
        · refine (HoldsOn.unmarkUnless (s := x.e.id) hne).imp ?_
          intro c' hc'
          exact (h3.trans ((HoldsOn.of_res (by simp [Ctx.fail])).trans hc'.1)).kept
        · have hgen : ∀ g ∈ d.gens, x.e.id ≠ g := by
            intro g hg h
            obtain ⟨q, e, hq, he, h4, h5⟩ := K.gens hp hd (by rw [hk]; rfl) hg
            obtain ⟨os, ho⟩ := h5.isChoice he
            have := K.ids (hx.reach K hR) hq hx.ds he (by rw [hx.ks]; rfl) (by rw [ho]; rfl) (h.trans h4.symm)
            rw [← this, hx.ds] at he
            cases he
            rw [hx.ks] at ho; cases ho
          have h4 := h3.trans (setGeneralizations_kept (a := x.d.id) (from_ := c.offset) (to := to) (off := off) d.gens c2 hgen)
          have fin : ∀ c3 : Ctx, c3.res = (setGeneralizations c.offset to d.gens c2.res).setMatch c.offset d.id to →
              c3.matchLast = true → c3.offset = to → (unmarkUnless ac c.offset d.id c3).Spec True True (Kept x off p c) := by
            intro c3 h5 h6 h7
            refine (HoldsOn.unmarkUnless (s := x.e.id) hne).imp ?_
            rintro c' ⟨h8, h9, h10⟩
            refine ⟨?_, ?_⟩
            · rw [h8.pc, h5, Results.pcount_setMatch]
              exact h4.pc
            · intro t ht
              have := h8.has t ht
              rw [h5] at this
              rcases (Results.has_setMatch ..).1 this with h | ⟨h11, h12, h13⟩
              · exact Or.inl (h4.has t h)
              · right
                have hs := K.ids (hx.reach K hR) hp hx.ds hd (by rw [hx.ks]; rfl) (by rw [hk]; rfl) h12
                exact ⟨hs.symm, h11.symm, by rw [h9, h6], by rw [h10, h7, h13]⟩
          split
          · exact fin _ rfl rfl rfl
          · exact fin _ rfl rfl rfl
      · exact hc1

theorem parse_kept (K : Ctxt env R input f root) : ∀ n, RecF env R (parse env n)
  | 0 => fun _ _ _ _ _ _ _ _ _ => trivial
  | n + 1 => by
    intro a x off p c hR hx hp hpc
    obtain ⟨d, hd⟩ := K.closed.def_ hp
    unfold parse
    simp only [hd]
    cases hk : d.kind with
    | char neg cs rs => exact charParse_kept
    | choice os => exact choiceParse_kept K hR hx hp hd hk (parse_kept K n) hpc
    | seq is rs ac => exact seqParse_kept K hR hx hp hd hk (parse_kept K n) hpc

end
end Treerack
