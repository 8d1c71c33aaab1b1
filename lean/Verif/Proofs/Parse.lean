import Verif.Proofs.Invariant

/-
The basic lemma: every parse call preserves the invariant, for every interpretation of matches.
-/

namespace Treerack

section
variable {env : Env} {R : Ptr → Prop} {input : List Rune} {rend : Option Nat}
  {D : Ptr → Nat → Nat → Prop} {H : Nat → Nat → Nat → Prop} {pb ob : Prop}

theorem charParse_spec (I : Interp env R input D H) (hpb : replacementChar ∈ input → pb) {p : Ptr}
    {d : PDef} {neg : Bool} {cs : List Rune} {rs : List (Rune × Rune)} (hR : R p)
    (hd : env.defs[p]? = some d) (hk : d.kind = .char neg cs rs) {c : Ctx}
    (h : Inv env input rend H c) :
    (charParse neg cs rs c).Spec pb ob (Post env input rend D H p c) := by
  unfold charParse
  refine Res.Spec.bind ((token_spec h).mono hpb id fun _ h => h) ?_
  rintro ⟨tok, c'⟩ ht
  have hoff := ht.offset
  simp only at hoff
  have fin : ∀ c'' : Ctx, (c'' = c' ∨ c'' = { c' with failOffset := c'.offset, failing := none }) →
      Post env input rend D H p c (c''.fail c''.offset) := by
    intro c'' hc''
    have hf : Frame c' c'' := by
      rcases hc'' with rfl | rfl
      · exact .refl _
      · exact .failOffset _ _ _
    have hi : Inv env input rend H c'' := by
      rcases hc'' with rfl | rfl
      · exact ht.inv
      · have := ht.inv.off
        exact ht.inv.setFail (by omega) (by simpa using this) (by simp)
    have ho : c''.offset = c'.offset := by rcases hc'' with rfl | rfl <;> rfl
    refine ⟨(ht.frame.trans hf).trans (.fail _ _), hi.fail hi.off, by simp [Ctx.fail], ?_⟩
    intro _
    simp [Ctx.fail, ho, hoff]
  cases tok with
  | none =>
    simp only [Bool.false_eq_true, if_false]
    split
    · exact fin _ (Or.inr rfl)
    · exact fin _ (Or.inl rfl)
  | some t =>
    obtain ⟨hin, hlt⟩ := ht.some t rfl
    simp only at hlt ⊢
    split
    · rename_i hm
      refine ⟨ht.frame.trans (.success _ _), ht.inv.success (by simp; omega), ?_, by simp [Ctx.success]⟩
      intro _
      simp only [Ctx.success, hoff]
      refine ⟨by omega, I.char hR hd hk hin hm, ?_⟩
      split <;> omega
    · split
      · exact fin _ (Or.inr rfl)
      · exact fin _ (Or.inl rfl)

/-- What is assumed of nested calls, for parsers in `Q` and for contexts with the pending marks `pc`. -/
def RecOK (env : Env) (input : List Rune) (rend : Option Nat) (D : Ptr → Nat → Nat → Prop)
    (H : Nat → Nat → Nat → Prop) (pb ob : Prop) (rec : Ptr → Ctx → Res Ctx) (Q : Ptr → Prop)
    (pc : Nat → Nat → Nat) : Prop :=
  ∀ q c, Q q → Inv env input rend H c → (∀ o i, c.res.pcount o i = pc o i) →
    (rec q c).Spec pb ob (Post env input rend D H q c)

/-- The attempts to parse the keywords did not succeed. -/
def NoneOf (env : Env) (input : List Rune) (rend : Option Nat) (H : Nat → Nat → Nat → Prop) (rec : Ptr → Ctx → Res Ctx)
    (from_ to : Nat) (kws : List Ptr) : Prop :=
  ∀ k ∈ kws, ∃ c c', Inv env input rend H c ∧ c.offset = from_ ∧ c.offsetLimit = (to : Int) ∧ rec k c = .ok c' ∧
    (c'.matchLast && c'.offset == to) = false

theorem isKeywordLoop_spec {rec : Ptr → Ctx → Res Ctx} {pc : Nat → Nat → Nat} {Q : Ptr → Prop}
    (hrec : RecOK env input rend D H pb ob rec Q pc) (from_ to : Nat) :
    ∀ (kws : List Ptr) (c : Ctx), (∀ k ∈ kws, Q k) → Inv env input rend H c →
      from_ ≤ c.tokens.length → (∀ o i, c.res.pcount o i = pc o i) → c.offsetLimit = (to : Int) →
      (isKeywordLoop rec from_ to kws c).Spec pb ob (fun x => Frame c x.2 ∧ Inv env input rend H x.2 ∧
        (x.1 = false → NoneOf env input rend H rec from_ to kws))
  | [], c, _, h, _, _, _ => ⟨.refl c, h, fun _ => by simp [NoneOf]⟩
  | kw :: kws, c, hq, h, hf, hpc, hl => by
    unfold isKeywordLoop
    refine Res.Spec.bind (Res.Spec.with_eq
      (hrec kw { c with offset := from_ } (hq kw (by simp)) (h.setOffset hf) hpc)) ?_
    rintro c' ⟨hc', heq⟩
    have hfr : Frame c c' := (Frame.offset c from_).trans hc'.frame
    split
    · exact ⟨hfr, hc'.inv, by simp⟩
    · rename_i hno
      refine (isKeywordLoop_spec hrec from_ to kws c' (fun k hk => hq k (by simp [hk])) hc'.inv
        (Nat.le_trans hf hfr.tokLen) (fun o i => (hfr.pc o i).trans (hpc o i)) (by rw [hfr.lim]; exact hl)).imp ?_
      intro x hx
      refine ⟨hfr.trans hx.1, hx.2.1, fun hb k hk => ?_⟩
      rcases List.mem_cons.1 hk with rfl | hk
      · exact ⟨{ c with offset := from_ }, c', h.setOffset hf, rfl, hl, heq, by simpa using hno⟩
      · exact hx.2.2 hb k hk

theorem isKeyword_spec {rec : Ptr → Ctx → Res Ctx} {pc : Nat → Nat → Nat} {Q : Ptr → Prop}
    (hrec : RecOK env input rend D H pb ob rec Q pc) {from_ to : Nat} {kws : List Ptr} {c : Ctx}
    (hq : ∀ k ∈ kws, Q k) (h : Inv env input rend H c) (hf : from_ ≤ c.tokens.length)
    (hpc : ∀ o i, c.res.pcount o i = pc o i) :
    (isKeyword rec kws c from_ to).Spec pb ob (fun x => Frame c x.2 ∧ Inv env input rend H x.2 ∧
      (x.1 = false → NoneOf env input rend H rec from_ to kws)) := by
  unfold isKeyword
  refine Res.Spec.bind (isKeywordLoop_spec hrec from_ to kws { c with offsetLimit := (to : Int) } hq
    h.setLimit hf hpc rfl) ?_
  rintro ⟨b, c'⟩ ⟨hf', hi, hn⟩
  refine ⟨?_, hi.setLimit, hn⟩
  exact ⟨hf'.pc, hf'.has, hf'.noM, rfl, hf'.toks, hf'.cons, hf'.plen, hf'.err, hf'.eof⟩

theorem Inv.setMatch {c : Ctx} (h : Inv env input rend H c) {from_ id to : Nat} (h1 : from_ ≤ to)
    (h2 : to ≤ c.tokens.length) (h3 : H from_ id to) :
    Inv env input rend H { c with res := c.res.setMatch from_ id to } := by
  refine h.setRes ?_ (h.once.setMatch _ _ _)
  intro off i t ht
  rcases (Results.has_setMatch ..).1 ht with h' | ⟨rfl, rfl, rfl⟩
  · exact h.store off i t h'
  · exact ⟨h1, h2, h3⟩

theorem Inv.setNoMatch {c : Ctx} (h : Inv env input rend H c) {from_ id : Nat} :
    Inv env input rend H { c with res := c.res.setNoMatch from_ id } := by
  refine h.setRes ?_ (h.once.setNoMatch _ _)
  intro off i t ht
  exact h.store off i t ((Results.has_setNoMatch ..).1 ht)

theorem Frame.setMatch (c : Ctx) (from_ id to : Nat) :
    Frame c { c with res := c.res.setMatch from_ id to } where
  pc := fun _ _ => by simp
  has := fun _ _ _ h => (Results.has_setMatch ..).2 (Or.inl h)
  noM := fun _ _ h => by simpa using h
  lim := rfl
  toks := List.prefix_rfl
  cons := Nat.le_refl _
  plen := by simp [Results.isPending_setMatch]
  err := fun _ => ⟨rfl, rfl⟩
  eof := fun h => ⟨h, rfl⟩

theorem Frame.setNoMatch (c : Ctx) (from_ id : Nat) :
    Frame c { c with res := c.res.setNoMatch from_ id } where
  pc := fun _ _ => by simp
  has := fun _ _ _ h => by simpa using h
  noM := fun _ _ h => (Results.noM_setNoMatch ..).2 (Or.inl h)
  lim := rfl
  toks := List.prefix_rfl
  cons := Nat.le_refl _
  plen := by simp [Results.isPending_setNoMatch]
  err := fun _ => ⟨rfl, rfl⟩
  eof := fun h => ⟨h, rfl⟩

/-- Between marking and unmarking: the frame relative to the unmarked context. -/
theorem unmark_spec {c0 c : Ctx} {from_ id : Nat} (h : Inv env input rend H c)
    (hf : Frame { c0 with res := c0.res.markPending from_ id } c) :
    ∃ r, c.res.unmarkPending from_ id = .ok r ∧ Inv env input rend H { c with res := r } ∧
      Frame c0 { c with res := r } ∧ (∀ off i to, r.Has off i to ↔ c.res.Has off i to) ∧
      (∀ off i, r.NoM off i ↔ c.res.NoM off i) := by
  have hl : id < c.res.isPending.length := by
    have := hf.plen
    simp only [Results.length_markPending] at this
    omega
  obtain ⟨r, h1, h2, h3, h4, h5⟩ := Results.unmarkPending_spec c.res from_ id hl
  refine ⟨r, h1, ?_, ?_, fun _ _ _ => Results.Has.congr h2, fun _ _ => Results.NoM.congr h3⟩
  · refine h.setRes ?_ (h.once.congr h2)
    intro off i to ht
    exact h.store off i to ((Results.Has.congr h2).1 ht)
  · refine ⟨?_, ?_, ?_, hf.lim, hf.toks, hf.cons, ?_, hf.err, hf.eof⟩
    · intro off i
      simp only [h5, hf.pc, Results.pcount_markPending]
      omega
    · intro off i to ht
      exact (Results.Has.congr h2).2 (hf.has off i to ht)
    · intro off i ht
      exact (Results.NoM.congr h3).2 (hf.noM off i ht)
    · have := hf.plen
      simp only [Results.length_markPending] at this
      simp only [h4]; omega

/-- The invariant of the loops of a choice. -/
structure ChInv (env : Env) (input : List Rune) (rend : Option Nat) (D : Ptr → Nat → Nat → Prop)
    (H : Nat → Nat → Nat → Prop) (p : Ptr) (id from_ : Nat) (c1 : Ctx) (st : ChoiceSt) : Prop where
  frame : Frame c1 st.c
  inv : Inv env input rend H st.c
  off : st.c.offset = from_
  lo : -1 ≤ st.failOffset
  hi : st.failOffset ≤ (st.c.tokens.length : Int)
  failing : ∀ q, st.failing = some q → ∃ d, env.defs[q]? = some d
  mtch : st.mtch = true → from_ ≤ st.to ∧ st.to ≤ st.c.tokens.length ∧ D p from_ st.to ∧
    st.c.res.Has from_ id st.to ∧ st.to ≤ st.c.consumed

/-- How far the loop of a choice is from its end. -/
def chMeasure (L : Nat) (st : ChoiceSt) : Nat := if st.mtch then L - st.to else L + 1

theorem choicePass_spec (I : Interp env R input D H) {p : Ptr} {d : PDef} {os : List Ptr} (hR : R p)
    (hd : env.defs[p]? = some d) (hk : d.kind = .choice os) {rec : Ptr → Ctx → Res Ctx}
    {pc : Nat → Nat → Nat} {Q : Ptr → Prop} (hrec : RecOK env input rend D H pb ob rec Q pc)
    {from_ : Nat} {c1 : Ctx} (hpc : ∀ o i, c1.res.pcount o i = pc o i) :
    ∀ (opts : List Ptr) (st : ChoiceSt), (∀ o ∈ opts, Q o) → (∀ o ∈ opts, o ∈ os) →
      ChInv env input rend D H p d.id from_ c1 st →
      (choicePass rec d.id from_ opts st).Spec pb ob (fun st' =>
        ChInv env input rend D H p d.id from_ c1 st' ∧
        chMeasure input.length st' ≤ chMeasure input.length st ∧
        (st'.found = true → st.found = true ∨
          chMeasure input.length st' < chMeasure input.length st))
  | [], st, _, _, h => ⟨h, Nat.le_refl _, fun h => Or.inl h⟩
  | o :: opts, st, hQ, hos, h => by
    unfold choicePass
    refine Res.Spec.bind (hrec o st.c (hQ o (by simp)) h.inv
      (fun x i => (h.frame.pc x i).trans (hpc x i))) ?_
    intro c' hc'
    have hfr := h.frame.trans hc'.frame
    have htl := hc'.frame.tokLen
    have hol : from_ ≤ c'.tokens.length := by
      have := h.inv.off; rw [h.off] at this; omega
    -- the state after the error bookkeeping
    generalize hst1 : (if !c'.matchLast && decide (c'.failOffset > st.failOffset) then
          { st with failOffset := c'.failOffset, failing := c'.failing } else st) = st1
    have e1 : st1.mtch = st.mtch ∧ st1.to = st.to ∧ st1.found = st.found := by
      subst hst1; split <;> simp
    have e2 : -1 ≤ st1.failOffset ∧ st1.failOffset ≤ (c'.tokens.length : Int) ∧
        ∀ q, st1.failing = some q → ∃ d, env.defs[q]? = some d := by
      subst hst1
      split
      · exact ⟨hc'.inv.failLo, hc'.inv.failHi, hc'.inv.failing⟩
      · have := h.hi
        exact ⟨h.lo, by omega, h.failing⟩
    simp only
    split
    · have hn : ChInv env input rend D H p d.id from_ c1 { st1 with c := { c' with offset := from_ } } := by
        refine ⟨hfr.trans (.offset _ _), hc'.inv.setOffset hol, rfl, e2.1, e2.2.1, e2.2.2, ?_⟩
        intro hm
        simp only [e1.1] at hm
        obtain ⟨a1, a2, a3, a4, a5⟩ := h.mtch hm
        have := hc'.frame.cons
        simp only [e1.2.1]
        exact ⟨a1, by omega, a3, hc'.frame.has _ _ _ a4, by omega⟩
      refine (choicePass_spec I hR hd hk hrec hpc opts _ (fun o ho => hQ o (by simp [ho]))
        (fun o ho => hos o (by simp [ho])) hn).imp ?_
      intro st' hst'
      simpa only [chMeasure, e1.1, e1.2.1, e1.2.2] using hst'
    · rename_i hcond
      simp only [Bool.or_eq_true, Bool.not_eq_true', Bool.and_eq_true, decide_eq_true_eq, not_or,
        not_and, Bool.not_eq_false, e1.1, e1.2.1, Nat.not_le] at hcond
      obtain ⟨hm, hlen⟩ := hcond
      obtain ⟨b1, b2, b3⟩ := hc'.mtch hm
      rw [h.off] at b1 b2
      have b4 := hc'.inv.off
      have hDp : D p from_ c'.offset := I.choice hR hd hk (hos o (by simp)) b2
      have hH : H from_ d.id c'.offset := I.store hR hd (by rw [hk]; rfl) hDp
      have b5 := hc'.inv.tokens_length
      have hmeas : chMeasure input.length { st1 with mtch := true, found := true, to := c'.offset, c := { c' with offset := from_, res := c'.res.setMatch from_ d.id c'.offset } } < chMeasure input.length st := by
        simp only [chMeasure, if_true]
        by_cases hmt : st.mtch = true
        · have := hlen hmt
          simp [hmt]; omega
        · simp [hmt]; omega
      have hn : ChInv env input rend D H p d.id from_ c1 { st1 with mtch := true, found := true, to := c'.offset, c := { c' with offset := from_, res := c'.res.setMatch from_ d.id c'.offset } } := by
        refine ⟨(hfr.trans (.setMatch _ _ _ _)).trans (.offset _ _),
          (hc'.inv.setMatch b1 b4 hH).setOffset hol, rfl, e2.1, e2.2.1, e2.2.2, ?_⟩
        intro _
        exact ⟨b1, b4, hDp, (Results.has_setMatch ..).2 (Or.inr ⟨rfl, rfl, rfl⟩), b3⟩
      refine (choicePass_spec I hR hd hk hrec hpc opts _ (fun o ho => hQ o (by simp [ho]))
        (fun o ho => hos o (by simp [ho])) hn).imp ?_
      intro st' hst'
      exact ⟨hst'.1, by omega, fun _ => Or.inr (by omega)⟩

theorem choiceLoop_spec (I : Interp env R input D H) {p : Ptr} {d : PDef} {os : List Ptr} (hR : R p)
    (hd : env.defs[p]? = some d) (hk : d.kind = .choice os) {rec : Ptr → Ctx → Res Ctx}
    {pc : Nat → Nat → Nat} {Q : Ptr → Prop} (hrec : RecOK env input rend D H pb ob rec Q pc)
    {from_ : Nat} {c1 : Ctx} (hpc : ∀ o i, c1.res.pcount o i = pc o i) (hQ : ∀ o ∈ os, Q o) :
    ∀ (n : Nat) (st : ChoiceSt), (n ≤ chMeasure input.length st → ob) →
      ChInv env input rend D H p d.id from_ c1 st →
      (choiceLoop rec d.id from_ os n st).Spec pb ob
        (ChInv env input rend D H p d.id from_ c1)
  | 0, st, hob, _ => hob (Nat.zero_le _)
  | n + 1, st, hob, h => by
    unfold choiceLoop
    have h0 : ChInv env input rend D H p d.id from_ c1 { st with found := false } :=
      ⟨h.frame, h.inv, h.off, h.lo, h.hi, h.failing, h.mtch⟩
    refine Res.Spec.bind (choicePass_spec I hR hd hk hrec hpc os _ hQ (fun _ h => h) h0) ?_
    intro st' hst'
    split
    · rename_i hf
      have h3 := hst'.2.2 hf
      simp only [Bool.false_eq_true, false_or] at h3
      refine choiceLoop_spec I hR hd hk hrec hpc hQ n st' ?_ hst'.1
      intro hn
      apply hob
      have : chMeasure input.length { st with found := false } = chMeasure input.length st := rfl
      omega
    · exact hst'.1

theorem fromResults_spec (I : Interp env R input D H) {p : Ptr} {d : PDef} (hR : R p)
    (hd : env.defs[p]? = some d) (hk : d.kind.isChar = false) {c c' : Ctx}
    (h : Inv env input rend H c) (hc : c.fromResults d.id = some c') :
    Post env input rend D H p c c' := by
  unfold Ctx.fromResults at hc
  split at hc
  · cases hc
  · rename_i to hr
    cases hc
    have hh := ((Results.longestResult_some ..).1 hr).2.1
    obtain ⟨h1, h2, h3⟩ := h.store _ _ _ hh
    exact ⟨.success _ _, h.success h2, fun _ => ⟨h1, I.load hR hd hk h3, le_consumed_success _ _⟩,
      by simp [Ctx.success]⟩
  · cases hc
    exact ⟨.fail _ _, h.fail h.off, by simp [Ctx.fail], fun _ => rfl⟩

theorem choiceParse_spec (I : Interp env R input D H) {p : Ptr} {d : PDef} {os : List Ptr} (hR : R p)
    (hd : env.defs[p]? = some d) (hk : d.kind = .choice os) {rec : Ptr → Ctx → Res Ctx}
    {kws : List Ptr} {lfuel : Nat} {Q : Ptr → Prop} (hQ : ∀ o ∈ os, Q o) (hkw : ∀ k ∈ kws, Q k)
    (hlf : lfuel ≤ input.length + 1 → ob) {c : Ctx} (h : Inv env input rend H c)
    (hrec : c.res.pending c.offset d.id = false →
      RecOK env input rend D H pb ob rec Q (c.res.markPending c.offset d.id).pcount) :
    (choiceParse rec kws lfuel p d os c).Spec pb ob (Post env input rend D H p c) := by
  unfold choiceParse
  split
  · rename_i c' hc'
    exact fromResults_spec I hR hd (by rw [hk]; rfl) h hc'
  · split
    · exact ⟨.fail _ _, h.fail h.off, by simp [Ctx.fail], fun _ => rfl⟩
    · rename_i hp
      have hrec := hrec (by simpa using hp)
      simp only
      have hm : Inv env input rend H { c with res := c.res.markPending c.offset d.id } :=
        h.setRes (fun off id to ht => h.store off id to (by simpa using ht)) (h.once.markPending _ _)
      have hst : ChInv env input rend D H p d.id c.offset
          { c with res := c.res.markPending c.offset d.id }
          { c := { c with res := c.res.markPending c.offset d.id }, mtch := false, found := false,
            to := c.offset, failOffset := c.failOffset, failing := none } :=
        ⟨.refl _, hm, rfl, h.failLo, h.failHi, by simp, by simp⟩
      refine Res.Spec.bind (choiceLoop_spec I hR hd hk hrec (fun _ _ => rfl) hQ lfuel _
        (by simpa [chMeasure] using hlf) hst) ?_
      intro st hst
      have hol : c.offset ≤ st.c.tokens.length := Nat.le_trans h.off hst.frame.tokLen
      split
      · rename_i hmt
        obtain ⟨a1, a2, a3, a4, a5⟩ := hst.mtch hmt
        refine Res.Spec.bind (P := fun x => Frame st.c x.2 ∧ Inv env input rend H x.2) ?_ ?_
        · split
          · exact (isKeyword_spec hrec hkw hst.inv hol (fun o i => hst.frame.pc o i)).imp fun _ h => ⟨h.1, h.2.1⟩
          · exact ⟨.refl _, hst.inv⟩
        · rintro ⟨kw, c'⟩ ⟨hf, hi⟩
          have hfr := hst.frame.trans hf
          have htl := hf.tokLen
          simp only at htl
          simp only
          split
          · have hi2 := (hi.setFailing (ct := d.commit) ⟨d, hd⟩).fail (o := c.offset) (by simp; omega)
            have hf2 := (hfr.trans (Frame.setFailing c' d.commit p)).trans (.fail _ c.offset)
            obtain ⟨r, h1, h2, h3, -⟩ := unmark_spec hi2 hf2
            rw [h1]
            exact ⟨h3, h2, by simp [Ctx.fail], fun _ => rfl⟩
          · have key : ∀ fo f, -1 ≤ fo → fo ≤ (c'.tokens.length : Int) →
                (∀ q, f = some q → ∃ d, env.defs[q]? = some d) →
                ((({ c' with failOffset := fo, failing := f } : Ctx).success st.to).res.unmarkPending
                  c.offset d.id |>.bind fun r =>
                    .ok { ({ c' with failOffset := fo, failing := f } : Ctx).success st.to with res := r }).Spec
                  pb ob (Post env input rend D H p c) := by
              intro fo f g1 g2 g3
              have hi2 := (hi.setFail g1 g2 g3).success (o := st.to) (by simp; omega)
              have hf2 := (hfr.trans (Frame.failOffset c' fo f)).trans (.success _ st.to)
              obtain ⟨r, h1, h2, h3, -⟩ := unmark_spec hi2 hf2
              rw [h1]
              exact ⟨h3, h2, fun _ => ⟨a1, a3, le_consumed_success _ _⟩, by simp [Ctx.success]⟩
            have b1 := hst.hi
            have b2 := hst.frame.tokLen
            have b3 := h.failHi
            simp only at b2
            split
            · exact key _ _ hst.lo (by omega) hst.failing
            · split
              · exact key _ _ (by omega) (by omega) (by simp)
              · exact key _ _ h.failLo (by omega) h.failing
      · unfold choiceNoMatch
        simp only
        have key : ∀ c2 : Ctx, Inv env input rend H c2 → Frame st.c c2 →
            (((({ c2 with res := c2.res.setNoMatch c.offset d.id } : Ctx).fail c.offset).res.unmarkPending
              c.offset d.id).bind fun r =>
                .ok { (({ c2 with res := c2.res.setNoMatch c.offset d.id } : Ctx).fail c.offset) with
                  res := r }).Spec pb ob (Post env input rend D H p c) := by
          intro c2 g1 g2
          have := g2.tokLen
          have hi2 := (g1.setNoMatch (from_ := c.offset) (id := d.id)).fail (o := c.offset)
            (by simp; omega)
          have hf2 := ((hst.frame.trans g2).trans (Frame.setNoMatch c2 c.offset d.id)).trans
            (.fail _ c.offset)
          obtain ⟨r, h1, h2, h3, -⟩ := unmark_spec hi2 hf2
          rw [h1]
          exact ⟨h3, h2, by simp [Ctx.fail], fun _ => rfl⟩
        split
        · refine key _ ?_ ?_
          · exact (hst.inv.setFail hst.lo hst.hi hst.failing).setFailing ⟨d, hd⟩
          · exact (Frame.failOffset _ _ _).trans (.setFailing _ _ _)
        · exact key _ hst.inv (.refl _)

theorem setGeneralizations_once (from_ to : Nat) : ∀ (gens : List Nat) (r : Results), r.Once →
    (setGeneralizations from_ to gens r).Once
  | [], _, h => h
  | g :: gens, r, h => setGeneralizations_once from_ to gens _ (by
    simp only
    split
    · exact h.setMatch from_ g to
    · exact h)

theorem setGeneralizations_spec {c : Ctx} {from_ to : Nat} :
    ∀ (gens : List Nat) (r : Results), (∀ g ∈ gens, H from_ g to) →
      (∀ off id to, r.Has off id to → off ≤ to ∧ to ≤ c.tokens.length ∧ H off id to) →
      from_ ≤ to → to ≤ c.tokens.length →
      let r' := setGeneralizations from_ to gens r
      (∀ off id to, r'.Has off id to → off ≤ to ∧ to ≤ c.tokens.length ∧ H off id to) ∧
      (∀ off id to, r.Has off id to → r'.Has off id to) ∧
      (∀ off id, r'.NoM off id ↔ r.NoM off id) ∧ r'.isPending = r.isPending
  | [], r, _, h, _, _ => ⟨h, fun _ _ _ h => h, fun _ _ => Iff.rfl, rfl⟩
  | g :: gens, r, hg, h, h1, h2 => by
    have hstep : ∀ r1 : Results,
        r1 = (if r.pending from_ g then r.setMatch from_ g to else r) →
        (∀ off id to, r1.Has off id to → off ≤ to ∧ to ≤ c.tokens.length ∧ H off id to) ∧
        (∀ off id to, r.Has off id to → r1.Has off id to) ∧
        (∀ off id, r1.NoM off id ↔ r.NoM off id) ∧ r1.isPending = r.isPending := by
      intro r1 hr1
      split at hr1
      · subst hr1
        refine ⟨?_, fun off id t ht => (Results.has_setMatch ..).2 (Or.inl ht), fun _ _ => by simp,
          Results.isPending_setMatch ..⟩
        intro off id t ht
        rcases (Results.has_setMatch ..).1 ht with h' | ⟨rfl, rfl, rfl⟩
        · exact h off id t h'
        · exact ⟨h1, h2, hg _ (by simp)⟩
      · subst hr1
        exact ⟨h, fun _ _ _ h => h, fun _ _ => Iff.rfl, rfl⟩
    obtain ⟨a1, a2, a3, a4⟩ := hstep _ rfl
    obtain ⟨b1, b2, b3, b4⟩ := setGeneralizations_spec gens _ (fun g' hg' => hg g' (by simp [hg'])) a1 h1 h2
    exact ⟨b1, fun o i t h => b2 o i t (a2 o i t h), fun o i => (b3 o i).trans (a3 o i), b4.trans a4⟩

/-- The context in which the items of a sequence are parsed. -/
def seqMark (ac : Bool) (id : Nat) (c : Ctx) : Ctx :=
  if ac then c else { c with res := c.res.markPending c.offset id }

theorem unmarkUnless_spec {c0 c : Ctx} {ac : Bool} {id : Nat} (h : Inv env input rend H c)
    (hf : Frame (seqMark ac id c0) c) :
    ∃ c', unmarkUnless ac c0.offset id c = .ok c' ∧ Inv env input rend H c' ∧ Frame c0 c' ∧
      c'.offset = c.offset ∧ c'.matchLast = c.matchLast ∧ c'.consumed = c.consumed ∧
      c'.failOffset = c.failOffset ∧ c'.failing = c.failing ∧
      (∀ off i to, c'.res.Has off i to ↔ c.res.Has off i to) ∧
      (∀ off i, c'.res.NoM off i ↔ c.res.NoM off i) := by
  cases ac with
  | true =>
    exact ⟨c, rfl, h, hf, rfl, rfl, rfl, rfl, rfl, fun _ _ _ => Iff.rfl, fun _ _ => Iff.rfl⟩
  | false =>
    obtain ⟨r, h1, h2, h3, h4, h5⟩ := unmark_spec h hf
    refine ⟨{ c with res := r }, ?_, h2, h3, rfl, rfl, rfl, rfl, rfl, h4, h5⟩
    simp [unmarkUnless, h1]

theorem seqItemFailed_spec (I : Interp env R input D H) {p : Ptr} {d : PDef} {ac : Bool} (hR : R p)
    (hd : env.defs[p]? = some d) (hk : d.kind.isChar = false) {c0 c : Ctx} {to : Nat}
    (h : Inv env input rend H c) (hf : Frame (seqMark ac d.id c0) c) (hl : c0.offset ≤ c.tokens.length) :
    (seqItemFailed p d ac c0.offset to c).Spec pb ob (Post env input rend D H p c0) := by
  unfold seqItemFailed
  simp only
  have h0 := h.setOffset hl
  have hf0 := hf.trans (.offset c c0.offset)
  split
  · rename_i c' hc'
    have hp := fromResults_spec I hR hd hk h0 hc'
    have key : ∀ c2 : Ctx, Inv env input rend H c2 → Frame c' c2 → c2.offset = c'.offset →
        c2.matchLast = c'.matchLast → c2.consumed = c'.consumed →
        (unmarkUnless ac c0.offset d.id c2).Spec pb ob (Post env input rend D H p c0) := by
      intro c2 g1 g2 g3 g4 g5
      obtain ⟨c3, k1, k2, k3, k4, k5, k6, -⟩ := unmarkUnless_spec g1 ((hf0.trans hp.frame).trans g2)
      rw [k1]
      refine ⟨k3, k2, ?_, ?_⟩
      · intro hm
        rw [k5, g4] at hm
        rw [k4, g3, k6, g5]
        exact hp.mtch hm
      · intro hm
        rw [k5, g4] at hm
        rw [k4, g3]
        exact hp.fail hm
    split
    · refine key _ (hp.inv.setFail (by omega) (by omega) (by simp)) (.failOffset _ _ _) rfl rfl rfl
    · exact key _ hp.inv (.refl _) rfl rfl rfl
  · have hi2 := (h0.setFailing (ct := d.commit) ⟨d, hd⟩).fail (o := c0.offset) (by simpa using hl)
    have hf2 := (hf0.trans (Frame.setFailing _ d.commit p)).trans (.fail _ c0.offset)
    obtain ⟨c3, k1, k2, k3, k4, k5, k6, -⟩ := unmarkUnless_spec hi2 hf2
    rw [k1]
    refine ⟨k3, k2, ?_, ?_⟩
    · intro hm; rw [k5] at hm; simp [Ctx.fail] at hm
    · intro _; rw [k4]; rfl

/-- The result of the loop of a sequence. -/
def SeqPost (env : Env) (input : List Rune) (rend : Option Nat) (D : Ptr → Nat → Nat → Prop)
    (H : Nat → Nat → Nat → Prop) (p : Ptr) (ac : Bool) (id : Nat) (all : List (Ptr × (Int × Int)))
    (c0 : Ctx) : SeqOut → Prop
  | .complete to c => Frame (seqMark ac id c0) c ∧ Inv env input rend H c ∧ c0.offset ≤ to ∧
      to ≤ c.tokens.length ∧ c.offset = to ∧ Items D all c0.offset to
  | .returned c => Post env input rend D H p c0 c

theorem seqLoop_spec (I : Interp env R input D H) {p : Ptr} {d : PDef} {ac : Bool} (hR : R p)
    (hd : env.defs[p]? = some d) (hk : d.kind.isChar = false) {rec : Ptr → Ctx → Res Ctx}
    {Q : Ptr → Prop} {c0 : Ctx}
    (hrec : RecOK env input rend D H pb ob rec Q (seqMark ac d.id c0).res.pcount)
    {all : List (Ptr × (Int × Int))} :
    ∀ (n : Nat) (its : List (Ptr × (Int × Int))) (k to : Nat) (c : Ctx),
      (∀ x ∈ its, Q x.1) →
      (n ≤ its.length + (input.length - to) → ob) →
      Inv env input rend H c → Frame (seqMark ac d.id c0) c → c.offset = to → c0.offset ≤ to →
      (∀ x rest, its = x :: rest → x.2.2 > 0 → (k : Int) < x.2.2) →
      (∀ j, Rest D its k to j → Items D all c0.offset j) →
      (seqLoop rec p d ac c0.offset n its k to c).Spec pb ob
        (SeqPost env input rend D H p ac d.id all c0)
  | 0, its, k, to, c, _, hob, _, _, _, _, _, _ => hob (Nat.zero_le _)
  | n + 1, [], k, to, c, _, _, h, hf, ho, hle, _, hr => by
    have := h.off
    rw [ho] at this
    exact ⟨hf, h, hle, this, ho, hr to rfl⟩
  | n + 1, (item, (mn, mx)) :: rest, k, to, c, hQ, hob, h, hf, ho, hle, hcnt, hr => by
    have hcnt : mx > 0 → (k : Int) < mx := hcnt _ _ rfl
    unfold seqLoop
    refine Res.Spec.bind (hrec item c (hQ (item, (mn, mx)) (by simp)) h (fun o i => hf.pc o i)) ?_
    intro c' hc'
    have hfr := hf.trans hc'.frame
    have hQ' : ∀ x ∈ rest, Q x.1 := fun x hx => hQ x (by simp [hx])
    split
    · rename_i hm
      simp only [Bool.not_eq_true'] at hm
      have ho' := hc'.fail hm
      rw [ho] at ho'
      split
      · rename_i hmn
        refine seqLoop_spec I hR hd hk hrec n rest 0 to c' hQ' ?_ hc'.inv hfr ho' hle (by intro x r _ h; omega) ?_
        · intro hn; apply hob; simp only [List.length_cons]; omega
        · intro j hj
          apply hr
          refine ⟨0, to, .zero, ?_, Items.rest hj⟩
          left
          exact ⟨by simpa using hmn, fun hmx => by have := hcnt hmx; simp; omega⟩
      · refine Res.Spec.bind (seqItemFailed_spec I hR hd hk hc'.inv hfr ?_) fun _ h => h
        have := hc'.inv.off; omega
    · rename_i hm
      simp only [Bool.not_eq_true', Bool.not_eq_false] at hm
      obtain ⟨a1, a2, a3⟩ := hc'.mtch hm
      rw [ho] at a1 a2
      have a4 := hc'.inv.off
      have a5 := hc'.inv.tokens_length
      simp only
      by_cases hp : c'.offset > to
      · simp only [hp, decide_true, if_true, Bool.not_true, Bool.false_or]
        have hstep : ∀ j, Rest D ((item, (mn, mx)) :: rest) (k + 1) c'.offset j →
            Rest D ((item, (mn, mx)) :: rest) k to j := by
          rintro j ⟨n', m, b1, b2, b3⟩
          exact ⟨n' + 1, m, .succ a2 b1, by rw [show k + (n' + 1) = k + 1 + n' by omega]; exact b2, b3⟩
        split
        · rename_i hc
          simp only [Bool.and_eq_true, decide_eq_true_eq, beq_iff_eq] at hc
          refine seqLoop_spec I hR hd hk hrec n rest 0 _ c' hQ' ?_ hc'.inv hfr rfl (by omega)
            (by intro x r _ h; omega) ?_
          · intro hn; apply hob; simp only [List.length_cons]; omega
          · intro j hj
            apply hr; apply hstep
            refine ⟨0, _, .zero, ?_, Items.rest hj⟩
            by_cases hinv : mn ≤ mx
            · left; exact ⟨by have := hc.2; simp; omega, fun _ => by have := hc.2; simp; omega⟩
            · right; exact ⟨hc.1, by omega, by simpa using hc.2⟩
        · rename_i hc
          simp only [Bool.and_eq_true, decide_eq_true_eq, beq_iff_eq, not_and] at hc
          refine seqLoop_spec I hR hd hk hrec n _ (k + 1) _ c' hQ ?_ hc'.inv hfr rfl (by omega)
            ?_ (fun j hj => hr j (hstep j hj))
          · intro hn; apply hob; simp only [List.length_cons] at hn ⊢; omega
          · intro x r hx hmx
            cases hx
            have := hcnt hmx
            have := hc hmx
            simp only at *
            omega
      · have he : c'.offset = to := by omega
        simp only [hp, decide_false, Bool.not_false, Bool.true_or, if_true]
        rw [he] at a2
        refine seqLoop_spec I hR hd hk hrec n rest 0 _ c' hQ' ?_ hc'.inv hfr rfl (by omega)
          (by intro x r _ h; omega) ?_
        · intro hn; apply hob; simp only [List.length_cons]; omega
        · intro j hj
          apply hr
          by_cases hinv : mx > 0 ∧ mx < mn
          · refine ⟨(mx - k).toNat, to, Times.empties a2 _, ?_, Items.rest (by rw [← he]; exact hj)⟩
            right
            have := hcnt hinv.1
            exact ⟨hinv.1, hinv.2, by omega⟩
          · refine ⟨(mn - k).toNat, to, Times.empties a2 _, ?_, Items.rest (by rw [← he]; exact hj)⟩
            left
            refine ⟨by omega, fun hmx => ?_⟩
            have := hcnt hmx
            omega

theorem seqParse_spec (I : Interp env R input D H) {p : Ptr} {d : PDef} {is : List Ptr}
    {rs : List (Int × Int)} {ac : Bool} (hR : R p)
    (hd : env.defs[p]? = some d) (hk : d.kind = .seq is rs ac) {rec : Ptr → Ctx → Res Ctx}
    {kws : List Ptr} {lfuel m : Nat} {Q Q' : Ptr → Prop} (hQ : ∀ o ∈ is, Q o) (hrp : rec = parse env m)
    (hkws : kws = env.keywords) (hkw : d.commit.noKeyword = true → ∀ k ∈ kws, Q' k)
    (hlf : lfuel ≤ is.length + input.length → ob) {c : Ctx} (h : Inv env input rend H c)
    (hrec : (ac = false → c.res.pending c.offset d.id = false) →
      RecOK env input rend D H pb ob rec Q (seqMark ac d.id c).res.pcount)
    (hrec' : (ac = false → c.res.pending c.offset d.id = false) → d.commit.noKeyword = true →
      RecOK env input rend D H pb ob rec Q' (seqMark ac d.id c).res.pcount) :
    (seqParse rec kws lfuel p d is rs ac c).Spec pb ob (Post env input rend D H p c) := by
  have hk' : d.kind.isChar = false := by rw [hk]; rfl
  unfold seqParse
  split
  · exact ⟨.fail _ _, h.fail h.off, by simp [Ctx.fail], fun _ => rfl⟩
  · rename_i hp
    have hp : ac = false → c.res.pending c.offset d.id = false := by
      intro ha; simpa [ha] using hp
    have hrec := hrec hp
    have hrec' := hrec' hp
    have hmk : (if ac then c else { c with res := c.res.markPending c.offset d.id }) =
        seqMark ac d.id c := rfl
    simp only
    rw [hmk]
    have hm : Inv env input rend H (seqMark ac d.id c) := by
      unfold seqMark
      split
      · exact h
      · exact h.setRes (fun off id to ht => h.store off id to (by simpa using ht)) (h.once.markPending _ _)
    have hmo : (seqMark ac d.id c).offset = c.offset := by unfold seqMark; split <;> rfl
    refine Res.Spec.bind (seqLoop_spec I hR hd hk' hrec (all := is.zip rs) lfuel (is.zip rs) 0 c.offset _
      ?_ ?_ hm (.refl _) hmo (Nat.le_refl _) (by intro x r _ h; omega) (fun j hj => Items.rest hj)) ?_
    · intro x hx
      obtain ⟨a, b⟩ := x
      exact hQ _ (List.of_mem_zip hx).1
    · intro hn
      apply hlf
      have : (is.zip rs).length ≤ is.length := by simp; omega
      omega
    · intro out hout
      cases out with
      | returned c' => exact hout
      | complete to c' =>
        obtain ⟨hf, hi, hle, hto, hco, hitems⟩ := hout
        simp only
        refine Res.Spec.bind (P := fun x => Frame c' x.2 ∧ Inv env input rend H x.2 ∧
          (x.1 = false → d.commit.noKeyword = true → NoneOf env input rend H rec c.offset to kws)) ?_ ?_
        · split
          · rename_i hnk
            exact (isKeyword_spec (hrec' hnk) (hkw hnk) hi (by omega) (fun o i => hf.pc o i)).imp
              fun _ h => ⟨h.1, h.2.1, fun hb _ => h.2.2 hb⟩
          · rename_i hnk
            exact ⟨.refl _, hi, fun _ h => absurd h hnk⟩
        · rintro ⟨kw, c2⟩ ⟨hf2, hi2, hnone⟩
          have hfr := hf.trans hf2
          have htl := hf2.tokLen
          simp only at htl
          simp only
          split
          · have hi3 := (hi2.setFailing (ct := d.commit) ⟨d, hd⟩).fail (o := c.offset) (by simp; omega)
            have hf3 := (hfr.trans (Frame.setFailing _ d.commit p)).trans (.fail _ c.offset)
            obtain ⟨c3, k1, k2, k3, k4, k5, k6, -⟩ := unmarkUnless_spec hi3 hf3
            rw [k1]
            refine ⟨k3, k2, ?_, ?_⟩
            · intro hm; rw [k5] at hm; simp [Ctx.fail] at hm
            · intro _; rw [k4]; rfl
          · rename_i hkf
            have hD : D p c.offset to := I.seq hR hd hk hitems fun hnk k hkm => by
              obtain ⟨a, b, g1, g2, g3, g4, g5⟩ := hnone (by simpa using hkf) hnk k (by rw [hkws]; exact hkm)
              exact ⟨hle, rend, m, a, b, g1, g2, g3, by rw [← hrp]; exact g4, g5⟩
            have hg := setGeneralizations_spec (H := H) (c := c2) (from_ := c.offset) (to := to) d.gens c2.res
              (fun g hg => I.gens hR hd hk' hg hD) hi2.store hle (by omega)
            obtain ⟨g1, g2, g3, g4⟩ := hg
            have hi3 : Inv env input rend H { c2 with res := setGeneralizations c.offset to d.gens c2.res } :=
              hi2.setRes g1 (setGeneralizations_once _ _ _ _ hi2.once)
            have hf3 : Frame c2 { c2 with res := setGeneralizations c.offset to d.gens c2.res } :=
              ⟨fun o i => by simp [Results.pcount, g4], g2, fun o i h => (g3 o i).2 h, rfl,
                List.prefix_rfl, Nat.le_refl _, by simp [g4], fun _ => ⟨rfl, rfl⟩, fun h => ⟨h, rfl⟩⟩
            have key : ∀ c3 : Ctx, Inv env input rend H c3 → Frame c2 c3 →
                (unmarkUnless ac c.offset d.id
                  (({ c3 with res := c3.res.setMatch c.offset d.id to } : Ctx).success to)).Spec pb ob
                  (Post env input rend D H p c) := by
              intro c3 q1 q2
              have q3 := q2.tokLen
              have hi4 := (q1.setMatch hle (by omega) (I.store hR hd hk' hD)).success (o := to)
                (by simp; omega)
              have hf4 := ((hfr.trans q2).trans (Frame.setMatch c3 c.offset d.id to)).trans (.success _ to)
              obtain ⟨c5, k1, k2, k3, k4, k5, k6, -⟩ := unmarkUnless_spec hi4 hf4
              rw [k1]
              refine ⟨k3, k2, ?_, ?_⟩
              · intro _
                rw [k4, k6]
                exact ⟨hle, hD, le_consumed_success _ _⟩
              · intro hm; rw [k5] at hm; simp [Ctx.success] at hm
            split
            · exact key _ (hi3.setFail (by omega) (by omega) (by simp)) (hf3.trans (.failOffset _ _ _))
            · exact key _ hi3 hf3

/-! ### The recursion budget -/

/-- All pairs of an offset and an id. -/
def allPairs (L B : Nat) : List (Nat × Nat) :=
  (List.range (L + 1)).flatMap fun o => (List.range B).map fun i => (o, i)

theorem mem_allPairs {L B o i : Nat} : (o, i) ∈ allPairs L B ↔ o ≤ L ∧ i < B := by
  simp [allPairs, List.mem_flatMap]
  omega

/-- The number of pairs that are not marked as pending. -/
def free (L B : Nat) (pc : Nat → Nat → Nat) : Nat :=
  (allPairs L B).countP fun x => pc x.1 x.2 == 0

theorem countP_lt {α : Type} {p q : α → Bool} {l : List α} (h : ∀ x ∈ l, q x = true → p x = true)
    {a : α} (ha : a ∈ l) (hp : p a = true) (hq : q a = false) : l.countP q < l.countP p := by
  induction l with
  | nil => simp at ha
  | cons x l ih =>
    simp only [List.countP_cons]
    have hle : l.countP q ≤ l.countP p := List.countP_mono_left (fun y hy => h y (by simp [hy]))
    rcases List.mem_cons.1 ha with rfl | ha'
    · simp [hp, hq]; omega
    · have := ih (fun y hy => h y (by simp [hy])) ha'
      have hx := h x (by simp)
      by_cases hqx : q x = true
      · simp [hqx, hx hqx, this]
      · simp only [hqx]; simp; omega

theorem free_mark {L B : Nat} {r : Results} {o i : Nat} (ho : o ≤ L) (hi : i < B)
    (hp : r.pending o i = false) : free L B (r.markPending o i).pcount < free L B r.pcount := by
  unfold free
  refine countP_lt ?_ (mem_allPairs.2 ⟨ho, hi⟩) ?_ ?_
  · intro x _ hx
    simp only [Results.pcount_markPending, beq_iff_eq] at hx ⊢
    omega
  · simpa [Results.pending_false_iff] using hp
  · simp [Results.pcount_markPending]

/-- Plain character sequences that need a keyword check. -/
def PDef.rank (d : PDef) : Nat :=
  match d.kind with
  | .seq _ _ true => if d.commit.noKeyword then 1 else 0
  | _ => 0

theorem PDef.rank_le (d : PDef) : d.rank ≤ 1 := by
  unfold PDef.rank; split
  · split <;> omega
  · omega

/-- Bounds on the ids and on the length of sequences. -/
structure Bounds (env : Env) (R : Ptr → Prop) (B M : Nat) : Prop where
  id : ∀ {p d}, R p → env.defs[p]? = some d → d.kind.isChar = false → d.id < B
  len : ∀ {p d is rs ac}, R p → env.defs[p]? = some d → d.kind = .seq is rs ac → is.length ≤ M

/-- A sufficient recursion budget. -/
def Enough (env : Env) (L B M : Nat) (p : Ptr) (pc : Nat → Nat → Nat) (n : Nat) : Prop :=
  ∀ d, env.defs[p]? = some d →
    (if d.kind.isChar then 1 else 3 * free L B pc + (L + M + 5) + d.rank) ≤ n

theorem free_congr {L B : Nat} {pc pc' : Nat → Nat → Nat} (h : ∀ o i, pc o i = pc' o i) :
    free L B pc = free L B pc' := by
  have : pc = pc' := by funext o i; exact h o i
  rw [this]

/-- The basic lemma about parsing. -/
theorem parse_spec (C : Closed env R) (I : Interp env R input D H) {B M : Nat} (hb : Bounds env R B M) :
    ∀ (n : Nat) (p : Ptr) (c : Ctx), R p → Inv env input rend H c →
      (parse env n p c).Spec (replacementChar ∈ input)
        (¬ Enough env input.length B M p c.res.pcount n) (Post env input rend D H p c)
  | 0, p, c, hR, _ => by
    intro he
    obtain ⟨d, hd⟩ := C.def_ hR
    have := he d hd
    split at this <;> omega
  | n + 1, p, c, hR, h => by
    obtain ⟨d, hd⟩ := C.def_ hR
    unfold parse
    simp only [hd]
    -- nested calls
    have hchild : ∀ (Q : Ptr → Prop) (pc : Nat → Nat → Nat), (∀ q, Q q → R q) →
        (∀ q, Q q → Enough env input.length B M p c.res.pcount (n + 1) →
          Enough env input.length B M q pc n) →
        RecOK env input rend D H (replacementChar ∈ input)
          (¬ Enough env input.length B M p c.res.pcount (n + 1)) (parse env n) Q pc := by
      intro Q pc hQR hQE q c' hq hc' hpc'
      refine (parse_spec C I hb n q c' (hQR q hq) hc').mono (fun h => h) ?_ (fun _ h => h)
      intro hne he
      apply hne
      intro d' hd'
      have := hQE q hq he d' hd'
      rw [free_congr hpc']
      exact this
    have hol : c.offset ≤ input.length := Nat.le_trans h.off h.tokens_length
    cases hk : d.kind with
    | char neg cs rs => exact charParse_spec I (fun h => h) hR hd hk h
    | choice os =>
      have hfuel : n + 1 ≤ input.length + 1 →
          ¬ Enough env input.length B M p c.res.pcount (n + 1) := by
        intro hn he
        have := he d hd
        simp [hk, PKind.isChar] at this
        omega
      refine choiceParse_spec I hR hd hk (Q := R) (fun o ho => C.child hR hd (by rw [hk]; exact ho))
        (fun k hk => C.keyword hk) hfuel h ?_
      intro hp
      refine hchild R _ (fun _ h => h) ?_
      intro q hq he d' hd'
      have h1 := he d hd
      have h2 := free_mark hol (hb.id hR hd (by rw [hk]; rfl)) hp
      have h3 := d'.rank_le
      simp only [hk, PKind.isChar, Bool.false_eq_true, if_false] at h1
      split <;> omega
    | seq is rs ac =>
      have hlen := hb.len hR hd hk
      have hfuel : n + 1 ≤ is.length + input.length →
          ¬ Enough env input.length B M p c.res.pcount (n + 1) := by
        intro hn he
        have := he d hd
        simp [hk, PKind.isChar] at this
        omega
      cases ac with
      | false =>
        have hrec : (false = false → c.res.pending c.offset d.id = false) →
            RecOK env input rend D H (replacementChar ∈ input)
              (¬ Enough env input.length B M p c.res.pcount (n + 1)) (parse env n) R
              (seqMark false d.id c).res.pcount := by
          intro hp
          refine hchild R _ (fun _ h => h) ?_
          intro q hq he d' hd'
          have h1 := he d hd
          have h2 := free_mark hol (hb.id hR hd (by rw [hk]; rfl)) (hp rfl)
          have h3 := d'.rank_le
          simp only [hk, PKind.isChar, Bool.false_eq_true, if_false] at h1
          have h4 : (seqMark false d.id c).res = c.res.markPending c.offset d.id := rfl
          rw [h4]
          split <;> omega
        exact seqParse_spec I hR hd hk (Q := R) (Q' := R)
          (fun o ho => C.child hR hd (by rw [hk]; exact ho)) rfl rfl (fun _ k hk => C.keyword hk) hfuel h hrec
          (fun h _ => hrec h)
      | true =>
        have hsm : (seqMark true d.id c).res.pcount = c.res.pcount := rfl
        refine seqParse_spec I hR hd hk
          (Q := fun q => R q ∧ ∃ d', env.defs[q]? = some d' ∧ d'.kind.isChar = true)
          (Q' := fun q => q ∈ env.keywords)
          (fun o ho => ⟨C.child hR hd (by rw [hk]; exact ho), C.chars hR hd hk ho⟩)
          rfl rfl (fun _ k hk => hk) hfuel h ?_ ?_
        · intro _
          refine hchild _ _ (fun _ h => h.1) ?_
          rintro q ⟨-, d', hd', hc⟩ he d'' hd''
          rw [hd'] at hd''
          cases hd''
          have h1 := he d hd
          simp only [hk, PKind.isChar, Bool.false_eq_true, if_false] at h1
          simp only [hc, if_true]; omega
        · intro _ hnk
          refine hchild _ _ (fun _ h => C.keyword h) ?_
          intro q hq he d' hd'
          have h1 := he d hd
          have hrk : d.rank = 1 := by simp [PDef.rank, hk, hnk]
          have hrk' : d'.rank = 0 := by
            unfold PDef.rank
            split
            · rename_i hk'
              simp [C.kwflags hq hd' hk']
            · rfl
          simp only [hk, PKind.isChar, Bool.false_eq_true, if_false, hrk] at h1
          rw [hsm, hrk']
          split <;> omega

end
end Treerack
