import Verif.Proofs.Spec
import Verif.Model.Builder

/-
How the reader ends is not observed before the parser gets there.
-/

namespace Treerack

def Ctx.setEnd (r : Option Nat) (c : Ctx) : Ctx := { c with readerEnd := r }
def ChoiceSt.setEnd (r : Option Nat) (st : ChoiceSt) : ChoiceSt := { st with c := st.c.setEnd r }
def SeqOut.ctx : SeqOut → Ctx
  | .complete _ c => c
  | .returned c => c
def SeqOut.setEnd (r : Option Nat) : SeqOut → SeqOut
  | .complete to c => .complete to (c.setEnd r)
  | .returned c => .returned (c.setEnd r)

/-- The run `x` starts in the context `c0`, whose reader ends with the error `k`; `x'` is the same run with
another ending of the reader.  They are the same unless the error was read. -/
def Tr (k : Nat) {α : Type} (c0 : Ctx) (get : α → Ctx) (f : α → α) (x x' : Res α) : Prop :=
  ∀ a, x = .ok a → (get a).readerEnd = some k ∧
    (c0.readErr = some (.readErr k) → (get a).readErr = some (.readErr k)) ∧
    ((get a).readErr = some (.readErr k) ∨ x' = .ok (f a))

variable {k : Nat} {r : Option Nat}

theorem Tr.ok {α : Type} {c0 : Ctx} {get : α → Ctx} {f : α → α} {a b : α}
    (h0 : b = f a) (h1 : (get a).readerEnd = some k) (h2 : (get a).readErr = c0.readErr) :
    Tr k c0 get f (.ok a) (.ok b) := by
  intro a' ha
  cases ha
  exact ⟨h1, fun h => h2.trans h, Or.inr (by rw [h0])⟩

theorem Tr.bind {α β : Type} {c0 : Ctx} {get : α → Ctx} {f : α → α} {get' : β → Ctx} {f' : β → β}
    {x x' : Res α} {g g' : α → Res β} (h : Tr k c0 get f x x')
    (hg : ∀ a, (get a).readerEnd = some k → Tr k (get a) get' f' (g a) (g' (f a))) :
    Tr k c0 get' f' (x.bind g) (x'.bind g') := by
  intro b hb
  obtain ⟨a, ha, hb⟩ := Res.bind_eq_ok hb
  obtain ⟨h1, h2, h3⟩ := h a ha
  obtain ⟨k1, k2, k3⟩ := hg a h1 b hb
  refine ⟨k1, fun h => k2 (h2 h), ?_⟩
  rcases h3 with h3 | h3
  · exact Or.inl (k2 h3)
  · rw [h3]; exact k3

theorem Tr.start {α : Type} {c0 c1 : Ctx} {get : α → Ctx} {f : α → α} {x x' : Res α}
    (h : Tr k c1 get f x x') (he : c1.readErr = c0.readErr) : Tr k c0 get f x x' := by
  intro a ha
  obtain ⟨h1, h2, h3⟩ := h a ha
  exact ⟨h1, fun h => h2 (he.trans h), h3⟩

/-- Something that does not touch the context. -/
theorem Tr.bindRes {α β : Type} {c0 : Ctx} {get : β → Ctx} {f : β → β} {y : Res α} {g g' : α → Res β}
    (hg : ∀ a, Tr k c0 get f (g a) (g' a)) : Tr k c0 get f (y.bind g) (y.bind g') := by
  intro b hb
  obtain ⟨a, rfl, hb⟩ := Res.bind_eq_ok hb
  exact hg a b hb

/-- The condition on the nested calls. -/
def RecTr (k : Nat) (r : Option Nat) (rec : Ptr → Ctx → Res Ctx) : Prop :=
  ∀ p c, c.readerEnd = some k → Tr k c id (Ctx.setEnd r) (rec p c) (rec p (c.setEnd r))

theorem token_tr (c : Ctx) (hc : c.readerEnd = some k) :
    Tr k c Prod.snd (fun x => (x.1, x.2.setEnd r)) c.token (c.setEnd r).token := by
  unfold Ctx.token
  change Tr k c _ _ (if (c.offset : Int) == c.offsetLimit then _ else if c.offset == c.readOffset then _ else _)
    (if (c.offset : Int) == c.offsetLimit then _ else if c.offset == c.readOffset then _ else _)
  by_cases h1 : ((c.offset : Int) == c.offsetLimit) = true
  · rw [if_pos h1, if_pos h1]; exact .ok rfl hc rfl
  · rw [if_neg h1, if_neg h1]
    by_cases h2 : (c.offset == c.readOffset) = true
    · rw [if_pos h2, if_pos h2]
      unfold Ctx.read
      change Tr k c _ _ (match (if (c.eof || c.readErr.isSome) = true then _ else _ : Bool × Ctx) with
        | (false, c') => _ | (true, c') => _)
        (match (if (c.eof || c.readErr.isSome) = true then _ else _ : Bool × Ctx) with
        | (false, c') => _ | (true, c') => _)
      by_cases h3 : (c.eof || c.readErr.isSome) = true
      · rw [if_pos h3, if_pos h3]; exact .ok rfl hc rfl
      · rw [if_neg h3, if_neg h3]
        simp only [Bool.or_eq_true, not_or, Option.not_isSome_iff_eq_none] at h3
        simp only [Ctx.setEnd]
        cases hr : c.reader with
        | nil =>
          simp only [hc]
          intro a ha
          cases ha
          exact ⟨rfl, fun h => rfl, Or.inl rfl⟩
        | cons t rest =>
          simp only
          by_cases h4 : (t == replacementChar) = true
          · simp only [h4, if_true]
            intro a ha
            cases ha
            exact ⟨hc, fun h => (by rw [h3.2] at h; cases h), Or.inr rfl⟩
          · simp only [h4]
            exact .bindRes fun a => .ok rfl hc rfl
    · rw [if_neg h2, if_neg h2]
      exact .bindRes fun a => .ok rfl hc rfl

theorem charParse_tr (neg : Bool) (cs : List Rune) (rs : List (Rune × Rune)) (c : Ctx)
    (hc : c.readerEnd = some k) :
    Tr k c id (Ctx.setEnd r) (charParse neg cs rs c) (charParse neg cs rs (c.setEnd r)) := by
  unfold charParse
  refine Tr.bind (token_tr c hc) ?_
  rintro ⟨t, c1⟩ h1
  simp only at h1 ⊢
  have key : ∀ b : Bool, Tr k c1 id (Ctx.setEnd r)
      (if b then .ok (c1.success (c1.offset + 1)) else
        .ok (Ctx.fail (if (c1.offset : Int) > c1.failOffset then { c1 with failOffset := c1.offset, failing := none } else c1)
          (if (c1.offset : Int) > c1.failOffset then { c1 with failOffset := c1.offset, failing := none } else c1).offset))
      (if b then .ok ((c1.setEnd r).success ((c1.setEnd r).offset + 1)) else
        .ok (Ctx.fail (if ((c1.setEnd r).offset : Int) > (c1.setEnd r).failOffset then { c1.setEnd r with failOffset := (c1.setEnd r).offset, failing := none } else c1.setEnd r)
          (if ((c1.setEnd r).offset : Int) > (c1.setEnd r).failOffset then { c1.setEnd r with failOffset := (c1.setEnd r).offset, failing := none } else c1.setEnd r).offset)) := by
    intro b
    cases b
    · simp only [Bool.false_eq_true, if_false]
      by_cases h : (c1.offset : Int) > c1.failOffset
      · have h' : ((c1.setEnd r).offset : Int) > (c1.setEnd r).failOffset := h
        rw [if_pos h, if_pos h']; exact .ok rfl h1 rfl
      · have h' : ¬ ((c1.setEnd r).offset : Int) > (c1.setEnd r).failOffset := h
        rw [if_neg h, if_neg h']; exact .ok rfl h1 rfl
    · exact .ok rfl h1 rfl
  cases t with
  | none => exact key false
  | some t => exact key (matchChar cs rs neg t)

theorem isKeywordLoop_tr {rec : Ptr → Ctx → Res Ctx} (hrec : RecTr k r rec) (from_ to : Nat) :
    ∀ (kws : List Ptr) (c : Ctx), c.readerEnd = some k →
      Tr k c Prod.snd (fun x => (x.1, x.2.setEnd r)) (isKeywordLoop rec from_ to kws c)
        (isKeywordLoop rec from_ to kws (c.setEnd r))
  | [], c, hc => .ok rfl hc rfl
  | kw :: kws, c, hc => by
    unfold isKeywordLoop
    refine Tr.bind ((hrec kw { c with offset := from_ } hc).start rfl) ?_
    intro c1 h1
    change Tr k c1 _ _ (if (c1.matchLast && c1.offset == to) = true then _ else _)
      (if (c1.matchLast && c1.offset == to) = true then _ else _)
    split
    · exact .ok rfl h1 rfl
    · exact isKeywordLoop_tr hrec from_ to kws c1 h1

theorem isKeyword_tr {rec : Ptr → Ctx → Res Ctx} (hrec : RecTr k r rec) (kws : List Ptr) (c : Ctx)
    (from_ to : Nat) (hc : c.readerEnd = some k) :
      Tr k c Prod.snd (fun x => (x.1, x.2.setEnd r)) (isKeyword rec kws c from_ to)
        (isKeyword rec kws (c.setEnd r) from_ to) := by
  unfold isKeyword
  refine Tr.bind ((isKeywordLoop_tr hrec from_ to kws { c with offsetLimit := (to : Int) } hc).start rfl) ?_
  rintro ⟨b, c1⟩ h1
  exact .ok rfl h1 rfl

theorem choicePass_tr {rec : Ptr → Ctx → Res Ctx} (hrec : RecTr k r rec) (id_ from_ : Nat) :
    ∀ (os : List Ptr) (st : ChoiceSt), st.c.readerEnd = some k →
      Tr k st.c ChoiceSt.c (ChoiceSt.setEnd r) (choicePass rec id_ from_ os st)
        (choicePass rec id_ from_ os (st.setEnd r))
  | [], st, hc => .ok rfl hc rfl
  | o :: os, st, hc => by
    unfold choicePass
    refine Tr.bind ((hrec o st.c hc).start rfl) ?_
    intro c1 h1
    simp only [id_eq] at h1
    dsimp only
    change Tr k c1 _ _ _ (if (!c1.matchLast || _) = true then _ else _)
    by_cases ha : (!c1.matchLast && decide (c1.failOffset > st.failOffset)) = true
    · have ha' : (!(c1.setEnd r).matchLast && decide ((c1.setEnd r).failOffset > (st.setEnd r).failOffset)) = true := ha
      simp only [ha, ha', if_true]
      by_cases hb : (!c1.matchLast || (st.mtch && decide (c1.offset ≤ st.to))) = true
      · have hb' : (!c1.matchLast || ((st.setEnd r).mtch && decide ((c1.setEnd r).offset ≤ (st.setEnd r).to))) = true := hb
        rw [if_pos hb, if_pos hb']
        exact (choicePass_tr hrec id_ from_ os _ h1).start rfl
      · have hb' : ¬ (!c1.matchLast || ((st.setEnd r).mtch && decide ((c1.setEnd r).offset ≤ (st.setEnd r).to))) = true := hb
        rw [if_neg hb, if_neg hb']
        exact (choicePass_tr hrec id_ from_ os _ h1).start rfl
    · have ha' : ¬ (!(c1.setEnd r).matchLast && decide ((c1.setEnd r).failOffset > (st.setEnd r).failOffset)) = true := ha
      simp only [if_neg ha, if_neg ha']
      by_cases hb : (!c1.matchLast || (st.mtch && decide (c1.offset ≤ st.to))) = true
      · have hb' : (!c1.matchLast || ((st.setEnd r).mtch && decide ((c1.setEnd r).offset ≤ (st.setEnd r).to))) = true := hb
        rw [if_pos hb, if_pos hb']
        exact (choicePass_tr hrec id_ from_ os _ h1).start rfl
      · have hb' : ¬ (!c1.matchLast || ((st.setEnd r).mtch && decide ((c1.setEnd r).offset ≤ (st.setEnd r).to))) = true := hb
        rw [if_neg hb, if_neg hb']
        exact (choicePass_tr hrec id_ from_ os _ h1).start rfl

theorem choiceLoop_tr {rec : Ptr → Ctx → Res Ctx} (hrec : RecTr k r rec) (id_ from_ : Nat) (os : List Ptr) :
    ∀ (n : Nat) (st : ChoiceSt), st.c.readerEnd = some k →
      Tr k st.c ChoiceSt.c (ChoiceSt.setEnd r) (choiceLoop rec id_ from_ os n st)
        (choiceLoop rec id_ from_ os n (st.setEnd r))
  | 0, st, hc => by intro a ha; cases ha
  | n + 1, st, hc => by
    unfold choiceLoop
    refine Tr.bind ((choicePass_tr hrec id_ from_ os { st with found := false } hc).start rfl) ?_
    intro st1 h1
    change Tr k st1.c _ _ (if st1.found = true then _ else _) (if st1.found = true then _ else _)
    split
    · exact choiceLoop_tr hrec id_ from_ os n st1 h1
    · exact .ok rfl h1 rfl

theorem setFailing_setEnd (c : Ctx) (ct : Commit) (p : Ptr) :
    (c.setEnd r).setFailing ct p = (c.setFailing ct p).setEnd r := by
  unfold Ctx.setFailing
  change (if (c.failing == none && ct.reports) = true then _ else _) = _
  split <;> rfl

theorem setFailing_same (c : Ctx) (ct : Commit) (p : Ptr) :
    (c.setFailing ct p).readErr = c.readErr ∧ (c.setFailing ct p).readerEnd = c.readerEnd ∧
    (c.setFailing ct p).res = c.res := by
  unfold Ctx.setFailing
  split <;> exact ⟨rfl, rfl, rfl⟩

theorem unmark_tr (c : Ctx) (o i : Nat) (hc : c.readerEnd = some k) :
    Tr k c id (Ctx.setEnd r) ((c.res.unmarkPending o i).bind fun r => .ok { c with res := r })
      (((c.setEnd r).res.unmarkPending o i).bind fun r' => .ok { c.setEnd r with res := r' }) :=
  .bindRes fun _ => .ok rfl hc rfl

theorem choiceNoMatch_tr (p : Ptr) (d : PDef) (from_ : Nat) (ifo : Int) (st : ChoiceSt)
    (hc : st.c.readerEnd = some k) :
    Tr k st.c id (Ctx.setEnd r) (choiceNoMatch p d from_ ifo st) (choiceNoMatch p d from_ ifo (st.setEnd r)) := by
  unfold choiceNoMatch
  dsimp only
  change Tr k st.c _ _ _ (Res.bind (Results.unmarkPending (Ctx.res (Ctx.fail _ _)) from_ d.id) _)
  by_cases h : st.failOffset > ifo
  · have h' : (st.setEnd r).failOffset > ifo := h
    simp only [if_pos h, if_pos h']
    have := setFailing_setEnd (r := r) { st.c with failOffset := st.failOffset, failing := st.failing } d.commit p
    have e : Ctx.setFailing { (st.setEnd r).c with failOffset := (st.setEnd r).failOffset, failing := (st.setEnd r).failing } d.commit p =
      (Ctx.setFailing { st.c with failOffset := st.failOffset, failing := st.failing } d.commit p).setEnd r := this
    rw [e]
    have hs := setFailing_same { st.c with failOffset := st.failOffset, failing := st.failing } d.commit p
    generalize Ctx.setFailing { st.c with failOffset := st.failOffset, failing := st.failing } d.commit p = c1 at hs
    exact (unmark_tr (Ctx.fail { c1 with res := c1.res.setNoMatch from_ d.id } from_) from_ d.id
      (hs.2.1.trans hc)).start hs.1
  · have h' : ¬ (st.setEnd r).failOffset > ifo := h
    simp only [if_neg h, if_neg h']
    exact (unmark_tr (Ctx.fail { st.c with res := st.c.res.setNoMatch from_ d.id } from_) from_ d.id hc).start rfl

theorem fromResults_setEnd (c : Ctx) (id_ : Nat) : (c.setEnd r).fromResults id_ = (c.fromResults id_).map (Ctx.setEnd r) := by
  unfold Ctx.fromResults
  change (match c.res.longestResult c.offset id_ with | none => _ | some (some to) => _ | some none => _) = _
  cases c.res.longestResult c.offset id_ with
  | none => rfl
  | some x => cases x <;> rfl

theorem fromResults_same {c c' : Ctx} {id_ : Nat} (h : c.fromResults id_ = some c') :
    c'.readerEnd = c.readerEnd ∧ c'.readErr = c.readErr := by
  unfold Ctx.fromResults at h
  split at h
  · cases h
  · cases h; exact ⟨rfl, rfl⟩
  · cases h; exact ⟨rfl, rfl⟩

theorem ifKeyword_tr {rec : Ptr → Ctx → Res Ctx} (hrec : RecTr k r rec) (b : Bool) (kws : List Ptr) (c : Ctx)
    (from_ to : Nat) (hc : c.readerEnd = some k) :
      Tr k c Prod.snd (fun x => (x.1, x.2.setEnd r))
        (if b then isKeyword rec kws c from_ to else .ok (false, c))
        (if b then isKeyword rec kws (c.setEnd r) from_ to else .ok (false, c.setEnd r)) := by
  cases b
  · exact .ok rfl hc rfl
  · exact isKeyword_tr hrec kws c from_ to hc

theorem choiceParse_tr {rec : Ptr → Ctx → Res Ctx} (hrec : RecTr k r rec) (kws : List Ptr) (n : Nat)
    (p : Ptr) (d : PDef) (os : List Ptr) (c : Ctx) (hc : c.readerEnd = some k) :
    Tr k c id (Ctx.setEnd r) (choiceParse rec kws n p d os c) (choiceParse rec kws n p d os (c.setEnd r)) := by
  unfold choiceParse
  rw [fromResults_setEnd]
  cases hf : c.fromResults d.id with
  | some c' =>
    have := fromResults_same hf
    exact .ok rfl (this.1.trans hc) this.2
  | none =>
    simp only [Option.map_none]
    change Tr k c _ _ (if c.res.pending c.offset d.id = true then _ else _) (if c.res.pending c.offset d.id = true then _ else _)
    split
    · exact .ok rfl hc rfl
    · refine Tr.bind ((choiceLoop_tr hrec d.id c.offset os n
        { c := { c with res := c.res.markPending c.offset d.id }, mtch := false, found := false,
          to := c.offset, failOffset := c.failOffset, failing := none } hc).start rfl) ?_
      intro st h1
      change Tr k st.c _ _ (if st.mtch = true then _ else _) (if st.mtch = true then _ else _)
      split
      · refine Tr.bind ((ifKeyword_tr hrec d.commit.noKeyword kws st.c c.offset st.to h1)) ?_
        rintro ⟨b, c1⟩ h2
        simp only at h2
        cases b
        · simp only [Bool.false_eq_true, if_false]
          change Tr k c1 _ _ _ (Res.bind (Results.unmarkPending (Ctx.res (Ctx.success
            (if st.failOffset > (st.to : Int) then _ else if (st.to : Int) > c.failOffset then _ else _) st.to)) c.offset d.id) _)
          by_cases ha : st.failOffset > (st.to : Int)
          · have ha' : (st.setEnd r).failOffset > ((st.setEnd r).to : Int) := ha
            simp only [if_pos ha, if_pos ha']
            exact (unmark_tr (Ctx.success { c1 with failOffset := st.failOffset, failing := st.failing } st.to) c.offset d.id h2).start rfl
          · have ha' : ¬ (st.setEnd r).failOffset > ((st.setEnd r).to : Int) := ha
            simp only [if_neg ha, if_neg ha']
            by_cases hb : (st.to : Int) > c.failOffset
            · have hb' : ((st.setEnd r).to : Int) > (c.setEnd r).failOffset := hb
              simp only [if_pos hb, if_pos hb']
              exact (unmark_tr (Ctx.success { c1 with failOffset := -1, failing := none } st.to) c.offset d.id h2).start rfl
            · have hb' : ¬ ((st.setEnd r).to : Int) > (c.setEnd r).failOffset := hb
              simp only [if_neg hb, if_neg hb']
              exact (unmark_tr (Ctx.success { c1 with failOffset := c.failOffset, failing := c.failing } st.to) c.offset d.id h2).start rfl
        · simp only [if_true]
          rw [setFailing_setEnd]
          have hs := setFailing_same c1 d.commit p
          generalize c1.setFailing d.commit p = c2 at hs
          exact (unmark_tr (c2.fail c.offset) c.offset d.id (hs.2.1.trans h2)).start hs.1
      · exact choiceNoMatch_tr p d c.offset c.failOffset st h1

theorem unmarkUnless_tr (b : Bool) (from_ id_ : Nat) (c : Ctx) (hc : c.readerEnd = some k) :
    Tr k c id (Ctx.setEnd r) (unmarkUnless b from_ id_ c) (unmarkUnless b from_ id_ (c.setEnd r)) := by
  unfold unmarkUnless
  cases b
  · exact unmark_tr c from_ id_ hc
  · exact .ok rfl hc rfl

theorem seqItemFailed_tr (p : Ptr) (d : PDef) (ac : Bool) (from_ to : Nat) (c : Ctx) (hc : c.readerEnd = some k) :
    Tr k c id (Ctx.setEnd r) (seqItemFailed p d ac from_ to c) (seqItemFailed p d ac from_ to (c.setEnd r)) := by
  unfold seqItemFailed
  dsimp only
  have := fromResults_setEnd (r := r) { c with offset := from_ } d.id
  have e : Ctx.fromResults { c.setEnd r with offset := from_ } d.id =
    (Ctx.fromResults { c with offset := from_ } d.id).map (Ctx.setEnd r) := this
  rw [e]
  cases hf : Ctx.fromResults { c with offset := from_ } d.id with
  | some c' =>
    have hs := fromResults_same hf
    simp only [Option.map_some]
    by_cases h : (to : Int) > c'.failOffset
    · have h' : (to : Int) > (c'.setEnd r).failOffset := h
      simp only [if_pos h, if_pos h']
      exact (unmarkUnless_tr ac from_ d.id { c' with failOffset := -1, failing := none } (hs.1.trans hc)).start hs.2
    · have h' : ¬ (to : Int) > (c'.setEnd r).failOffset := h
      simp only [if_neg h, if_neg h']
      exact (unmarkUnless_tr ac from_ d.id c' (hs.1.trans hc)).start hs.2
  | none =>
    simp only [Option.map_none]
    have e := setFailing_setEnd (r := r) { c with offset := from_ } d.commit p
    have e : Ctx.setFailing { c.setEnd r with offset := from_ } d.commit p =
      (Ctx.setFailing { c with offset := from_ } d.commit p).setEnd r := e
    rw [e]
    have hs := setFailing_same { c with offset := from_ } d.commit p
    generalize Ctx.setFailing { c with offset := from_ } d.commit p = c2 at hs
    exact (unmarkUnless_tr ac from_ d.id (c2.fail from_) (hs.2.1.trans hc)).start hs.1

theorem seqLoop_tr {rec : Ptr → Ctx → Res Ctx} (hrec : RecTr k r rec) (p : Ptr) (d : PDef) (ac : Bool)
    (from_ : Nat) : ∀ (n : Nat) (its : List (Ptr × (Int × Int))) (cnt to : Nat) (c : Ctx), c.readerEnd = some k →
      Tr k c SeqOut.ctx (SeqOut.setEnd r) (seqLoop rec p d ac from_ n its cnt to c)
        (seqLoop rec p d ac from_ n its cnt to (c.setEnd r))
  | 0, _, _, _, _, _ => by intro a ha; cases ha
  | n + 1, [], _, to, c, hc => .ok rfl hc rfl
  | n + 1, (item, (mn, mx)) :: rest, cnt, to, c, hc => by
    unfold seqLoop
    refine Tr.bind (hrec item c hc) ?_
    intro c1 h1
    simp only [id_eq] at h1 ⊢
    change Tr k c1 _ _ (if (!c1.matchLast) = true then _ else _) (if (!c1.matchLast) = true then _ else _)
    split
    · split
      · exact seqLoop_tr hrec p d ac from_ n _ _ _ c1 h1
      · refine Tr.bind (seqItemFailed_tr p d ac from_ to c1 h1) ?_
        intro c2 h2
        exact .ok rfl h2 rfl
    · change Tr k c1 _ _ (if (!decide (c1.offset > to) || _) = true then _ else _)
        (if (!decide (c1.offset > to) || _) = true then _ else _)
      have e : (c1.setEnd r).offset = c1.offset := rfl
      rw [e]
      split <;> split <;> exact seqLoop_tr hrec p d ac from_ n _ _ _ c1 h1

theorem seqParse_tr {rec : Ptr → Ctx → Res Ctx} (hrec : RecTr k r rec) (kws : List Ptr) (n : Nat)
    (p : Ptr) (d : PDef) (is : List Ptr) (rs : List (Int × Int)) (ac : Bool) (c : Ctx) (hc : c.readerEnd = some k) :
    Tr k c id (Ctx.setEnd r) (seqParse rec kws n p d is rs ac c) (seqParse rec kws n p d is rs ac (c.setEnd r)) := by
  unfold seqParse
  change Tr k c _ _ (if (!ac && c.res.pending c.offset d.id) = true then _ else _)
    (if (!ac && c.res.pending c.offset d.id) = true then _ else _)
  split
  · exact .ok rfl hc rfl
  · have hc1 : ∀ (c1 : Ctx), (c1.readerEnd = some k) → Tr k c1 SeqOut.ctx (SeqOut.setEnd r) _ _ :=
      fun c1 h => seqLoop_tr hrec p d ac c.offset n (is.zip rs) 0 c.offset c1 h
    have key : Tr k c SeqOut.ctx (SeqOut.setEnd r)
        (seqLoop rec p d ac c.offset n (is.zip rs) 0 c.offset
          (if ac then c else { c with res := c.res.markPending c.offset d.id }))
        (seqLoop rec p d ac c.offset n (is.zip rs) 0 c.offset
          (if ac then c.setEnd r else { c.setEnd r with res := (c.setEnd r).res.markPending c.offset d.id })) := by
      cases ac
      · exact (hc1 { c with res := c.res.markPending c.offset d.id } hc).start rfl
      · exact hc1 c hc
    refine Tr.bind key ?_
    intro out h1
    cases out with
    | returned c1 => exact .ok rfl h1 rfl
    | complete to c1 =>
      refine Tr.bind (ifKeyword_tr hrec d.commit.noKeyword kws c1 c.offset to h1) ?_
      rintro ⟨b, c2⟩ h2
      simp only at h2
      cases b
      · simp only [Bool.false_eq_true, if_false]
        by_cases h : (to : Int) > c2.failOffset
        · have h' : (to : Int) > (c2.setEnd r).failOffset := h
          simp only [if_pos h, if_pos h']
          exact (unmarkUnless_tr ac c.offset d.id (Ctx.success { c2 with
            res := (setGeneralizations c.offset to d.gens c2.res).setMatch c.offset d.id to,
            failOffset := -1, failing := none } to) h2).start rfl
        · have h' : ¬ (to : Int) > (c2.setEnd r).failOffset := h
          simp only [if_neg h, if_neg h']
          exact (unmarkUnless_tr ac c.offset d.id (Ctx.success { c2 with
            res := (setGeneralizations c.offset to d.gens c2.res).setMatch c.offset d.id to } to) h2).start rfl
      · simp only [if_true]
        rw [setFailing_setEnd]
        have hs := setFailing_same c2 d.commit p
        generalize c2.setFailing d.commit p = c3 at hs
        exact (unmarkUnless_tr ac c.offset d.id (c3.fail c.offset) (hs.2.1.trans h2)).start hs.1

theorem parse_tr (env : Env) : ∀ n, RecTr k r (parse env n)
  | 0 => by intro p c hc a ha; cases ha
  | n + 1 => by
    intro p c hc
    unfold parse
    cases env.defs[p]? with
    | none => intro a ha; cases ha
    | some d =>
      simp only
      cases d.kind with
      | char neg cs rs => exact charParse_tr neg cs rs c hc
      | choice os => exact choiceParse_tr (parse_tr env n) _ _ p d os c hc
      | seq is rs ac => exact seqParse_tr (parse_tr env n) _ _ p d is rs ac c hc

/-- With a reader that ends with the error `k`: a tree is built only after the end was reached; the
result is the error of the reader, or the same with any other ending. -/
theorem parseInput_reader {env : Env} {n : Nat} {root : Ptr} {input : List Rune} {e : Err}
    (h : parseInput env n root input (some k) = .ok (.error e)) :
    e = .readErr k ∨ ∀ r, parseInput env n root input r = .ok (.error e) := by
  by_cases hek : e = .readErr k
  · exact Or.inl hek
  · refine Or.inr fun r => ?_
    unfold parseInput at h ⊢
    obtain ⟨c, hc, h⟩ := Res.bind_eq_ok h
    obtain ⟨h1, -, h3⟩ := parse_tr (r := r) env n root (newContext input (some k)) rfl c hc
    simp only [id_eq] at h1 h3
    rcases h3 with h3 | h3
    · rw [h3] at h
      cases h
      exact absurd rfl hek
    · have h3 : parse env n root (newContext input r) = .ok (c.setEnd r) := h3
      rw [h3, Res.bind_ok]
      cases hre : c.readErr with
      | some e' =>
        rw [hre] at h
        cases h
        simp only [Ctx.setEnd, hre]
      | none =>
        rw [hre] at h
        have hre' : (c.setEnd r).readErr = none := hre
        rw [hre']
        simp only at h ⊢
        obtain ⟨⟨err, c'⟩, hf, h⟩ := Res.bind_eq_ok h
        have hpe : ∀ p, parseError env (c.setEnd r) p = parseError env c p := fun p => rfl
        unfold finalizeParse at hf
        simp only at hf
        have key : ∃ c2, finalizeParse env (c.setEnd r) root = .ok (some e, c2) := by
          unfold finalizeParse
          simp only
          cases hd : env.defs[root]? with
          | none => rw [hd] at hf; cases hf
          | some d =>
            rw [hd] at hf
            simp only at hf ⊢
            have hl : (c.setEnd r).res.longestResult 0 d.id = c.res.longestResult 0 d.id := rfl
            rw [hl]
            have hb : ∃ b : Bool, b = (match c.res.longestResult 0 d.id with
              | none => true
              | some none => true
              | some (some to) => decide (to < c.readOffset)) := ⟨_, rfl⟩
            obtain ⟨b, hb⟩ := hb
            have hf : (if b = true then (parseError env c (c.failing.getD root)).bind fun e => .ok (some e, c)
                else if c.read.2.eof = true then .ok (none, c.read.2) else
                  match c.read.2.readErr with
                  | some e => .ok (some e, c.read.2)
                  | none => (parseError env c.read.2 root).bind fun e => .ok (some e, c.read.2)) = .ok (err, c') := by
              rw [hb]; exact hf
            suffices h : ∃ c2, (if b = true then (parseError env (c.setEnd r) ((c.setEnd r).failing.getD root)).bind fun e => .ok (some e, c.setEnd r)
                else if (c.setEnd r).read.2.eof = true then .ok (none, (c.setEnd r).read.2) else
                  match (c.setEnd r).read.2.readErr with
                  | some e => .ok (some e, (c.setEnd r).read.2)
                  | none => (parseError env (c.setEnd r).read.2 root).bind fun e => .ok (some e, (c.setEnd r).read.2)) =
                  Res.ok (some e, c2) by
              rw [hb] at h; exact h
            split at hf
            · rename_i hb
              rw [if_pos hb]
              obtain ⟨e', he, hf⟩ := Res.bind_eq_ok hf
              cases hf
              cases h
              have he : parseError env (c.setEnd r) ((c.setEnd r).failing.getD root) = .ok e := he
              rw [he]
              exact ⟨_, rfl⟩
            · rename_i hb
              rw [if_neg hb]
              unfold Ctx.read at hf ⊢
              have hs : ((c.setEnd r).eof || (c.setEnd r).readErr.isSome) = (c.eof || c.readErr.isSome) := rfl
              rw [hs]
              by_cases heof : (c.eof || c.readErr.isSome) = true
              · have : c.eof = true := by simpa [hre] using heof
                rw [if_pos heof, if_pos this] at hf
                cases hf
                simp only at h
                obtain ⟨⟨ns, c2⟩, hb, h⟩ := Res.bind_eq_ok h
                simp only at h
                split at h <;> cases h
              · have he : c.eof = false := by simpa [hre] using heof
                rw [if_neg heof] at hf ⊢
                have hr' : (c.setEnd r).reader = c.reader := rfl
                rw [hr']
                cases hrd : c.reader with
                | nil =>
                  rw [hrd, h1] at hf
                  simp only [he] at hf
                  cases hf
                  cases h
                  exact absurd rfl hek
                | cons t rest =>
                  simp only [hrd] at hf
                  by_cases hrep : (t == replacementChar) = true
                  · simp only [hrep, if_true, he] at hf
                    cases hf
                    cases h
                    simp only [hrep, if_true, Ctx.setEnd, he]
                    exact ⟨_, rfl⟩
                  · simp only [hrep, he, hre] at hf
                    simp only [hrep, Ctx.setEnd, he, hre]
                    obtain ⟨e', he', hf⟩ := Res.bind_eq_ok hf
                    cases hf
                    cases h
                    have : ∀ (a b : Ctx), a.tokens = b.tokens → a.failing = b.failing → a.failOffset = b.failOffset →
                        a.consumed = b.consumed → parseError env a root = parseError env b root := by
                      intro a b h1 h2 h3 h4
                      simp only [parseError, h1, h2, h3, h4]
                    simp only [Bool.false_eq_true, if_false] at he' ⊢
                    have h9 : ∀ a : Ctx, a.tokens = c.tokens ++ [t] → a.failing = c.failing → a.failOffset = c.failOffset →
                        a.consumed = c.consumed → parseError env a root = .ok e :=
                      fun a a1 a2 a3 a4 => by
                        simp only [parseError, a1, a2, a3, a4]
                        exact he'
                    have h10 : ∀ a : Ctx, parseError env a root = .ok e →
                        ∃ c2, ((parseError env a root).bind fun e => Res.ok (some e, a)) = .ok (some e, c2) :=
                      fun a ha => ⟨a, by rw [ha]; rfl⟩
                    exact h10 _ (h9 _ rfl rfl rfl rfl)
        obtain ⟨c2, hk⟩ := key
        rw [hk]
        rfl

end Treerack
