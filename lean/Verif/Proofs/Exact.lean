import Verif.Proofs.Kept

/-
When only choices are left recursive, and only directly, and when only sequences are checked for keywords and the keywords are texts, parsing computes
the reference semantics, whatever has been recorded before.
-/

namespace Treerack
open Spec

section
variable {env : Env} {R : Ptr → Prop} {input : List Rune} {f : Ptr → Nat → Match} {root : Ptr}

/-! ### Characters -/

theorem charParse_exact (K : Ctxt env R input f root) {p : Ptr} {d : PDef} {neg : Bool} {cs : List Rune} {rs : List (Rune × Rune)}
    (hR : R p) (hd : env.defs[p]? = some d) (hk : d.kind = .char neg cs rs) {c : Ctx}
    (h : Inv env input none (fun _ _ _ => True) c) (hg : Good env R input f c.res) (hl : c.offsetLimit = -1) :
    (charParse neg cs rs c).Spec True True (Exact env R input f p c) := by
  unfold charParse
  refine Res.Spec.bind ((token_spec (ob := True) h).mono (fun _ => trivial) id fun _ h => h) ?_
  rintro ⟨tok, c'⟩ ht
  have hoff := ht.offset
  have hres := ht.res
  simp only at hoff hres
  have hrec : ∀ r, Recorded env f r p c.offset := by
    intro r e he hke
    rw [hd] at he; cases he
    simp [hk, PKind.isChar] at hke
  cases tok with
  | none =>
    have hnone : f p c.offset = none := by
      have hin := ht.none rfl (by omega) K.valid
      rcases K.char hR hd hk c.offset with ⟨t, h1, -⟩ | ⟨-, h1⟩
      · rw [hin] at h1; cases h1
      · exact h1
    simp only [Bool.false_eq_true, if_false]
    split
    · exact ⟨by simpa [Ctx.fail, hres] using hg, by simp [Ctx.fail], fun _ => hnone, hrec _⟩
    · exact ⟨by simpa [Ctx.fail, hres] using hg, by simp [Ctx.fail], fun _ => hnone, hrec _⟩
  | some t =>
    obtain ⟨hin, -⟩ := ht.some t rfl
    simp only
    split
    · rename_i hm
      refine ⟨by simpa [Ctx.success, hres] using hg, fun _ => ?_, by simp [Ctx.success], hrec _⟩
      rcases K.char hR hd hk c.offset with ⟨t', h1, -, h2⟩ | ⟨h1, -⟩
      · exact ⟨[], by simp [Ctx.success, hoff, h2]⟩
      · rw [h1 _ hin] at hm; cases hm
    · rename_i hm
      have hnone : f p c.offset = none := by
        rcases K.char hR hd hk c.offset with ⟨t', h1, h2, -⟩ | ⟨-, h1⟩
        · rw [hin] at h1; cases h1; exact absurd h2 hm
        · exact h1
      split
      · exact ⟨by simpa [Ctx.fail, hres] using hg, by simp [Ctx.fail], fun _ => hnone, hrec _⟩
      · exact ⟨by simpa [Ctx.fail, hres] using hg, by simp [Ctx.fail], fun _ => hnone, hrec _⟩

/-! ### Choices -/

/-- The state of a choice after the options `done`. -/
structure ChE (env : Env) (R : Ptr → Prop) (input : List Rune) (f : Ptr → Nat → Match) (Q : Nat → Prop) (id from_ : Nat)
    (c1 : Ctx) (done : List Ptr) (st : ChoiceSt) : Prop where
  frame : Frame c1 st.c
  inv : Inv env input none (fun _ _ _ => True) st.c
  off : st.c.offset = from_
  good : Good env R input f st.c.res
  recd : ∀ o ∈ done, Recorded env f st.c.res o from_
  no : st.mtch = false → ∀ o ∈ done, f o from_ = none
  fnd : st.found = true → st.mtch = true
  yes : st.mtch = true → Q st.to ∧
    (∀ o ∈ done, ∀ y, f o from_ = some y → y.1 ≤ st.to) ∧ st.c.res.Has from_ id st.to

theorem choicePass_exact (K : Ctxt env R input f root) {p : Ptr} {d : PDef} {os : List Ptr} (hR : R p)
    (hd : env.defs[p]? = some d) (hk : d.kind = .choice os) {rec : Ptr → Ctx → Res Ctx} (hrec : RecE env R input f rec)
    {c : Ctx} (hlim : c.offsetLimit = -1) (hpend : Pend env R p c.offset c.res) {Q : Nat → Prop}
    (hQ : ∀ o ∈ os, ¬ Recurs env.grammar p o → ∀ t ns, f o c.offset = some (t, ns) → Q t) :
    ∀ (opts done : List Ptr) (st : ChoiceSt), (∀ o ∈ opts, o ∈ os ∧ ¬ Recurs env.grammar p o) →
      ChE env R input f Q d.id c.offset { c with res := c.res.markPending c.offset d.id } done st →
      (choicePass rec d.id c.offset opts st).Spec True True
        (ChE env R input f Q d.id c.offset { c with res := c.res.markPending c.offset d.id } (done ++ opts))
  | [], done, st, _, h => by
    rw [List.append_nil]
    exact h
  | o :: opts, done, st, hos, h => by
    have hk' : d.kind.isChar = false := by rw [hk]; rfl
    obtain ⟨ho, hno⟩ := hos o (by simp)
    unfold choicePass
    refine Res.Spec.bind (hrec o st.c (K.closed.child hR hd (by rw [hk]; exact ho)) (K.option_not_tail hR hd hk ho hno) h.inv h.good ?_
      (by rw [h.frame.lim]; exact hlim)) ?_
    · rw [h.off]
      refine hpend.call K hR (choice_not_tail hd hk) hd hk' (.option (env.grammar_some hd) (by simp [hk, PKind.expr]) ho hno) ?_
      intro x i
      rw [h.frame.pc]
      simp only [Results.pcount_markPending]
      exact Nat.le_refl _
    rintro c' ⟨hc', he⟩
    have hfr := h.frame.trans hc'.frame
    have htl := hc'.frame.tokLen
    have hol : c.offset ≤ c'.tokens.length := by
      have := h.inv.off; rw [h.off] at this; omega
    have e_yes := he.yes
    have e_no := he.no
    have e_rec := he.recd
    rw [h.off] at e_yes e_no e_rec
    have hrecd : ∀ o' ∈ done ++ [o], Recorded env f c'.res o' c.offset := by
      intro o' ho'
      simp only [List.mem_append, List.mem_singleton] at ho'
      rcases ho' with ho' | rfl
      · exact (h.recd o' ho').mono hc'.frame.has
      · exact e_rec
    generalize hst1 : (if !c'.matchLast && decide (c'.failOffset > st.failOffset) then
          { st with failOffset := c'.failOffset, failing := c'.failing } else st) = st1
    have e1 : st1.mtch = st.mtch ∧ st1.to = st.to ∧ st1.found = st.found := by
      subst hst1; split <;> simp
    rw [show done ++ o :: opts = (done ++ [o]) ++ opts by simp]
    simp only
    split
    · rename_i hcond
      simp only [Bool.or_eq_true, Bool.not_eq_true', Bool.and_eq_true, decide_eq_true_eq, e1.1, e1.2.1] at hcond
      refine choicePass_exact K hR hd hk hrec hlim hpend hQ opts (done ++ [o]) _ (fun o ho => hos o (by simp [ho])) ?_
      refine ⟨hfr.trans (.offset _ _), hc'.inv.setOffset hol, rfl, he.good, hrecd, ?_, ?_, ?_⟩
      · intro hm
        simp only [e1.1] at hm
        intro o' ho'
        simp only [List.mem_append, List.mem_singleton] at ho'
        rcases ho' with ho' | rfl
        · exact h.no hm o' ho'
        · rcases hcond with hcond | hcond
          · exact e_no hcond
          · rw [hm] at hcond; cases hcond.1
      · simp only [e1.1, e1.2.2]
        exact h.fnd
      · intro hm
        simp only [e1.1] at hm
        simp only [e1.2.1]
        obtain ⟨y1, y2, y3⟩ := h.yes hm
        refine ⟨y1, ?_, hc'.frame.has _ _ _ y3⟩
        intro o' ho'
        simp only [List.mem_append, List.mem_singleton] at ho'
        rcases ho' with ho' | rfl
        · exact y2 o' ho'
        · intro y hy
          by_cases hml : c'.matchLast = true
          · obtain ⟨ns, h1⟩ := e_yes hml
            rw [h1] at hy; cases hy
            rcases hcond with hcond | hcond
            · rw [hml] at hcond; cases hcond
            · exact hcond.2
          · rw [e_no (by simpa using hml)] at hy; cases hy
    · rename_i hcond
      simp only [Bool.or_eq_true, Bool.not_eq_true', Bool.and_eq_true, decide_eq_true_eq, not_or,
        not_and, Bool.not_eq_false, e1.1, e1.2.1, Nat.not_le] at hcond
      obtain ⟨hm, hlen⟩ := hcond
      obtain ⟨ns, h1⟩ := e_yes hm
      obtain ⟨b1, -, b3⟩ := hc'.mtch hm
      rw [h.off] at b1
      refine choicePass_exact K hR hd hk hrec hlim hpend hQ opts (done ++ [o]) _ (fun o ho => hos o (by simp [ho])) ?_
      refine ⟨(hfr.trans (.setMatch _ _ _ _)).trans (.offset _ _), (hc'.inv.setMatch b1 hc'.inv.off trivial).setOffset hol, rfl,
        ?_, ?_, by simp, fun _ => rfl, ?_⟩
      · refine he.good.setMatch_choice K hR hd hk (Or.inl ⟨d, os, o, hd, hk, ho, hno, _, _, h1, Nat.le_refl _⟩) ?_
        rw [hfr.pc]
        simp [Results.pcount_markPending]
      · intro o' ho'
        exact (hrecd o' ho').mono fun _ _ _ x => (Results.has_setMatch ..).2 (Or.inl x)
      · intro _
        refine ⟨hQ o ho hno _ _ h1, ?_, (Results.has_setMatch ..).2 (Or.inr ⟨rfl, rfl, rfl⟩)⟩
        intro o' ho' y hy
        simp only [List.mem_append, List.mem_singleton] at ho'
        rcases ho' with ho' | rfl
        · by_cases hmt : st.mtch = true
          · have := (h.yes hmt).2.1 o' ho' y hy
            have := hlen hmt
            simp only
            omega
          · rw [h.no (by simpa using hmt) o' ho'] at hy; cases hy
        · rw [h1] at hy; cases hy; exact Nat.le_refl _

theorem choicePass_append (rec : Ptr → Ctx → Res Ctx) (id from_ : Nat) : ∀ (os1 os2 : List Ptr) (st : ChoiceSt),
    choicePass rec id from_ (os1 ++ os2) st = (choicePass rec id from_ os1 st).bind fun st => choicePass rec id from_ os2 st
  | [], os2, st => rfl
  | o :: os1, os2, st => by
    simp only [List.cons_append, choicePass]
    cases rec o st.c with
    | panic => rfl
    | oof => rfl
    | ok c =>
      simp only [Res.bind_ok]
      generalize (if !c.matchLast && decide (c.failOffset > st.failOffset) then
            { st with failOffset := c.failOffset, failing := c.failing } else st) = st1
      split
      · exact choicePass_append rec id from_ os1 os2 _
      · exact choicePass_append rec id from_ os1 os2 _

/-- When a pass finds nothing, then it does not change the longest match. -/
theorem choicePass_found (rec : Ptr → Ctx → Res Ctx) (id from_ : Nat) : ∀ (os : List Ptr) (st : ChoiceSt),
    (choicePass rec id from_ os st).Spec True True fun st' =>
      st'.found = false → st.found = false ∧ st'.to = st.to ∧ st'.mtch = st.mtch
  | [], st => fun h => ⟨h, rfl, rfl⟩
  | o :: os, st => by
    simp only [choicePass]
    cases rec o st.c with
    | panic => trivial
    | oof => trivial
    | ok c =>
      simp only [Res.bind_ok]
      generalize hst1 : (if !c.matchLast && decide (c.failOffset > st.failOffset) then
            { st with failOffset := c.failOffset, failing := c.failing } else st) = st1
      have e1 : st1.mtch = st.mtch ∧ st1.to = st.to ∧ st1.found = st.found := by
        subst hst1; split <;> simp
      split
      · refine (choicePass_found rec id from_ os _).imp ?_
        intro st' h hf
        obtain ⟨h1, h2, h3⟩ := h hf
        simp only [e1] at h1 h2 h3
        exact ⟨h1, h2, h3⟩
      · refine (choicePass_found rec id from_ os _).imp ?_
        intro st' h hf
        obtain ⟨h1, -⟩ := h hf
        cases h1

/-- What the options result in. -/
def ChOut (env : Env) (R : Ptr → Prop) (input : List Rune) (f : Ptr → Nat → Match) (p : Ptr) (os : List Ptr) (id from_ : Nat)
    (st : ChoiceSt) : Prop :=
  Good env R input f st.c.res ∧ (∀ o ∈ os, Recorded env f st.c.res o from_) ∧
    (st.mtch = true → (∃ ns, f p from_ = some (st.to, ns)) ∧ st.c.res.Has from_ id st.to) ∧
    (st.mtch = false → f p from_ = none)

theorem choiceLoop_exact (K : Ctxt env R input f root) {p : Ptr} {d : PDef} {os : List Ptr} (hR : R p)
    (hd : env.defs[p]? = some d) (hk : d.kind = .choice os) (hn : ∀ o, ¬ Recurs env.grammar p o)
    {rec : Ptr → Ctx → Res Ctx} (hrec : RecE env R input f rec)
    {c : Ctx} (hlim : c.offsetLimit = -1) (hpend : Pend env R p c.offset c.res) :
    ∀ (n : Nat) (done : List Ptr) (st : ChoiceSt),
      ChE env R input f (fun t => ∃ o ∈ os, ∃ ns, f o c.offset = some (t, ns)) d.id c.offset
        { c with res := c.res.markPending c.offset d.id } done st →
      (choiceLoop rec d.id c.offset os n st).Spec True True fun st' => ∃ done',
        ChE env R input f (fun t => ∃ o ∈ os, ∃ ns, f o c.offset = some (t, ns)) d.id c.offset
          { c with res := c.res.markPending c.offset d.id } (done' ++ os) st'
  | 0, _, _, _ => trivial
  | n + 1, done, st, h => by
    unfold choiceLoop
    have h0 : ChE env R input f (fun t => ∃ o ∈ os, ∃ ns, f o c.offset = some (t, ns)) d.id c.offset
        { c with res := c.res.markPending c.offset d.id } done
        { st with found := false } := ⟨h.frame, h.inv, h.off, h.good, h.recd, h.no, by simp, h.yes⟩
    refine Res.Spec.bind (choicePass_exact K hR hd hk hrec hlim hpend (fun o ho _ t ns hf => ⟨o, ho, ns, hf⟩) os done _
      (fun o h => ⟨h, hn o⟩) h0) ?_
    intro st' hst'
    split
    · exact choiceLoop_exact K hR hd hk hn hrec hlim hpend n _ st' hst'
    · exact ⟨done, hst'⟩

/-- The longest match of a choice does not get shorter. -/
theorem choicePass_mono (rec : Ptr → Ctx → Res Ctx) (id from_ : Nat) : ∀ (os : List Ptr) (st : ChoiceSt), st.mtch = true →
    (choicePass rec id from_ os st).Spec True True fun st' => st'.mtch = true ∧ st.to ≤ st'.to
  | [], st, h => ⟨h, Nat.le_refl _⟩
  | o :: os, st, hm => by
    simp only [choicePass]
    cases rec o st.c with
    | panic => trivial
    | oof => trivial
    | ok c =>
      simp only [Res.bind_ok]
      generalize hst1 : (if !c.matchLast && decide (c.failOffset > st.failOffset) then
            { st with failOffset := c.failOffset, failing := c.failing } else st) = st1
      have e1 : st1.mtch = st.mtch ∧ st1.to = st.to ∧ st1.found = st.found := by
        subst hst1; split <;> simp
      split
      · refine (choicePass_mono rec id from_ os _ (by simp only [e1.1]; exact hm)).imp ?_
        intro st' h
        simp only [e1] at h
        exact h
      · rename_i hcond
        simp only [Bool.or_eq_true, Bool.not_eq_true', Bool.and_eq_true, decide_eq_true_eq, not_or,
          not_and, Bool.not_eq_false, e1.1, e1.2.1, Nat.not_le] at hcond
        refine (choicePass_mono rec id from_ os _ rfl).imp ?_
        intro st' h
        have h1 := hcond.2 hm
        have h2 := h.2
        simp only at h2
        exact ⟨h.1, by omega⟩

/-- The state of a left recursive choice after `k` attempts to find a tail. -/
structure Grown (env : Env) (input : List Rune) (x : Growing) (a : Ptr) (off k : Nat) (st : ChoiceSt) : Prop where
  mtch : st.mtch = true
  chain : ∃ ns, x.Chain env input off k st.to ns
  tails : ∀ y, Growing.Of y env a → ∀ t, st.c.res.Has off y.e.id t → t ≤ st.to

/-- The state of a left recursive choice before its first match. -/
structure Fresh (x : Growing) (off : Nat) (st : ChoiceSt) : Prop where
  mtch : st.mtch = false
  none : ∀ t, ¬ st.c.res.Has off x.d.id t

section
variable {a : Ptr} {x : Growing} {rec : Ptr → Ctx → Res Ctx} {c : Ctx}

/-- The pending marks during the calls of a choice. -/
theorem ChE.pcount {Q : Nat → Prop} {id from_ : Nat} {done : List Ptr} {st : ChoiceSt}
    (h : ChE env R input f Q id from_ { c with res := c.res.markPending from_ id } done st) (o i : Nat) :
    st.c.res.pcount o i = c.res.pcount o i + if o = from_ ∧ i = id then 1 else 0 := by
  rw [h.frame.pc]
  simp only [Results.pcount_markPending]

theorem ChE.weaken {Q : Nat → Prop} {id from_ : Nat} {c1 : Ctx} {done : List Ptr} {st : ChoiceSt}
    (h : ChE env R input f Q id from_ c1 done st) {Q' : Nat → Prop} (hq : st.mtch = true → Q' st.to) :
    ChE env R input f Q' id from_ c1 done st :=
  ⟨h.frame, h.inv, h.off, h.good, h.recd, h.no, h.fnd, fun hm => ⟨hq hm, (h.yes hm).2⟩⟩

/-- All records of the choice end before the end of the state. -/
theorem Grown.max (K : Ctxt env R input f root) (hR : R a) (hx : x.Of env a) {off k : Nat} {st : ChoiceSt}
    (h : Grown env input x a off k st) (hg : Good env R input f st.c.res) {t : Nat} (ht : st.c.res.Has off x.d.id t) : t ≤ st.to := by
  rcases hg.chHas hR hx.da hx.ka ht with hb | ⟨y, hy, hch⟩
  · obtain ⟨j, ns, hb', hle⟩ := hb.base hx K hR
    obtain ⟨ns', hc⟩ := h.chain
    have := hc.base_le hb'
    omega
  · exact h.tails y hy t hch

/-- The conditions of the call of a left recursive option. -/
theorem tailCall (K : Ctxt env R input f root) (hR : R a) (hx : x.Of env a) (hrec : RecT env R input f rec) (hrecf : RecF env R rec)
    (hlim : c.offsetLimit = -1) (hpend : Pend env R a c.offset c.res) {done : List Ptr} {st : ChoiceSt}
    (h : ChE env R input f (fun _ => True) x.d.id c.offset { c with res := c.res.markPending c.offset x.d.id } done st)
    (hcase : Fresh x c.offset st ∨ ∃ k, Grown env input x a c.offset k st ∧ x.ss[k % x.ss.length]? = some x.s) :
    (rec x.s st.c).Spec True True fun c' =>
      Post env input none (fun _ _ _ => True) (fun _ _ _ => True) x.s st.c c' ∧ ExactT env R input f x st.c c' ∧
        ∀ y, Growing.Of y env a → Kept y c.offset x.s st.c c' := by
  have hpc := h.pcount
  have hk : (rec x.s st.c).Spec True True fun c' => ∀ y, Growing.Of y env a → Kept y c.offset x.s st.c c' := by
    have : ∀ y, Growing.Of y env a → (rec x.s st.c).Spec True True (Kept y c.offset x.s st.c) := by
      intro y hy
      refine hrecf a y c.offset x.s st.c hR hy (hx.reach K hR) ?_
      rw [hpc, if_pos ⟨rfl, by rw [(hx.common hy).1]⟩]; omega
    cases hr : rec x.s st.c with
    | panic => trivial
    | oof => trivial
    | ok c' =>
      intro y hy
      have := this y hy
      rw [hr] at this
      exact this
  refine ((hrec a x st.c hR hx h.inv h.good ?_ ?_ ?_ (by rw [h.frame.lim]; exact hlim) ?_).and hk).mono
    (fun _ => trivial) (fun _ => trivial) fun _ h => ⟨h.1.1, h.1.2, h.2⟩
  · intro o ho i
    rw [h.off] at ho
    rw [hpc, hpend.later o ho i, if_neg (by omega)]
  · rw [h.off, hpc, if_pos ⟨rfl, rfl⟩]; omega
  · rw [h.off, hpc, if_neg (fun hh => hx.ids K hR hh.2.symm)]
    rw [hpend.here (hx.reach K hR) hx.ds (by rw [hx.ks]; rfl) (Or.inr (Or.inr ⟨a, hx.recurs, Or.inl rfl⟩))]
  · rw [h.off]
    rcases hcase with h1 | ⟨k, h1, h2⟩
    · exact Or.inl h1.none
    · obtain ⟨ns, hc⟩ := h1.chain
      exact Or.inr ⟨k, st.to, ns, hc, h2, (h.yes h1.mtch).2.2, fun t ht => h1.max K hR hx h.good ht, h1.tails x hx⟩

/-- The call of a left recursive option before the first match. -/
theorem tailStep_fresh (K : Ctxt env R input f root) (hR : R a) (hx : x.Of env a) (hrec : RecT env R input f rec)
    (hrecf : RecF env R rec) (hlim : c.offsetLimit = -1) (hpend : Pend env R a c.offset c.res) {done : List Ptr} {st : ChoiceSt}
    (h : ChE env R input f (fun _ => True) x.d.id c.offset { c with res := c.res.markPending c.offset x.d.id } done st)
    (hf : Fresh x c.offset st) :
    (choicePass rec x.d.id c.offset [x.s] st).Spec True True fun st' =>
      ChE env R input f (fun _ => True) x.d.id c.offset { c with res := c.res.markPending c.offset x.d.id } done st' ∧
      Fresh x c.offset st' := by
  unfold choicePass
  refine Res.Spec.bind (tailCall K hR hx hrec hrecf hlim hpend h (Or.inl hf)) ?_
  rintro c' ⟨hc', he, -⟩
  have hfr := h.frame.trans hc'.frame
  have htl := hc'.frame.tokLen
  have hol : c.offset ≤ c'.tokens.length := by
    have := h.inv.off; rw [h.off] at this; omega
  have e_no := he.no
  rw [h.off] at e_no
  obtain ⟨n1, n2⟩ := e_no hf.none
  have hrecd : ∀ o ∈ done, Recorded env f c'.res o c.offset := fun o ho => (h.recd o ho).mono hc'.frame.has
  generalize hst1 : (if !c'.matchLast && decide (c'.failOffset > st.failOffset) then
        { st with failOffset := c'.failOffset, failing := c'.failing } else st) = st1
  have e1 : st1.mtch = st.mtch ∧ st1.to = st.to ∧ st1.found = st.found := by
    subst hst1; split <;> simp
  simp only
  rw [if_pos (by simp [n1])]
  refine ⟨⟨hfr.trans (.offset _ _), hc'.inv.setOffset hol, rfl, he.good, hrecd, ?_, ?_, ?_⟩, ?_, ?_⟩
  · simp only [e1.1]
    exact h.no
  · simp only [e1.1, e1.2.2]
    exact h.fnd
  · simp only [e1.1, hf.mtch]
    intro hm; cases hm
  · simp only [e1.1, hf.mtch]
  · intro t ht
    exact hf.none t (n2 _ _ _ ht)

/-- The call of a left recursive option after the first match. -/
theorem tailStep_grown (K : Ctxt env R input f root) (hR : R a) (hx : x.Of env a) (hrec : RecT env R input f rec)
    (hrecf : RecF env R rec) (hlim : c.offsetLimit = -1) (hpend : Pend env R a c.offset c.res) {done : List Ptr} {st : ChoiceSt}
    (h : ChE env R input f (fun _ => True) x.d.id c.offset { c with res := c.res.markPending c.offset x.d.id } done st)
    {k : Nat} (hf : Grown env input x a c.offset k st) (hs : x.ss[k % x.ss.length]? = some x.s) :
    (choicePass rec x.d.id c.offset [x.s] st).Spec True True fun st' =>
      ChE env R input f (fun _ => True) x.d.id c.offset { c with res := c.res.markPending c.offset x.d.id } done st' ∧
      Grown env input x a c.offset (k + 1) st' ∧
      (st'.found = false → RefItems env.grammar (env.blocked input) input x.tail 0 st'.to none) := by
  unfold choicePass
  refine Res.Spec.bind (tailCall K hR hx hrec hrecf hlim hpend h (Or.inr ⟨k, hf, hs⟩)) ?_
  rintro c' ⟨hc', he, hkept⟩
  have hfr := h.frame.trans hc'.frame
  have htl := hc'.frame.tokLen
  have hol : c.offset ≤ c'.tokens.length := by
    have := h.inv.off; rw [h.off] at this; omega
  have e_next := he.next
  rw [h.off] at e_next
  have hm := hf.mtch
  obtain ⟨y1, y2, y3⟩ := h.yes hm
  have e_next := e_next st.to y3 (fun t ht => hf.max K hR hx h.good ht)
  obtain ⟨ns, hch⟩ := hf.chain
  have hrecd : ∀ o ∈ done, Recorded env f c'.res o c.offset := fun o ho => (h.recd o ho).mono hc'.frame.has
  generalize hst1 : (if !c'.matchLast && decide (c'.failOffset > st.failOffset) then
        { st with failOffset := c'.failOffset, failing := c'.failing } else st) = st1
  have e1 : st1.mtch = st.mtch ∧ st1.to = st.to ∧ st1.found = st.found := by
    subst hst1; split <;> simp
  simp only
  rcases e_next with ⟨g1, g2, ⟨ms, g3⟩, g4⟩ | ⟨g1, g2⟩
  · rw [if_neg (by simp only [e1.1, e1.2.1, hm, g1, Bool.not_true, Bool.true_and, Bool.false_or, decide_eq_true_eq]; omega)]
    obtain ⟨b1, -, b3⟩ := hc'.mtch g1
    rw [h.off] at b1
    refine ⟨⟨(hfr.trans (.setMatch _ _ _ _)).trans (.offset _ _), (hc'.inv.setMatch b1 hc'.inv.off trivial).setOffset hol, rfl,
      ?_, ?_, by simp, fun _ => rfl, ?_⟩, ⟨rfl, ?_, ?_⟩, by simp⟩
    · refine he.good.setMatch_choice K hR hx.da hx.ka (Or.inr ⟨x, hx, g4⟩) ?_
      rw [hfr.pc]
      simp [Results.pcount_markPending]
    · intro o' ho'
      exact (hrecd o' ho').mono fun _ _ _ x => (Results.has_setMatch ..).2 (Or.inl x)
    · intro _
      refine ⟨trivial, ?_, (Results.has_setMatch ..).2 (Or.inr ⟨rfl, rfl, rfl⟩)⟩
      intro o' ho' y hy
      have := (h.yes hm).2.1 o' ho' y hy
      simp only
      omega
    · exact ⟨_, .step hch hs hx.gs hx.gi g3 g2⟩
    · intro y hy t ht
      simp only at ht ⊢
      rcases (Results.has_setMatch ..).1 ht with ht | ⟨-, hid, -⟩
      · rcases (hkept y hy).has t ht with ht | ⟨-, -, -, rfl⟩
        · have := hf.tails y hy t ht
          omega
        · exact Nat.le_refl _
      · exact absurd (by rw [(hx.common hy).1, hid]) (hy.ids K hR)
  · rw [if_pos (by
      simp only [e1.1, e1.2.1, hm, Bool.true_and, Bool.or_eq_true, Bool.not_eq_true', decide_eq_true_eq]
      cases hml : c'.matchLast with
      | false => exact Or.inl rfl
      | true => exact Or.inr (g2 hml))]
    refine ⟨⟨hfr.trans (.offset _ _), hc'.inv.setOffset hol, rfl, he.good, hrecd, ?_, ?_, ?_⟩, ⟨?_, ?_, ?_⟩, ?_⟩
    · simp only [e1.1]
      exact h.no
    · simp only [e1.1, e1.2.2]
      exact h.fnd
    · simp only [e1.1, e1.2.1]
      intro hm
      obtain ⟨y1, y2, y3⟩ := h.yes hm
      exact ⟨y1, y2, hc'.frame.has _ _ _ y3⟩
    · simp only [e1.1, hm]
    · simp only [e1.2.1]
      exact ⟨_, .skip hch hs hx.gs hx.gi g1⟩
    · simp only [e1.2.1]
      intro y hy t ht
      rcases (hkept y hy).has t ht with ht | ⟨-, -, hml, rfl⟩
      · exact hf.tails y hy t ht
      · exact g2 hml
    · simp only [e1.2.1]
      exact fun _ => g1

theorem Fresh.common {y : Growing} (hx : x.Of env a) (hy : y.Of env a) {off : Nat} {st : ChoiceSt} (h : Fresh y off st) :
    Fresh x off st := ⟨h.mtch, by rw [← (hx.common hy).1]; exact h.none⟩

theorem Grown.common {y : Growing} (hx : x.Of env a) (hy : y.Of env a) {off k : Nat} {st : ChoiceSt}
    (h : Grown env input y a off k st) : Grown env input x a off k st := by
  obtain ⟨ns, hc⟩ := h.chain
  exact ⟨h.mtch, ⟨ns, hx.chain hy hc⟩, h.tails⟩

/-- Left recursive options before the first match. -/
theorem tailPass_fresh (K : Ctxt env R input f root) (hR : R a) (hx : x.Of env a) (hrec : RecT env R input f rec)
    (hrecf : RecF env R rec) (hlim : c.offsetLimit = -1) (hpend : Pend env R a c.offset c.res) {done : List Ptr} :
    ∀ (rs : List Ptr) (st : ChoiceSt), (∀ s ∈ rs, s ∈ x.ss) →
    ChE env R input f (fun _ => True) x.d.id c.offset { c with res := c.res.markPending c.offset x.d.id } done st →
    Fresh x c.offset st →
    (choicePass rec x.d.id c.offset rs st).Spec True True fun st' =>
      ChE env R input f (fun _ => True) x.d.id c.offset { c with res := c.res.markPending c.offset x.d.id } done st' ∧
      Fresh x c.offset st'
  | [], st, _, h, hf => ⟨h, hf⟩
  | s :: rs, st, hs, h, hf => by
    rw [← List.singleton_append, choicePass_append]
    obtain ⟨y, hy, rfl⟩ := hx.other K hR (hs s (by simp))
    have hd := (hx.common hy).1
    have := tailStep_fresh K hR hy hrec hrecf hlim hpend (by rw [hd]; exact h) (hf.common hy hx)
    rw [hd] at this
    refine Res.Spec.bind this ?_
    rintro st1 ⟨h1, h2⟩
    exact tailPass_fresh K hR hx hrec hrecf hlim hpend rs st1 (fun s h => hs s (by simp [h])) h1 (h2.common hx hy)

/-- Left recursive options after the first match. -/
theorem tailPass_grown (K : Ctxt env R input f root) (hR : R a) (hx : x.Of env a) (hrec : RecT env R input f rec)
    (hrecf : RecF env R rec) (hlim : c.offsetLimit = -1) (hpend : Pend env R a c.offset c.res) {done : List Ptr} :
    ∀ (rs : List Ptr) (st : ChoiceSt) (k : Nat), (∀ m s, rs[m]? = some s → x.ss[(k + m) % x.ss.length]? = some s) →
    ChE env R input f (fun _ => True) x.d.id c.offset { c with res := c.res.markPending c.offset x.d.id } done st →
    Grown env input x a c.offset k st →
    (choicePass rec x.d.id c.offset rs st).Spec True True fun st' =>
      ChE env R input f (fun _ => True) x.d.id c.offset { c with res := c.res.markPending c.offset x.d.id } done st' ∧
      Grown env input x a c.offset (k + rs.length) st' ∧
      (st'.found = false → ∀ y, Growing.Of y env a → y.s ∈ rs →
        RefItems env.grammar (env.blocked input) input y.tail 0 st'.to none)
  | [], st, k, _, h, hf => ⟨h, hf, fun _ _ _ h => by cases h⟩
  | s :: rs, st, k, hs, h, hf => by
    rw [← List.singleton_append, choicePass_append]
    have hs0 := hs 0 s rfl
    rw [Nat.add_zero] at hs0
    obtain ⟨y, hy, rfl⟩ := hx.other K hR (List.mem_of_getElem? hs0)
    obtain ⟨hd, -, hfs, -, hls⟩ := hx.common hy
    have := tailStep_grown K hR hy hrec hrecf hlim hpend (by rw [hd]; exact h) (hf.common hy hx)
      (by simp only [Growing.ss, hfs, hls]; exact hs0)
    rw [hd] at this
    refine Res.Spec.bind this ?_
    rintro st1 ⟨h1, h2, h3⟩
    refine ((tailPass_grown K hR hx hrec hrecf hlim hpend rs st1 (k + 1) ?_ h1 (h2.common hx hy)).and (pb' := True) (ob' := True)
      (choicePass_found ..)).mono (fun _ => trivial) (fun _ => trivial) ?_
    · intro m s' hm
      have := hs (m + 1) s' (by simpa using hm)
      rwa [show k + 1 + m = k + (m + 1) by omega]
    · rintro st2 ⟨⟨h4, h5, h6⟩, h7⟩
      refine ⟨h4, ?_, ?_⟩
      · rw [List.length_append, List.length_singleton, show k + (1 + rs.length) = k + 1 + rs.length by omega]
        exact h5
      · intro hfd z hz hzs
        obtain ⟨g1, g2, g3⟩ := h7 hfd
        rcases List.mem_cons.1 hzs with hzs | hzs
        · obtain rfl := hz.unique hy hzs
          rw [g2]
          exact h3 g1
        · exact h6 hfd z hz hzs

/-- The options that are not left recursive keep the records of the left recursive ones. -/
theorem basePass_kept (K : Ctxt env R input f root) (hR : R a) (hx : x.Of env a) (hrecf : RecF env R rec) {done : List Ptr}
    {st : ChoiceSt} {Q : Nat → Prop}
    (h : ChE env R input f Q x.d.id c.offset { c with res := c.res.markPending c.offset x.d.id } done st) :
    (choicePass rec x.d.id c.offset x.bs st).Spec True True fun st' =>
      ∀ y, Growing.Of y env a → ∀ t, st'.c.res.Has c.offset y.e.id t → st.c.res.Has c.offset y.e.id t := by
  have : ∀ y, Growing.Of y env a → (choicePass rec x.d.id c.offset x.bs st).Spec True True fun st' =>
      ∀ t, st'.c.res.Has c.offset y.e.id t → st.c.res.Has c.offset y.e.id t := by
    intro y hy
    have hd := (hx.common hy).1
    refine (choicePass_kept hR hy hrecf (off := c.offset) (by rw [← hd]; exact (hy.ids K hR).symm) x.bs st ?_ h.off ?_).imp
      fun _ h => h.1.has
    · intro o ho
      refine ⟨hx.base K hR ho, ?_⟩
      rintro rfl
      exact absurd hy.recurs (hx.growth.bases _ ho)
    · rw [h.pcount, if_pos ⟨rfl, by rw [hd]⟩]; omega
  cases hr : choicePass rec x.d.id c.offset x.bs st with
  | panic => trivial
  | oof => trivial
  | ok st' =>
    intro y hy
    have := this y hy
    rw [hr] at this
    exact this

theorem Growing.Of.bases_ok (hx : x.Of env a) : ∀ o ∈ x.bs, o ∈ x.os ∧ ¬ Recurs env.grammar a o :=
  fun o ho => ⟨hx.mem.2 (Or.inr ho), hx.growth.bases o ho⟩

/-- The other options before the first match. -/
theorem basePass_fresh (K : Ctxt env R input f root) (hR : R a) (hx : x.Of env a) (hrec : RecE env R input f rec)
    (hrecf : RecF env R rec) (hlim : c.offsetLimit = -1) (hpend : Pend env R a c.offset c.res) {done : List Ptr} {st : ChoiceSt}
    (h : ChE env R input f (fun _ => True) x.d.id c.offset { c with res := c.res.markPending c.offset x.d.id } done st)
    (hf : Fresh x c.offset st) :
    (choicePass rec x.d.id c.offset x.bs st).Spec True True fun st' =>
      ChE env R input f (fun _ => True) x.d.id c.offset { c with res := c.res.markPending c.offset x.d.id } (done ++ x.bs) st' ∧
      (Fresh x c.offset st' ∨ (Grown env input x a c.offset 0 st' ∧ st'.found = true)) := by
  have hQ : ∀ o ∈ x.os, ¬ Recurs env.grammar a o → ∀ t ns, f o c.offset = some (t, ns) →
      ∃ o ∈ x.bs, ∃ ns, f o c.offset = some (t, ns) := by
    intro o ho hn t ns hfo
    rcases hx.mem.1 ho with h | h
    · exact absurd (hx.growth.trials h) hn
    · exact ⟨o, h, ns, hfo⟩
  refine (((choicePass_exact K hR hx.da hx.ka hrec hlim hpend (Q := fun t => ∃ o ∈ x.bs, ∃ ns, f o c.offset = some (t, ns)) hQ x.bs done st
    hx.bases_ok (h.weaken fun hm => by rw [hf.mtch] at hm; cases hm)).and (pb' := True) (ob' := True) (choicePass_found ..)).and
    (pb' := True) (ob' := True) (basePass_kept K hR hx hrecf h)).mono (fun _ => trivial) (fun _ => trivial) ?_
  rintro st' ⟨⟨h1, h2⟩, h3⟩
  refine ⟨h1.weaken fun _ => trivial, ?_⟩
  have hno : ∀ y, Growing.Of y env a → ∀ t, ¬ st'.c.res.Has c.offset y.e.id t := by
    intro y hy t ht
    obtain ⟨k, j, ns, ms, -, hj, -⟩ := h.good.tailHas hR hy (h3 y hy t ht)
    rw [(hx.common hy).1] at hj
    exact hf.none j hj
  cases hm : st'.mtch with
  | true =>
    right
    refine ⟨⟨hm, ?_, fun y hy t ht => absurd ht (hno y hy t)⟩, ?_⟩
    · obtain ⟨⟨o, ho, ns, hfo⟩, h4, -⟩ := h1.yes hm
      obtain ⟨m, hb⟩ := hx.bases_total K hR c.offset
      have hb' := hx.bases K hR hb
      cases m with
      | none => rw [hb' o ho] at hfo; cases hfo
      | some y =>
        obtain ⟨⟨o', ho', ns', hfo'⟩, h5⟩ := hb'
        have h6 := h5 o ho _ hfo
        have h7 := h4 o' (by simp [ho']) _ hfo'
        simp only at h6 h7
        refine ⟨_, .base (ns := y.2) ?_⟩
        rw [show st'.to = y.1 by omega]
        exact hb
    · cases hfd : st'.found with
      | true => rfl
      | false =>
        have := (h2 hfd).2.2
        rw [hm, hf.mtch] at this; cases this
  | false =>
    left
    refine ⟨hm, fun t ht => ?_⟩
    rcases h1.good.chHas hR hx.da hx.ka ht with hb | ⟨y, hy, hch⟩
    · obtain ⟨j, ns, hb, -⟩ := hb.base hx K hR
      obtain ⟨⟨o, ho, ns', ho'⟩, -⟩ := hx.bases K hR hb
      rw [h1.no hm o (by simp [ho])] at ho'; cases ho'
    · exact hno y hy t hch

/-- The other options after the first match. -/
theorem basePass_grown (K : Ctxt env R input f root) (hR : R a) (hx : x.Of env a) (hrec : RecE env R input f rec)
    (hrecf : RecF env R rec) (hlim : c.offsetLimit = -1) (hpend : Pend env R a c.offset c.res) {done : List Ptr} {st : ChoiceSt}
    (h : ChE env R input f (fun _ => True) x.d.id c.offset { c with res := c.res.markPending c.offset x.d.id } done st) {k : Nat}
    (hf : Grown env input x a c.offset k st) :
    (choicePass rec x.d.id c.offset x.bs st).Spec True True fun st' =>
      ChE env R input f (fun _ => True) x.d.id c.offset { c with res := c.res.markPending c.offset x.d.id } (done ++ x.bs) st' ∧
      Grown env input x a c.offset k st' ∧ (st'.found = false → st.found = false) ∧ st'.to = st.to := by
  have hQ : ∀ o ∈ x.os, ¬ Recurs env.grammar a o → ∀ t ns, f o c.offset = some (t, ns) → t ≤ st.to := by
    intro o ho hn t ns hfo
    rcases hx.mem.1 ho with hb | hb
    · exact absurd (hx.growth.trials hb) hn
    · obtain ⟨m, hb'⟩ := hx.bases_total K hR c.offset
      have hb'' := hx.bases K hR hb'
      cases m with
      | none => rw [hb'' o hb] at hfo; cases hfo
      | some y =>
        have h1 := hb''.2 o hb _ hfo
        obtain ⟨ns', hc⟩ := hf.chain
        have h2 := hc.base_le hb'
        simp only at h1
        omega
  refine ((((choicePass_exact K hR hx.da hx.ka hrec hlim hpend (Q := fun t => t ≤ st.to) hQ x.bs done st
    hx.bases_ok (h.weaken fun _ => Nat.le_refl _)).and (pb' := True) (ob' := True) (choicePass_found ..)).and
    (pb' := True) (ob' := True) (basePass_kept K hR hx hrecf h)).and (pb' := True) (ob' := True)
    (choicePass_mono rec x.d.id c.offset x.bs st hf.mtch)).mono (fun _ => trivial) (fun _ => trivial) ?_
  rintro st' ⟨⟨⟨h1, h2⟩, h3⟩, h4, h5⟩
  have heq : st'.to = st.to := by
    have := (h1.yes h4).1
    omega
  refine ⟨h1.weaken fun _ => trivial, ⟨h4, ?_, ?_⟩, fun hfd => (h2 hfd).1, heq⟩
  · rw [heq]; exact hf.chain
  · intro y hy t ht
    rw [heq]
    exact hf.tails y hy t (h3 y hy t ht)

/-- One pass over all options. -/
theorem growPass_exact (K : Ctxt env R input f root) (hR : R a) (hx : x.Of env a) (hrec : RecE env R input f rec)
    (hrect : RecT env R input f rec) (hrecf : RecF env R rec) (hlim : c.offsetLimit = -1) (hpend : Pend env R a c.offset c.res)
    {done : List Ptr} {st : ChoiceSt}
    (h : ChE env R input f (fun _ => True) x.d.id c.offset { c with res := c.res.markPending c.offset x.d.id } done st)
    (hf : Fresh x c.offset st ∨ ∃ q, Grown env input x a c.offset (x.ss.length * q + x.ls.length) st) :
    (choicePass rec x.d.id c.offset x.os st).Spec True True fun st' =>
      ChE env R input f (fun _ => True) x.d.id c.offset { c with res := c.res.markPending c.offset x.d.id } (done ++ x.bs) st' ∧
      (Fresh x c.offset st' ∨ ∃ q, Grown env input x a c.offset (x.ss.length * q + x.ls.length) st' ∧
        (st'.found = false → RefFails env.grammar (env.blocked input) input x.ss st'.to)) := by
  have hlen : x.ss.length = x.ls.length + x.fs.length := by simp
  have hals : ∀ q m s, x.ls[m]? = some s → x.ss[(x.ss.length * q + m) % x.ss.length]? = some s := by
    intro q m s hs
    have hm : m < x.ls.length := (List.getElem?_eq_some_iff.1 hs).1
    rw [Nat.mul_add_mod, Nat.mod_eq_of_lt (by omega), List.getElem?_append_left hm]
    exact hs
  have hafs : ∀ q m s, x.fs[m]? = some s → x.ss[(x.ss.length * q + x.ls.length + m) % x.ss.length]? = some s := by
    intro q m s hs
    have hm : m < x.fs.length := (List.getElem?_eq_some_iff.1 hs).1
    rw [Nat.add_assoc, Nat.mul_add_mod, Nat.mod_eq_of_lt (by omega), List.getElem?_append_right (by omega), Nat.add_sub_cancel_left]
    exact hs
  rw [hx.growth.options, choicePass_append]
  rcases hf with hf | ⟨q, hf⟩
  · refine Res.Spec.bind (tailPass_fresh K hR hx hrect hrecf hlim hpend x.fs st (fun s h => by simp [h]) h hf) ?_
    rintro st1 ⟨h1, h2⟩
    rw [choicePass_append]
    refine Res.Spec.bind (basePass_fresh K hR hx hrec hrecf hlim hpend h1 h2) ?_
    rintro st2 ⟨h3, h4⟩
    rcases h4 with h4 | ⟨h4, h5⟩
    · refine (tailPass_fresh K hR hx hrect hrecf hlim hpend x.ls st2 (fun s h => by simp [h]) h3 h4).imp ?_
      rintro st3 ⟨h6, h7⟩
      exact ⟨h6, Or.inl h7⟩
    · refine ((tailPass_grown K hR hx hrect hrecf hlim hpend x.ls st2 0 (by simpa using hals 0) h3 h4).and (pb' := True) (ob' := True)
        (choicePass_found ..)).mono (fun _ => trivial) (fun _ => trivial) ?_
      rintro st3 ⟨⟨h6, h7, h8⟩, h9⟩
      refine ⟨h6, Or.inr ⟨0, by simpa using h7, fun hfd => ?_⟩⟩
      rw [(h9 hfd).1] at h5; cases h5
  · refine Res.Spec.bind (tailPass_grown K hR hx hrect hrecf hlim hpend x.fs st _ (hafs q) h hf) ?_
    rintro st1 ⟨h1, h2, h3⟩
    rw [choicePass_append]
    refine Res.Spec.bind (basePass_grown K hR hx hrec hrecf hlim hpend h1 h2) ?_
    rintro st2 ⟨h4, h5, h6, h7⟩
    have hnum : x.ss.length * q + x.ls.length + x.fs.length = x.ss.length * (q + 1) := by rw [Nat.mul_succ, hlen]; omega
    rw [hnum] at h5
    refine ((tailPass_grown K hR hx hrect hrecf hlim hpend x.ls st2 _ (hals (q + 1)) h4 h5).and (pb' := True) (ob' := True)
      (choicePass_found ..)).mono (fun _ => trivial) (fun _ => trivial) ?_
    rintro st3 ⟨⟨h8, h9, h10⟩, h11⟩
    refine ⟨h8, Or.inr ⟨q + 1, h9, fun hfd => ?_⟩⟩
    obtain ⟨g1, g2, -⟩ := h11 hfd
    refine RefFails.of_mem fun s hs => ?_
    obtain ⟨y, hy, rfl⟩ := hx.other K hR hs
    refine ⟨_, _, _, hy.gs, hy.gi, ?_⟩
    rcases List.mem_append.1 hs with hs | hs
    · exact h10 hfd y hy hs
    · rw [g2, h7]
      exact h3 (h6 g1) y hy hs

end

theorem growLoop_exact (K : Ctxt env R input f root) {a : Ptr} {x : Growing} (hR : R a) (hx : x.Of env a)
    {rec : Ptr → Ctx → Res Ctx} (hrec : RecE env R input f rec) (hrect : RecT env R input f rec) (hrecf : RecF env R rec) {c : Ctx}
    (hlim : c.offsetLimit = -1) (hpend : Pend env R a c.offset c.res) :
    ∀ (n : Nat) (done : List Ptr) (st : ChoiceSt),
      ChE env R input f (fun _ => True) x.d.id c.offset { c with res := c.res.markPending c.offset x.d.id } done st →
      (Fresh x c.offset st ∨ ∃ q, Grown env input x a c.offset (x.ss.length * q + x.ls.length) st) →
      (choiceLoop rec x.d.id c.offset x.os n st).Spec True True fun st' => ∃ done',
        ChE env R input f (fun _ => True) x.d.id c.offset { c with res := c.res.markPending c.offset x.d.id } (done' ++ x.bs) st' ∧
        (st'.mtch = true → ∃ ns, f a c.offset = some (st'.to, ns))
  | 0, _, _, _, _ => trivial
  | n + 1, done, st, h, hcase => by
    unfold choiceLoop
    have h0 : ChE env R input f (fun _ => True) x.d.id c.offset { c with res := c.res.markPending c.offset x.d.id } done
        { st with found := false } := ⟨h.frame, h.inv, h.off, h.good, h.recd, h.no, by simp, h.yes⟩
    have hcase0 : Fresh x c.offset { st with found := false } ∨
        ∃ q, Grown env input x a c.offset (x.ss.length * q + x.ls.length) { st with found := false } := by
      rcases hcase with h | ⟨q, h⟩
      · exact Or.inl ⟨h.mtch, h.none⟩
      · exact Or.inr ⟨q, h.mtch, h.chain, h.tails⟩
    refine Res.Spec.bind (growPass_exact K hR hx hrec hrect hrecf hlim hpend h0 hcase0) ?_
    rintro st' ⟨hst', hend⟩
    split
    · refine growLoop_exact K hR hx hrec hrect hrecf hlim hpend n _ st' hst' ?_
      rcases hend with h | ⟨q, h, -⟩
      · exact Or.inl h
      · exact Or.inr ⟨q, h⟩
    · rename_i hfound
      refine ⟨done, hst', fun hm => ?_⟩
      rcases hend with h | ⟨q, h, h1⟩
      · rw [h.mtch] at hm; cases hm
      · obtain ⟨ns, hc⟩ := h.chain
        exact ⟨ns, hc.top hx.gd hx.ge ⟨_, hx.recurs⟩ hx.growth (h1 (by simpa using hfound)) (K.ref hR _)⟩

theorem choiceLoop_all (K : Ctxt env R input f root) {p : Ptr} {d : PDef} {os : List Ptr} (hR : R p)
    (hd : env.defs[p]? = some d) (hk : d.kind = .choice os) {rec : Ptr → Ctx → Res Ctx} (hrec : RecE env R input f rec)
    (hrect : RecT env R input f rec) (hrecf : RecF env R rec) {c : Ctx} (h : Inv env input none (fun _ _ _ => True) c) (hg : Good env R input f c.res)
    (hpend : Pend env R p c.offset c.res) (hlim : c.offsetLimit = -1) {lfuel : Nat} (hfirst : ∀ t, ¬ c.res.Has c.offset d.id t) :
    (choiceLoop rec d.id c.offset os lfuel
      { c := { c with res := c.res.markPending c.offset d.id }, mtch := false, found := false,
        to := c.offset, failOffset := c.failOffset, failing := none }).Spec True True
      (ChOut env R input f p os d.id c.offset) := by
  have hst : ∀ Q, ChE env R input f Q d.id c.offset { c with res := c.res.markPending c.offset d.id } []
      { c := { c with res := c.res.markPending c.offset d.id }, mtch := false, found := false,
        to := c.offset, failOffset := c.failOffset, failing := none } := by
    intro Q
    refine ⟨.refl _, h.setRes (fun off id to ht => h.store off id to (by simpa using ht)) (h.once.markPending _ _), rfl, ?_, by simp, by simp, by simp, by simp⟩
    refine hg.pending (by simp) (by simp) ?_
    intro p' d' os' off to _ _ _ h1 _
    rw [Results.pcount_markPending] at h1
    exact Or.inl (by omega)
  by_cases hn : ∀ o, ¬ Recurs env.grammar p o
  · refine (choiceLoop_exact K hR hd hk hn hrec hlim hpend lfuel _ _ (hst _)).imp ?_
    rintro st ⟨done, hst⟩
    have hmem : ∀ o ∈ os, o ∈ done ++ os := fun o ho => by simp [ho]
    have hend := K.choice_end hR hd hk hn c.offset
    refine ⟨hst.good, fun o ho => hst.recd o (hmem o ho), fun hmt => ?_, fun hmt => ?_⟩
    · obtain ⟨⟨o, ho, ns, h1⟩, h2, h3⟩ := hst.yes hmt
      refine ⟨?_, h3⟩
      split at hend
      · rw [hend o ho] at h1; cases h1
      · rename_i x hx
        obtain ⟨⟨o', ho', ns', h4⟩, h5⟩ := hend
        have := h5 o ho _ h1
        have := h2 o' (hmem o' ho') _ h4
        simp only at *
        exact ⟨x.2, by rw [hx, show st.to = x.1 by omega]⟩
    · have hno := hst.no hmt
      split at hend
      · assumption
      · obtain ⟨⟨o', ho', ns', h4⟩, h5⟩ := hend
        rw [hno o' (hmem o' ho')] at h4; cases h4
  · simp only [Classical.not_forall, Classical.not_not] at hn
    obtain ⟨s, hs⟩ := hn
    obtain ⟨x, hx, rfl, rfl, rfl⟩ := K.growing hR hd hk hs
    refine (growLoop_exact K hR hx hrec hrect hrecf hlim hpend lfuel _ _ (hst _) (Or.inl ⟨rfl, by simpa using hfirst⟩)).imp ?_
    rintro st ⟨done, hst, hend⟩
    refine ⟨hst.good, fun o ho => ?_, fun hmt => ⟨hend hmt, (hst.yes hmt).2.2⟩, fun hmt => ?_⟩
    · rcases hx.mem.1 ho with hb | hb
      · intro e he _ t ns hf
        obtain ⟨y, hy, rfl⟩ := hx.other K hR hb
        rw [hy.option_none K hR] at hf; cases hf
      · exact hst.recd o (by simp [hb])
    · cases hf : f p c.offset with
      | none => rfl
      | some y =>
        exfalso
        have href := K.ref hR c.offset
        rw [hf] at href
        obtain ⟨k, hch, -⟩ := hx.growth.ref_some hx.gd hx.ge ⟨_, hx.recurs⟩ href
        obtain ⟨j, ns, hb⟩ := hch.hasBase
        obtain ⟨⟨o, ho, ns', ho'⟩, -⟩ := hx.bases K hR hb
        rw [hst.no hmt o (by simp [ho])] at ho'; cases ho'

theorem choiceParse_exact (K : Ctxt env R input f root) {p : Ptr} {d : PDef} {os : List Ptr} (hR : R p)
    (hd : env.defs[p]? = some d) (hk : d.kind = .choice os) {rec : Ptr → Ctx → Res Ctx} (hrec : RecE env R input f rec)
    (hrect : RecT env R input f rec) (hrecf : RecF env R rec)
    {lfuel : Nat} {c : Ctx} (h : Inv env input none (fun _ _ _ => True) c) (hg : Good env R input f c.res)
    (hpend : Pend env R p c.offset c.res) (hlim : c.offsetLimit = -1) :
    (choiceParse rec env.keywords lfuel p d os c).Spec True True (Exact env R input f p c) := by
  have hk' : d.kind.isChar = false := by rw [hk]; rfl
  have hp0 : c.res.pcount c.offset d.id = 0 := hpend.here hR hd hk' (Or.inl rfl)
  unfold choiceParse
  split
  · rename_i c' hc'
    have := hg.lookup K hR hd hk hp0
    unfold Ctx.fromResults at hc'
    split at hc'
    · cases hc'
    · rename_i to hr
      rw [hr] at this
      obtain ⟨⟨ns, h1⟩, h2⟩ := this
      cases hc'
      exact ⟨hg, fun _ => ⟨ns, h1⟩, by simp [Ctx.success], h2⟩
    · rename_i hr
      rw [hr] at this
      cases hc'
      refine ⟨hg, by simp [Ctx.fail], fun _ => this, ?_⟩
      intro e _ _ t ns hf
      rw [this] at hf; cases hf
  · rw [if_neg (by rw [(Results.pending_false_iff ..).2 hp0]; simp)]
    simp only
    rename_i hlook
    refine Res.Spec.bind (choiceLoop_all K hR hd hk hrec hrect hrecf h hg hpend hlim ?_) ?_
    · unfold Ctx.fromResults at hlook
      split at hlook
      · rename_i hl
        exact ((Results.longestResult_none ..).1 hl).2
      · cases hlook
      · cases hlook
    rintro st ⟨hsg, hsr, hsy, hsn⟩
    -- removing the mark
    have key : ∀ (c2 : Ctx) (r : Results), c2.res.unmarkPending c.offset d.id = .ok r →
        Good env R input f c2.res → (∀ x i t, st.c.res.Has x i t → c2.res.Has x i t) → Recorded env f c2.res p c.offset →
        Good env R input f r ∧ Recorded env f r p c.offset := by
      intro c2 r hr g1 g2 g3
      obtain ⟨-, u1, u2, -, u3⟩ := Results.unmarkPending_ok hr
      refine ⟨g1.pending (fun _ _ _ => Results.Has.congr u1) (fun _ _ => Results.NoM.congr u2) ?_,
        g3.mono fun _ _ _ => (Results.Has.congr u1).2⟩
      intro p' d' os' off to hR' hd' hk'' h1 h2
      rw [u3] at h1
      by_cases hx : off = c.offset ∧ d'.id = d.id
      · have := K.ids hR' hR hd' hd (by rw [hk'']; rfl) hk' hx.2
        subst this
        rw [hd] at hd'; cases hd'
        rw [hk] at hk''; cases hk''
        rw [hx.1]
        exact Or.inr ⟨g3, fun o ho => (hsr o ho).mono g2⟩
      · rw [if_neg hx] at h1
        exact Or.inl (by omega)
    split
    · rename_i hmt
      obtain ⟨hf, h3⟩ := hsy hmt
      have hrecd : Recorded env f st.c.res p c.offset := by
        intro e he _ t ns' hf'
        rw [hd] at he; cases he
        obtain ⟨ns, hf⟩ := hf
        rw [hf] at hf'; cases hf'
        exact h3
      rw [K.keywords hR hd hk]
      simp only [Res.bind_ok, Bool.false_eq_true, if_false]
      have fin : ∀ fo fi, ((({ st.c with failOffset := fo, failing := fi } : Ctx).success st.to).res.unmarkPending
                  c.offset d.id |>.bind fun r =>
                    .ok { ({ st.c with failOffset := fo, failing := fi } : Ctx).success st.to with res := r }).Spec
                  True True (Exact env R input f p c) := by
        intro fo fi
        cases hu : (({ st.c with failOffset := fo, failing := fi } : Ctx).success st.to).res.unmarkPending c.offset d.id with
        | panic => trivial
        | oof => trivial
        | ok r =>
          obtain ⟨k1, k2⟩ := key _ r hu hsg (fun _ _ _ h => h) hrecd
          exact ⟨k1, fun _ => hf, by simp [Ctx.success], k2⟩
      split
      · exact fin _ _
      · split
        · exact fin _ _
        · exact fin _ _
    · rename_i hmt
      have hf : f p c.offset = none := hsn (by simpa using hmt)
      have hrecd : ∀ r, Recorded env f r p c.offset := by
        intro r e _ _ t ns hf'
        rw [hf] at hf'; cases hf'
      unfold choiceNoMatch
      simp only
      have fin : ∀ c2 : Ctx, c2.res = st.c.res →
            (((({ c2 with res := c2.res.setNoMatch c.offset d.id } : Ctx).fail c.offset).res.unmarkPending
              c.offset d.id).bind fun r =>
                .ok { (({ c2 with res := c2.res.setNoMatch c.offset d.id } : Ctx).fail c.offset) with
                  res := r }).Spec True True (Exact env R input f p c) := by
        intro c2 g1
        cases hu : (({ c2 with res := c2.res.setNoMatch c.offset d.id } : Ctx).fail c.offset).res.unmarkPending c.offset d.id with
        | panic => trivial
        | oof => trivial
        | ok r =>
          obtain ⟨k1, k2⟩ := key _ r hu (by
            simp only [Ctx.fail, g1]
            refine hsg.setNoMatch ?_ ?_
            · intro p' d' hR' hd' hk'' hid
              have := K.ids hR' hR hd' hd hk'' hk' hid
              subst this
              exact hf
            · intro a x hRa hx hid
              have := K.ids (hx.reach K hRa) hR hx.ds hd (by rw [hx.ks]; rfl) hk' hid
              have h1 := hx.ds
              rw [this, hd] at h1
              have h2 := hx.ks
              rw [← Option.some.inj h1, hk] at h2
              cases h2) (by simp [Ctx.fail, g1]) (hrecd _)
          exact ⟨k1, by simp [Ctx.fail], fun _ => hf, k2⟩
      split
      · exact fin _ (by simp)
      · exact fin _ rfl

/-! ### Sequences -/

theorem Good.gens (K : Ctxt env R input f root) {p : Ptr} {d : PDef} (hR : R p) (hd : env.defs[p]? = some d)
    (hk : d.kind.isChar = false) {from_ to : Nat} :
    ∀ (gens : List Nat) (r : Results), (∀ g ∈ gens, g ∈ d.gens) → Good env R input f r →
      (∀ q e, R q → env.defs[q]? = some e → Generalizes env q p → Below env f q from_ to ∨
        ∃ x, Growing.Of x env q ∧ r.Has from_ x.e.id to) →
      Good env R input f (setGeneralizations from_ to gens r) ∧
      (∀ off id t, r.Has off id t → (setGeneralizations from_ to gens r).Has off id t) ∧
      (∀ off id, (setGeneralizations from_ to gens r).pcount off id = r.pcount off id)
  | [], r, _, h, _ => ⟨h, fun _ _ _ h => h, fun _ _ => rfl⟩
  | g :: gens, r, hg, h, hb => by
    have hstep : ∀ r1 : Results, r1 = (if r.pending from_ g then r.setMatch from_ g to else r) →
        Good env R input f r1 ∧ (∀ off id t, r.Has off id t → r1.Has off id t) ∧ ∀ off id, r1.pcount off id = r.pcount off id := by
      intro r1 hr1
      split at hr1
      · rename_i hpe
        subst hr1
        obtain ⟨q, e, g1, g2, rfl, g4⟩ := K.gens hR hd hk (hg g (by simp))
        obtain ⟨os, g5⟩ := g4.isChoice g2
        refine ⟨h.setMatch_choice K g1 g2 g5 (hb q e g1 g2 g4) ?_,
          fun off id t ht => (Results.has_setMatch ..).2 (Or.inl ht), fun _ _ => by simp⟩
        have := (Results.pending_iff ..).1 hpe
        omega
      · subst hr1
        exact ⟨h, fun _ _ _ h => h, fun _ _ => rfl⟩
    obtain ⟨a1, a2, a3⟩ := hstep _ rfl
    obtain ⟨b1, b2, b3⟩ := Good.gens K hR hd hk gens _ (fun x hx => hg x (by simp [hx])) a1 (by
      intro q e hq he hgen
      rcases hb q e hq he hgen with hb | ⟨x, h1, h3⟩
      · exact Or.inl hb
      · exact Or.inr ⟨x, h1, a2 _ _ _ h3⟩)
    exact ⟨b1, fun o i t h => b2 o i t (a2 o i t h), fun o i => (b3 o i).trans (a3 o i)⟩

/-- What is recorded for the generalizations. -/
theorem has_setGeneralizations {from_ to : Nat} : ∀ (gens : List Nat) (r : Results) (off id t : Nat),
    (setGeneralizations from_ to gens r).Has off id t ↔
      r.Has off id t ∨ (off = from_ ∧ t = to ∧ id ∈ gens ∧ 0 < r.pcount from_ id)
  | [], r, off, id, t => by simp [setGeneralizations]
  | g :: gens, r, off, id, t => by
    have h := has_setGeneralizations (from_ := from_) (to := to) gens (if r.pending from_ g then r.setMatch from_ g to else r) off id t
    have h0 : setGeneralizations from_ to (g :: gens) r =
      setGeneralizations from_ to gens (if r.pending from_ g then r.setMatch from_ g to else r) := rfl
    rw [h0, h]
    split
    · rename_i hp
      have hp := (Results.pending_iff ..).1 hp
      rw [Results.has_setMatch, Results.pcount_setMatch]
      constructor
      · rintro ((h | ⟨rfl, rfl, rfl⟩) | ⟨h1, h2, h3, h4⟩)
        · exact Or.inl h
        · exact Or.inr ⟨rfl, rfl, by simp, hp⟩
        · exact Or.inr ⟨h1, h2, by simp [h3], h4⟩
      · rintro (h | ⟨rfl, rfl, h3, h4⟩)
        · exact Or.inl (Or.inl h)
        · rcases List.mem_cons.1 h3 with rfl | h3
          · exact Or.inl (Or.inr ⟨rfl, rfl, rfl⟩)
          · exact Or.inr ⟨rfl, rfl, h3, h4⟩
    · rename_i hp
      rw [Results.pending_iff] at hp
      constructor
      · rintro (h | ⟨h1, h2, h3, h4⟩)
        · exact Or.inl h
        · exact Or.inr ⟨h1, h2, by simp [h3], h4⟩
      · rintro (h | ⟨rfl, rfl, h3, h4⟩)
        · exact Or.inl h
        · rcases List.mem_cons.1 h3 with rfl | h3
          · exact absurd h4 hp
          · exact Or.inr ⟨rfl, rfl, h3, h4⟩

theorem noM_setGeneralizations {from_ to : Nat} : ∀ (gens : List Nat) (r : Results) (off id : Nat),
    (setGeneralizations from_ to gens r).NoM off id ↔ r.NoM off id
  | [], r, off, id => Iff.rfl
  | g :: gens, r, off, id => by
    have h0 : setGeneralizations from_ to (g :: gens) r =
      setGeneralizations from_ to gens (if r.pending from_ g then r.setMatch from_ g to else r) := rfl
    rw [h0, noM_setGeneralizations gens]
    split <;> simp

theorem pcount_setGeneralizations {from_ to : Nat} : ∀ (gens : List Nat) (r : Results) (off id : Nat),
    (setGeneralizations from_ to gens r).pcount off id = r.pcount off id
  | [], r, off, id => rfl
  | g :: gens, r, off, id => by
    have h0 : setGeneralizations from_ to (g :: gens) r =
      setGeneralizations from_ to gens (if r.pending from_ g then r.setMatch from_ g to else r) := rfl
    rw [h0, pcount_setGeneralizations gens]
    split <;> simp

/-- A new record of a left recursive option, and those of its generalizations. -/
theorem Good.gens_tail (K : Ctxt env R input f root) {r : Results} (h : Good env R input f r) {off k j to : Nat} {ns ms : List Node}
    {a : Ptr} {x : Growing} (hR : R a) (hx : x.Of env a) (h1 : x.Step env input off k j ns to ms)
    (h3 : r.Has off x.d.id j) (h4 : ∀ q l, Visits f x.tail 0 j q l → Recorded env f r q l) :
    Good env R input f ((setGeneralizations off to x.e.gens r).setMatch off x.e.id to) := by
  have g1 := h.setMatch_tail K hR hx h1 h3 h4
  obtain ⟨g2, -, g3⟩ := Good.gens K (hx.reach K hR) hx.ds (by rw [hx.ks]; rfl) (from_ := off) (to := to) x.e.gens _ (fun _ h => h) g1 (by
    intro q e hq he hgen
    rcases K.generalizes_tail hgen hq hx.recurs with rfl | hgen
    · exact Or.inr ⟨x, hx, (Results.has_setMatch ..).2 (Or.inr ⟨rfl, rfl, rfl⟩)⟩
    · obtain ⟨t, ns, hf, hle⟩ := hx.le K hR (hx.next h1)
      exact Or.inl (K.generalizes hgen hq (choice_not_tail hx.da hx.ka) hf hle))
  refine g2.pending ?_ ?_ ?_
  · intro o i t
    rw [Results.has_setMatch, has_setGeneralizations, has_setGeneralizations, Results.has_setMatch, Results.pcount_setMatch]
    constructor
    · rintro ((h | h) | h)
      · exact Or.inl (Or.inl h)
      · exact Or.inr h
      · exact Or.inl (Or.inr h)
    · rintro ((h | h) | h)
      · exact Or.inl (Or.inl h)
      · exact Or.inr h
      · exact Or.inl (Or.inr h)
  · intro o i
    rw [Results.noM_setMatch, noM_setGeneralizations, noM_setGeneralizations, Results.noM_setMatch]
  · intro p' d' os' o t _ _ _ hp _
    rw [Results.pcount_setMatch, pcount_setGeneralizations] at hp
    rw [pcount_setGeneralizations, Results.pcount_setMatch]
    exact Or.inl hp

/-- Removing the mark of a sequence. -/
theorem Good.unmarkSeq (K : Ctxt env R input f root) {p : Ptr} {d : PDef} {is : List Ptr} {rs : List (Int × Int)} {ac : Bool}
    (hR : R p) (hd : env.defs[p]? = some d) (hk : d.kind = .seq is rs ac) {off : Nat} {c c' : Ctx} (h : Good env R input f c.res)
    (hu : unmarkUnless ac off d.id c = .ok c') :
    Good env R input f c'.res ∧ (∀ o i t, c'.res.Has o i t ↔ c.res.Has o i t) ∧ c'.offset = c.offset ∧ c'.matchLast = c.matchLast := by
  unfold unmarkUnless at hu
  split at hu
  · cases hu
    exact ⟨h, fun _ _ _ => Iff.rfl, rfl, rfl⟩
  · cases hr : c.res.unmarkPending off d.id with
    | panic => rw [hr] at hu; cases hu
    | oof => rw [hr] at hu; cases hu
    | ok r =>
      rw [hr] at hu
      simp only [Res.bind_ok] at hu
      cases hu
      obtain ⟨-, u1, u2, -, u3⟩ := Results.unmarkPending_ok hr
      refine ⟨h.pending (fun _ _ _ => Results.Has.congr u1) (fun _ _ => Results.NoM.congr u2) ?_,
        fun _ _ _ => Results.Has.congr u1, rfl, rfl⟩
      intro p' d' os' o to hR' hd' hk' h1 h2
      rw [u3] at h1
      by_cases hx : o = off ∧ d'.id = d.id
      · have := K.ids hR' hR hd' hd (by rw [hk']; rfl) (by rw [hk]; rfl) hx.2
        subst this
        rw [hd] at hd'; cases hd'
        rw [hk] at hk'; cases hk'
      · rw [if_neg hx] at h1
        exact Or.inl (by omega)

theorem seqItemFailed_exact (K : Ctxt env R input f root) {p : Ptr} {d : PDef} {is : List Ptr} {rs : List (Int × Int)}
    {ac : Bool} (hR : R p) (hn : ¬ IsTail env p) (hd : env.defs[p]? = some d) (hk : d.kind = .seq is rs ac) {from_ to : Nat} {c : Ctx}
    (hg : Good env R input f c.res) (hf : f p from_ = none) :
    (seqItemFailed p d ac from_ to c).Spec True True fun c' => Good env R input f c'.res ∧ c'.matchLast = false := by
  unfold seqItemFailed
  simp only
  have fin : ∀ c2 : Ctx, c2.res = c.res → c2.matchLast = false →
      (unmarkUnless ac from_ d.id c2).Spec True True fun c' => Good env R input f c'.res ∧ c'.matchLast = false := by
    intro c2 h1 h2
    cases hu : unmarkUnless ac from_ d.id c2 with
    | panic => trivial
    | oof => trivial
    | ok c3 =>
      obtain ⟨u1, -, -, u2⟩ := Good.unmarkSeq K hR hd hk (by rw [h1]; exact hg) hu
      exact ⟨u1, by rw [u2, h2]⟩
  split
  · rename_i c' hc'
    unfold Ctx.fromResults at hc'
    split at hc'
    · cases hc'
    · rename_i t hr
      have hh := ((Results.longestResult_some ..).1 hr).2.1
      obtain ⟨ns, h1⟩ := hg.seqHas hR hn hd hk hh
      rw [hf] at h1; cases h1
    · cases hc'
      split
      · exact fin _ rfl rfl
      · exact fin _ rfl rfl
  · exact fin _ (by simp [Ctx.fail]) (by simp [Ctx.fail])

/-- The left recursive option without a further tail. -/
theorem seqItemFailed_tail (K : Ctxt env R input f root) {a : Ptr} {x : Growing} (hR : R a) (hx : x.Of env a) {from_ to : Nat} {c : Ctx}
    (hg : Good env R input f c.res) :
    (seqItemFailed x.s x.e false from_ to c).Spec True True fun c' => Good env R input f c'.res ∧
      (∀ o i t, c'.res.Has o i t ↔ c.res.Has o i t) ∧ (c'.matchLast = true → c.res.Has from_ x.e.id c'.offset) := by
  unfold seqItemFailed
  simp only
  have fin : ∀ (c2 : Ctx), c2.res = c.res → (c2.matchLast = true → c.res.Has from_ x.e.id c2.offset) →
      (unmarkUnless false from_ x.e.id c2).Spec True True fun c' => Good env R input f c'.res ∧
        (∀ o i t, c'.res.Has o i t ↔ c.res.Has o i t) ∧ (c'.matchLast = true → c.res.Has from_ x.e.id c'.offset) := by
    intro c2 h1 h2
    cases hu : unmarkUnless false from_ x.e.id c2 with
    | panic => trivial
    | oof => trivial
    | ok c3 =>
      obtain ⟨u1, u2, u3, u4⟩ := Good.unmarkSeq K (hx.reach K hR) hx.ds hx.ks (by rw [h1]; exact hg) hu
      refine ⟨u1, fun o i t => by rw [u2, h1], ?_⟩
      rw [u3, u4]
      exact h2
  split
  · rename_i c' hc'
    have key : c'.res = c.res ∧ (c'.matchLast = true → c.res.Has from_ x.e.id c'.offset) := by
      unfold Ctx.fromResults at hc'
      split at hc'
      · cases hc'
      · rename_i t hl
        cases hc'
        exact ⟨rfl, fun _ => ((Results.longestResult_some ..).1 hl).2.1⟩
      · cases hc'
        exact ⟨rfl, by simp [Ctx.fail]⟩
    split
    · exact fin _ key.1 key.2
    · exact fin _ key.1 key.2
  · exact fin _ (by simp [Ctx.fail]) (by simp [Ctx.fail])

/-- What a text matches. -/
theorem RefItems.text {B : Ptr → Nat → Nat → Prop} {its : List (Ptr × Int × Int)} (ht : TextItems env its) :
    ∀ {i : Nat} {m : Match}, RefItems env.grammar B input its 0 i m →
      ∀ t, DerivesItems env.grammar input its i t ↔ ∃ ns, m = some (t, ns) := by
  induction its with
  | nil =>
    intro i m h t
    cases h
    constructor
    · intro h; cases h; exact ⟨_, rfl⟩
    · rintro ⟨ns, h⟩; cases h; exact .nil
  | cons x its ih =>
    obtain ⟨n, r⟩ := x
    intro i m h t
    obtain ⟨rfl, e, he, hke⟩ := ht (n, r) (by simp)
    have ih := fun {i m} => @ih (fun x hx => ht x (by simp [hx])) i m
    cases hk : e.kind with
    | choice => simp [hk, PKind.isChar] at hke
    | seq => simp [hk, PKind.isChar] at hke
    | char neg cs rs =>
      have hchar : ∀ {m : Match}, Ref env.grammar B input n i m →
          (m = none ∧ ∀ j, ¬ Derives env.grammar input n i j) ∨ (∃ ns, m = some (i + 1, ns)) ∧
            ∀ j, Derives env.grammar input n i j ↔ j = i + 1 := by
        intro m h
        have hg := env.grammar_some he
        cases h with
        | char h1 h2 h3 h4 =>
          rw [hg] at h1; cases h1
          simp only [hk, PKind.expr] at h2
          cases h2
          refine Or.inr ⟨⟨_, rfl⟩, fun j => ?_⟩
          rw [Derives.char_iff he hk]
          exact ⟨fun h => h.1, fun h => ⟨h, _, h3, (matchChar_iff ..).2 h4⟩⟩
        | noChar h1 h2 h3 =>
          rw [hg] at h1; cases h1
          simp only [hk, PKind.expr] at h2
          cases h2
          refine Or.inl ⟨rfl, fun j hj => ?_⟩
          obtain ⟨-, t, h4, h5⟩ := (Derives.char_iff he hk).1 hj
          exact h3 t h4 ((matchChar_iff ..).1 h5)
        | choice h1 h2 => rw [hg] at h1; cases h1; simp [hk, PKind.expr] at h2
        | noBase h1 h2 => rw [hg] at h1; cases h1; simp [hk, PKind.expr] at h2
        | grow h1 h2 => rw [hg] at h1; cases h1; simp [hk, PKind.expr] at h2
        | seq h1 h2 => rw [hg] at h1; cases h1; simp [hk, PKind.expr] at h2
        | blocked h1 h2 => rw [hg] at h1; cases h1; simp [hk, PKind.expr] at h2
      rw [DerivesItems.one_iff]
      cases h with
      | fail h1 h2 =>
        rcases hchar h1 with ⟨-, h3⟩ | ⟨⟨_, h3⟩, -⟩
        · constructor
          · rintro ⟨q, h4, -⟩; exact absurd h4 (h3 q)
          · rintro ⟨_, h⟩; cases h
        · cases h3
      | done h1 h2 => omega
      | empty h1 h2 =>
        rcases hchar h1 with ⟨h3, -⟩ | ⟨⟨_, h3⟩, -⟩
        · cases h3
        · simp at h3
      | last h1 h2 h3 h4 h5 =>
        rcases hchar h1 with ⟨h6, -⟩ | ⟨⟨_, h6⟩, h7⟩
        · cases h6
        · cases h6
          have := ih h5 t
          constructor
          · rintro ⟨q, h8, h9⟩
            obtain rfl := (h7 q).1 h8
            obtain ⟨ns, h10⟩ := this.1 h9
            exact ⟨_, by rw [h10]; rfl⟩
          · rintro ⟨ns, h8⟩
            refine ⟨_, (h7 _).2 rfl, this.2 ?_⟩
            rename_i m'
            cases m' with
            | none => cases h8
            | some y =>
              obtain ⟨y1, y2⟩ := y
              simp only [prepend, Option.map_some, Option.some.injEq, Prod.mk.injEq] at h8
              exact ⟨y2, by rw [h8.1]⟩
      | more h1 h2 h3 => exact absurd ⟨by omega, by omega⟩ h3

theorem Ctxt.text (K : Ctxt env R input f root) {k : Ptr} (hkw : k ∈ env.keywords) (ht : TextParser env k) (i t : Nat) :
    Derives env.grammar input k i t ↔ ∃ ns, f k i = some (t, ns) := by
  obtain ⟨d, is, rs, hd, hk, hone⟩ := ht
  have hR := K.closed.keyword hkw
  have htext : TextItems env (is.zip rs) := by
    intro x hx
    exact ⟨hone x hx, K.closed.chars hR hd hk (List.of_mem_zip hx).1⟩
  rw [Derives.seq_iff hd hk]
  obtain ⟨m, h1, h2 | ⟨j, ns, -, ⟨⟨d', h3, h4⟩, -⟩, -⟩⟩ := K.seq hR hd hk i
  · rw [RefItems.text htext h1, h2.2]
    constructor
    · rintro ⟨ns, rfl⟩; exact ⟨_, rfl⟩
    · rintro ⟨ns, h⟩
      cases m with
      | none => cases h
      | some y =>
        obtain ⟨y1, y2⟩ := y
        simp only [Option.map_some, Option.some.injEq, Prod.mk.injEq] at h
        exact ⟨y2, by rw [h.1]⟩
  · rw [hd] at h3; cases h3
    rw [K.closed.kwflags hkw hd hk] at h4; cases h4

theorem isKeywordLoop_exact (K : Ctxt env R input f root) {rec : Ptr → Ctx → Res Ctx} (hrec : RecK env input rec)
    {from_ to : Nat} (hle : from_ ≤ to) :
    ∀ (kws : List Ptr) (c : Ctx), (∀ k ∈ kws, k ∈ env.keywords ∧ TextParser env k) →
      Inv env input none (fun _ _ _ => True) c → Good env R input f c.res → from_ ≤ c.tokens.length → c.offsetLimit = (to : Int) →
      (isKeywordLoop rec from_ to kws c).Spec True True fun x => Frame c x.2 ∧ Inv env input none (fun _ _ _ => True) x.2 ∧
        Good env R input f x.2.res ∧ (x.1 = true ↔ ∃ k ∈ kws, Derives env.grammar input k from_ to)
  | [], c, _, h, hg, _, _ => ⟨.refl c, h, hg, by simp⟩
  | kw :: kws, c, hq, h, hg, hf, hl => by
    unfold isKeywordLoop
    obtain ⟨hkw, ht⟩ := hq kw (by simp)
    have hR := K.closed.keyword hkw
    obtain ⟨d, hd⟩ := K.closed.def_ hR
    refine Res.Spec.bind (hrec kw d { c with offset := from_ } to hkw ht hd (h.setOffset hf) hle hl) ?_
    rintro c' ⟨hp, ho⟩
    have hfr : Frame c c' := (Frame.offset c from_).trans hp.frame
    have ⟨d1, is, rs, hd1, hk1, _⟩ := ht
    rw [hd] at hd1; cases hd1
    have hgood : Good env R input f c'.res := by
      cases ho with
      | failed _ h1 _ => rw [h1]; exact hg
      | matched t h1 h2 h3 h4 h5 =>
        rw [h5]
        obtain ⟨ns, hft⟩ := (K.text hkw ht _ _).1 h1
        have hnt := K.keyword_not_tail hkw ht
        obtain ⟨g1, g2, g3⟩ := Good.gens K hR hd (by rw [hk1]; rfl) d.gens c.res (fun _ h => h) hg
          fun q e hq he hgen => Or.inl (K.generalizes hgen hq hnt hft (Nat.le_refl _))
        exact g1.setMatch_seq K hR hnt hd hk1 ⟨ns, hft⟩ (by simp)
    have hiff : (c'.matchLast = true ∧ c'.offset = to) ↔ Derives env.grammar input kw from_ to := by
      cases ho with
      | failed h1 h2 h3 =>
        constructor
        · rintro ⟨h4, rfl⟩
          obtain ⟨ns, h5⟩ := hg.seqHas hR (K.keyword_not_tail hkw ht) hd hk1 (h3 h4)
          exact (K.text hkw ht _ _).2 ⟨ns, h5⟩
        · intro h4
          have := h1 _ h4
          omega
      | matched t h1 h2 h3 h4 h5 =>
        constructor
        · rintro ⟨-, rfl⟩
          rw [h4]
          exact h1
        · intro h6
          refine ⟨h3, ?_⟩
          rw [h4]
          exact ht.unique K.closed hR h1 h6
    split
    · rename_i hc
      simp only [Bool.and_eq_true, beq_iff_eq] at hc
      exact ⟨hfr, hp.inv, hgood, by simp; exact Or.inl (hiff.1 hc)⟩
    · rename_i hc
      simp only [Bool.and_eq_true, beq_iff_eq] at hc
      refine (isKeywordLoop_exact K hrec hle kws c' (fun k hk => hq k (by simp [hk])) hp.inv hgood
        (Nat.le_trans hf hfr.tokLen) (by rw [hfr.lim]; exact hl)).imp ?_
      rintro x ⟨h1, h2, h3, h4⟩
      refine ⟨hfr.trans h1, h2, h3, h4.trans ?_⟩
      constructor
      · rintro ⟨k, h5, h6⟩; exact ⟨k, by simp [h5], h6⟩
      · rintro ⟨k, h5, h6⟩
        simp only [List.mem_cons] at h5
        rcases h5 with rfl | h5
        · exact absurd (hiff.2 h6) hc
        · exact ⟨k, h5, h6⟩

/-- The keyword check of a sequence. -/
theorem keyword_exact (K : Ctxt env R input f root) {p : Ptr} {d : PDef}
    (hR : R p) (hd : env.defs[p]? = some d) {rec : Ptr → Ctx → Res Ctx}
    (hrec : RecK env input rec) {c : Ctx} {from_ to : Nat} (h : Inv env input none (fun _ _ _ => True) c)
    (hg : Good env R input f c.res) (hle : from_ ≤ to) (hf : from_ ≤ c.tokens.length) :
    (if d.commit.noKeyword = true then isKeyword rec env.keywords c from_ to else .ok (false, c)).Spec True True fun x =>
      Frame c x.2 ∧ Inv env input none (fun _ _ _ => True) x.2 ∧ Good env R input f x.2.res ∧
        (x.1 = true ↔ env.blocked input p from_ to) := by
  split
  · rename_i hn
    have hall : ∀ k ∈ env.keywords, k ∈ env.keywords ∧ TextParser env k := by
      intro k hk
      refine ⟨hk, ?_⟩
      rcases K.noKw hR hd hn with h | ⟨-, h⟩
      · rw [h] at hk; cases hk
      · exact h k hk
    unfold isKeyword
    refine Res.Spec.bind (isKeywordLoop_exact K hrec hle env.keywords { c with offsetLimit := (to : Int) } hall h.setLimit hg hf rfl) ?_
    rintro ⟨b, c'⟩ ⟨h1, h2, h3, h4⟩
    refine ⟨?_, h2.setLimit, h3, h4.trans ?_⟩
    · exact ⟨h1.pc, h1.has, h1.noM, rfl, h1.toks, h1.cons, h1.plen, h1.err, h1.eof⟩
    · exact ⟨fun h => ⟨⟨d, hd, hn⟩, h⟩, fun h => h.2⟩
  · rename_i hn
    refine ⟨.refl c, h, hg, by simp, ?_⟩
    rintro ⟨⟨d', h1, h2⟩, -⟩
    rw [hd] at h1; cases h1
    exact absurd h2 hn

/-- The result of the loop of a sequence. -/
def SeqE (env : Env) (R : Ptr → Prop) (input : List Rune) (f : Ptr → Nat → Match) (Ret : Ctx → Prop)
    (its : List (Ptr × Int × Int)) (k i : Nat) (cs : Ctx) : SeqOut → Prop
  | .complete to c => Frame cs c ∧ Inv env input none (fun _ _ _ => True) c ∧ c.offset = to ∧ Good env R input f c.res ∧
      (∃ ns, RefItems env.grammar (env.blocked input) input its k i (some (to, ns))) ∧
      ∀ q j, Visits f its k i q j → Recorded env f c.res q j
  | .returned c => Ret c

theorem seqLoop_exact (K : Ctxt env R input f root) {p : Ptr} {d : PDef} {is : List Ptr} {rs : List (Int × Int)}
    {ac : Bool} (hR : R p) (hd : env.defs[p]? = some d) (hk : d.kind = .seq is rs ac) {rec : Ptr → Ctx → Res Ctx}
    (hrec : RecE env R input f rec) {c0 : Ctx} (hlim : c0.offsetLimit = -1)
    (hlater : ∀ o, c0.offset < o → ∀ id, c0.res.pcount o id = 0) {Z : Prop} {Ret P : Ctx → Prop}
    (hP : ∀ q ∈ is, ∀ c c', P c → rec q c = .ok c' → P c')
    (hfail : Z → ∀ to c, Good env R input f c.res → P c →
      (seqItemFailed p d ac c0.offset to c).Spec True True Ret) :
    ∀ (n : Nat) (front its : List (Ptr × Int × Int)) (k to : Nat) (c : Ctx), is.zip rs = front ++ its →
      (c0.offset = to → (¬ IsTail env p ∧ Pend env R p c0.offset c0.res) ∧ k = 0 ∧ ∀ y ∈ front, 0 < y.2.1 → Nullable env.grammar y.1) → c0.offset ≤ to →
      Inv env input none (fun _ _ _ => True) c → Good env R input f c.res → Frame (seqMark ac d.id c0) c → c.offset = to →
      (RefItems env.grammar (env.blocked input) input its k to none → Z) → P c →
      (seqLoop rec p d ac c0.offset n its k to c).Spec True True (SeqE env R input f Ret its k to c)
  | 0, _, _, _, _, _, _, _, _, _, _, _, _, _, _ => trivial
  | n + 1, front, [], k, to, c, _, _, _, hi, hg, hf, ho, _, _ => by
    refine ⟨.refl _, hi, ho, hg, ⟨[], .nil⟩, ?_⟩
    intro q j hv
    cases hv
  | n + 1, front, (item, (mn, mx)) :: rest, k, to, c, hall, hleft, hle, hi, hg, hf, ho, hnone, hPc => by
    have hk' : d.kind.isChar = false := by rw [hk]; rfl
    have hmem : item ∈ is := by
      have : (item, (mn, mx)) ∈ is.zip rs := by rw [hall]; simp
      exact (List.of_mem_zip this).1
    have hRi : R item := K.closed.child hR hd (by rw [hk]; exact hmem)
    have hpc : ∀ x i, c.res.pcount x i ≤ c0.res.pcount x i + if x = c0.offset ∧ i = d.id then 1 else 0 := by
      intro x i
      rw [hf.pc]
      unfold seqMark
      split
      · omega
      · simp only [Results.pcount_markPending]; omega
    have hmo : (seqMark ac d.id c0).offsetLimit = c0.offsetLimit := by unfold seqMark; split <;> rfl
    have hpi : Pend env R item to c.res := by
      by_cases he : c0.offset = to
      · rw [← he]
        refine (hleft he).1.2.call K hR (hleft he).1.1 hd hk' ?_ hpc
        exact .item (x := (item, (mn, mx))) (env.grammar_some hd) (by simp [hk, PKind.expr, hall]; rfl) (hleft he).2.2
      · exact Pend.after hlater (by omega) hpc
    have href := K.ref hRi to
    unfold seqLoop
    refine Res.Spec.bind (Res.Spec.with_eq (hrec item c hRi (K.item_not_tail hR hd hk hmem) hi hg (by rw [ho]; exact hpi)
      (by rw [hf.lim, hmo]; exact hlim))) ?_
    rintro c' ⟨⟨hc', he⟩, heqc⟩
    have hPc' := hP item hmem c c' hPc heqc
    have hfr := hf.trans hc'.frame
    have e_yes := he.yes
    have e_no := he.no
    have e_rec := he.recd
    rw [ho] at e_yes e_no e_rec
    have hrest : is.zip rs = (front ++ [(item, (mn, mx))]) ++ rest := by simp [hall]
    -- what the rest of the loop adds
    have goon : ∀ (its' : List (Ptr × Int × Int)) (k' to' : Nat),
        (∀ m, RefItems env.grammar (env.blocked input) input its' k' to' m → ∃ ns, RefItems env.grammar (env.blocked input) input ((item, (mn, mx)) :: rest) k to (prepend ns m)) →
        (∀ q j, Visits f ((item, (mn, mx)) :: rest) k to q j → (q = item ∧ j = to) ∨ Visits f its' k' to' q j) →
        ∀ out, SeqE env R input f Ret its' k' to' c' out →
          SeqE env R input f Ret ((item, (mn, mx)) :: rest) k to c out := by
      intro its' k' to' h1 h2 out h4
      cases out with
      | returned c3 => exact h4
      | complete t c3 =>
        obtain ⟨g1, g0, g0', g2, ⟨ns, g3⟩, g4⟩ := h4
        obtain ⟨ns', g5⟩ := h1 _ g3
        refine ⟨hc'.frame.trans g1, g0, g0', g2, ⟨ns' ++ ns, g5⟩, ?_⟩
        intro q j hv
        rcases h2 q j hv with ⟨rfl, rfl⟩ | hv
        · exact e_rec.mono g1.has
        · exact g4 q j hv
    have gonone : ∀ (its' : List (Ptr × Int × Int)) (k' to' : Nat),
        (∀ m, RefItems env.grammar (env.blocked input) input its' k' to' m → ∃ ns, RefItems env.grammar (env.blocked input) input ((item, (mn, mx)) :: rest) k to (prepend ns m)) →
        RefItems env.grammar (env.blocked input) input its' k' to' none → Z := by
      intro its' k' to' h1 h2
      obtain ⟨ns, h3⟩ := h1 _ h2
      exact hnone h3
    have hprep : ∀ m : Match, prepend [] m = m := by
      intro m; cases m <;> simp [prepend]
    split
    · rename_i hm
      simp only [Bool.not_eq_true'] at hm
      have ho' := hc'.fail hm
      rw [ho] at ho'
      have hno := e_no hm
      rw [hno] at href
      split
      · rename_i hmn
        have h1 : ∀ m, RefItems env.grammar (env.blocked input) input rest 0 to m →
            ∃ ns, RefItems env.grammar (env.blocked input) input ((item, (mn, mx)) :: rest) k to (prepend ns m) :=
          fun m hm => ⟨[], by rw [hprep]; exact .done href hmn hm⟩
        refine (seqLoop_exact K hR hd hk hrec hlim hlater hP hfail n _ rest 0 to c' hrest ?_ hle hc'.inv he.good hfr ho'
          (gonone _ _ _ h1) hPc').imp (goon _ _ _ h1 ?_)
        · intro hx
          obtain ⟨h2, -, h3⟩ := hleft hx
          refine ⟨h2, rfl, fun y hy => ?_⟩
          simp only [List.mem_append, List.mem_singleton] at hy
          rcases hy with hy | rfl
          · exact h3 y hy
          · intro hpos; simp only at hpos; omega
        · intro q j hv
          cases hv with
          | here => exact Or.inl ⟨rfl, rfl⟩
          | done h1 h2 => exact Or.inr h2
          | empty h1 h2 => rw [hno] at h1; cases h1
          | last h1 => rw [hno] at h1; cases h1
          | more h1 => rw [hno] at h1; cases h1
      · rename_i hmn
        have hz : Z := hnone (.fail href (by omega))
        refine Res.Spec.bind (hfail hz to c' he.good hPc') ?_
        intro c2 hc2
        exact hc2
    · rename_i hm
      simp only [Bool.not_eq_true', Bool.not_eq_false] at hm
      obtain ⟨ns, hyes⟩ := e_yes hm
      rw [hyes] at href
      have hle' := K.bounded hRi hyes
      simp only
      by_cases hp : c'.offset > to
      · simp only [hp, decide_true, if_true, Bool.not_true, Bool.false_or]
        split
        · rename_i hc
          simp only [Bool.and_eq_true, decide_eq_true_eq, beq_iff_eq] at hc
          have h1 : ∀ m, RefItems env.grammar (env.blocked input) input rest 0 c'.offset m →
              ∃ ns, RefItems env.grammar (env.blocked input) input ((item, (mn, mx)) :: rest) k to (prepend ns m) :=
            fun m hm => ⟨_, .last href hp hc.1 hc.2 hm⟩
          refine (seqLoop_exact K hR hd hk hrec hlim hlater hP hfail n _ rest 0 _ c' hrest (by omega) (by omega) hc'.inv he.good hfr rfl
            (gonone _ _ _ h1) hPc').imp (goon _ _ _ h1 ?_)
          intro q j hv
          cases hv with
          | here => exact Or.inl ⟨rfl, rfl⟩
          | done h1 h2 => rw [hyes] at h1; cases h1
          | empty h1 h2 => rw [hyes] at h1; simp at h1; omega
          | last h1 _ _ _ h2 => rw [hyes] at h1; cases h1; exact Or.inr h2
          | more _ _ h2 => exact absurd hc h2
        · rename_i hc
          simp only [Bool.and_eq_true, decide_eq_true_eq, beq_iff_eq] at hc
          have h1 : ∀ m, RefItems env.grammar (env.blocked input) input ((item, (mn, mx)) :: rest) (k + 1) c'.offset m →
              ∃ ns, RefItems env.grammar (env.blocked input) input ((item, (mn, mx)) :: rest) k to (prepend ns m) :=
            fun m hm => ⟨_, .more href hp hc hm⟩
          refine (seqLoop_exact K hR hd hk hrec hlim hlater hP hfail n front _ (k + 1) _ c' hall (by omega) (by omega) hc'.inv he.good hfr
            rfl (gonone _ _ _ h1) hPc').imp (goon _ _ _ h1 ?_)
          intro q j hv
          cases hv with
          | here => exact Or.inl ⟨rfl, rfl⟩
          | done h1 h2 => rw [hyes] at h1; cases h1
          | empty h1 h2 => rw [hyes] at h1; simp at h1; omega
          | last _ _ h2 h3 => exact absurd ⟨h2, h3⟩ hc
          | more h1 _ _ h2 => rw [hyes] at h1; cases h1; exact Or.inr h2
      · have heq : c'.offset = to := by omega
        simp only [hp, decide_false, Bool.not_false, Bool.true_or, if_true]
        rw [heq] at href hyes ⊢
        have h1 : ∀ m, RefItems env.grammar (env.blocked input) input rest 0 to m →
            ∃ ns, RefItems env.grammar (env.blocked input) input ((item, (mn, mx)) :: rest) k to (prepend ns m) :=
          fun m hm => ⟨_, .empty href hm⟩
        refine (seqLoop_exact K hR hd hk hrec hlim hlater hP hfail n _ rest 0 to c' hrest ?_ hle hc'.inv he.good hfr heq
          (gonone _ _ _ h1) hPc').imp (goon _ _ _ h1 ?_)
        · intro hx
          obtain ⟨h2, -, h3⟩ := hleft hx
          refine ⟨h2, rfl, fun y hy => ?_⟩
          simp only [List.mem_append, List.mem_singleton] at hy
          rcases hy with hy | rfl
          · exact h3 y hy
          · intro _; exact href.nullable _ rfl
        · intro q j hv
          cases hv with
          | here => exact Or.inl ⟨rfl, rfl⟩
          | done h1 h2 => rw [hyes] at h1; cases h1
          | empty h1 h2 => exact Or.inr h2
          | last h1 h2 => rw [hyes] at h1; simp at h1; omega
          | more h1 h2 => rw [hyes] at h1; simp at h1; omega

theorem seqMark_inv {ac : Bool} {id : Nat} {c : Ctx} (h : Inv env input none (fun _ _ _ => True) c) :
    Inv env input none (fun _ _ _ => True) (seqMark ac id c) := by
  unfold seqMark
  split
  · exact h
  · exact h.setRes (fun off id to ht => h.store off id to (by simpa using ht)) (h.once.markPending _ _)

theorem seqMark_good {ac : Bool} {id : Nat} {c : Ctx} (hg : Good env R input f c.res) :
    Good env R input f (seqMark ac id c).res := by
  unfold seqMark
  split
  · exact hg
  · refine hg.pending (by simp) (by simp) ?_
    intro p' d' os' off to _ _ _ h1 _
    simp only [Results.pcount_markPending] at h1
    exact Or.inl (by omega)

theorem seqParse_exact (K : Ctxt env R input f root) {p : Ptr} {d : PDef} {is : List Ptr} {rs : List (Int × Int)}
    {ac : Bool} (hR : R p) (hn : ¬ IsTail env p) (hd : env.defs[p]? = some d) (hk : d.kind = .seq is rs ac) {rec : Ptr → Ctx → Res Ctx}
    (hrec : RecE env R input f rec) (hreck : RecK env input rec) {lfuel : Nat} {c : Ctx}
    (h : Inv env input none (fun _ _ _ => True) c) (hg : Good env R input f c.res) (hpend : Pend env R p c.offset c.res)
    (hlim : c.offsetLimit = -1) :
    (seqParse rec env.keywords lfuel p d is rs ac c).Spec True True (Exact env R input f p c) := by
  have hk' : d.kind.isChar = false := by rw [hk]; rfl
  have hp0 : c.res.pcount c.offset d.id = 0 := hpend.here hR hd hk' (Or.inl rfl)
  unfold seqParse
  rw [if_neg (by rw [(Results.pending_false_iff ..).2 hp0]; simp)]
  have hmk : (if ac then c else { c with res := c.res.markPending c.offset d.id }) = seqMark ac d.id c := rfl
  simp only
  rw [hmk]
  have hm := seqMark_inv (ac := ac) (id := d.id) h
  have hgm := seqMark_good (ac := ac) (id := d.id) hg
  have hmo : (seqMark ac d.id c).offset = c.offset := by unfold seqMark; split <;> rfl
  obtain ⟨m, href, hfp⟩ := K.seq hR hd hk c.offset
  refine Res.Spec.bind (seqLoop_exact K hR hd hk hrec hlim hpend.later (Z := f p c.offset = none)
    (Ret := fun c' => Good env R input f c'.res ∧ c'.matchLast = false ∧ f p c.offset = none)
    (P := fun _ => True) (fun _ _ _ _ _ _ => trivial) (fun hz to c' hg' _ => (seqItemFailed_exact K hR hn hd hk hg' hz).imp fun c' h => ⟨h.1, h.2, hz⟩)
    lfuel [] (is.zip rs) 0 c.offset _ rfl
    (fun _ => ⟨⟨hn, hpend⟩, rfl, by simp⟩) (Nat.le_refl _) hm hgm (.refl _) hmo ?_ trivial) ?_
  · intro hnone
    have := href.unique hnone
    subst this
    rcases hfp with ⟨-, hfp⟩ | ⟨_, _, hx, -⟩
    · exact hfp
    · cases hx
  intro out hout
  cases out with
  | returned c' =>
    obtain ⟨h1, h2, h3⟩ := hout
    refine ⟨h1, by simp [h2], fun _ => h3, ?_⟩
    intro e _ _ t ns hf
    rw [h3] at hf; cases hf
  | complete to c1 =>
    obtain ⟨hf, hi1, hco, hg1, ⟨ns, hitems⟩, hvis1⟩ := hout
    simp only
    have hle : c.offset ≤ to := (hitems.bounded _ rfl).1
    have hlen : c.offset ≤ c1.tokens.length := by have := hi1.off; omega
    refine Res.Spec.bind (keyword_exact K hR hd hreck hi1 hg1 hle hlen) ?_
    rintro ⟨kw, c'⟩ ⟨hf2, hi, hgc, hkw⟩
    have hvis : ∀ q j, Visits f (is.zip rs) 0 c.offset q j → Recorded env f c'.res q j :=
      fun q j hv => (hvis1 q j hv).mono hf2.has
    have := href.unique hitems
    subst this
    simp only
    split
    · rename_i hb
      have hfn : f p c.offset = none := by
        rcases hfp with ⟨h1, -⟩ | ⟨_, _, -, -, h1⟩
        · exact absurd (hkw.1 hb) (h1 _ rfl)
        · exact h1
      cases hu : unmarkUnless ac c.offset d.id ((c'.setFailing d.commit p).fail c.offset) with
      | panic => trivial
      | oof => trivial
      | ok c4 =>
        obtain ⟨u1, u2, u3, u4⟩ := Good.unmarkSeq K hR hd hk (by simpa [Ctx.fail] using hgc) hu
        refine ⟨u1, by rw [u4]; simp [Ctx.fail], fun _ => hfn, ?_⟩
        intro e _ _ t ns' hf'
        rw [hfn] at hf'; cases hf'
    rename_i hb
    have hfto : ∃ ns, f p c.offset = some (to, ns) := by
      rcases hfp with ⟨-, h1⟩ | ⟨_, _, hx, h1, -⟩
      · rw [h1]
        exact ⟨_, rfl⟩
      · cases hx
        exact absurd (hkw.2 h1) hb
    obtain ⟨ns', hfto⟩ := hfto
    obtain ⟨g1, g2, g3⟩ := Good.gens K hR hd hk' d.gens c'.res (fun _ h => h) hgc
      fun q e hq he hgen => Or.inl (K.generalizes hgen hq hn hfto (Nat.le_refl _))
    have fin : ∀ c3 : Ctx, c3.res = setGeneralizations c.offset to d.gens c'.res →
        (unmarkUnless ac c.offset d.id
          (({ c3 with res := c3.res.setMatch c.offset d.id to } : Ctx).success to)).Spec True True (Exact env R input f p c) := by
      intro c3 h3
      cases hu : unmarkUnless ac c.offset d.id (({ c3 with res := c3.res.setMatch c.offset d.id to } : Ctx).success to) with
      | panic => trivial
      | oof => trivial
      | ok c4 =>
        have hgs : Good env R input f (({ c3 with res := c3.res.setMatch c.offset d.id to } : Ctx).success to).res := by
          simp only [Ctx.success, h3]
          exact g1.setMatch_seq K hR hn hd hk ⟨ns', hfto⟩ fun _ q j hv => (hvis q j hv).mono g2
        obtain ⟨u1, u2, u3, u4⟩ := Good.unmarkSeq K hR hd hk hgs hu
        refine ⟨u1, fun _ => ⟨ns', by rw [u3]; exact hfto⟩, by rw [u4]; simp [Ctx.success], ?_⟩
        intro e he _ t ns'' hf'
        rw [hd] at he; cases he
        rw [hfto] at hf'; cases hf'
        rw [u2]
        exact (Results.has_setMatch ..).2 (Or.inr ⟨rfl, rfl, rfl⟩)
    split
    · exact fin _ rfl
    · exact fin _ rfl

/-- The left recursive option. -/
theorem seqParse_tail (K : Ctxt env R input f root) {a : Ptr} {x : Growing} (hR : R a) (hx : x.Of env a) {rec : Ptr → Ctx → Res Ctx}
    (hrec : RecE env R input f rec) (hreca : RecA env R input rec) (hrecf : RecF env R rec) {lfuel : Nat} {c : Ctx}
    (h : Inv env input none (fun _ _ _ => True) c) (hg : Good env R input f c.res)
    (hlater : ∀ o, c.offset < o → ∀ id, c.res.pcount o id = 0) (hpa : c.res.pcount c.offset x.d.id ≠ 0)
    (hps : c.res.pcount c.offset x.e.id = 0) (hlim : c.offsetLimit = -1)
    (hcase : (∀ t, ¬ c.res.Has c.offset x.d.id t) ∨ ∃ k l ns, x.Chain env input c.offset k l ns ∧ x.ss[k % x.ss.length]? = some x.s ∧
      c.res.Has c.offset x.d.id l ∧ (∀ t, c.res.Has c.offset x.d.id t → t ≤ l) ∧ ∀ t, c.res.Has c.offset x.e.id t → t ≤ l) :
    (seqParse rec env.keywords lfuel x.s x.e x.is x.rs false c).Spec True True (ExactT env R input f x c) := by
  have hRs := hx.reach K hR
  unfold seqParse
  rw [if_neg (by rw [(Results.pending_false_iff ..).2 hps]; simp)]
  have hmk : (if false = true then c else { c with res := c.res.markPending c.offset x.e.id }) = seqMark false x.e.id c := rfl
  simp only
  rw [hmk, hx.zip]
  have hm := seqMark_inv (ac := false) (id := x.e.id) h
  have hgm := seqMark_good (ac := false) (id := x.e.id) hg
  have hmo : (seqMark false x.e.id c).offset = c.offset := rfl
  have hmh : ∀ o i t, (seqMark false x.e.id c).res.Has o i t ↔ c.res.Has o i t := by
    intro o i t; simp [seqMark]
  have hmp : (seqMark false x.e.id c).res.pcount (seqMark false x.e.id c).offset x.d.id ≠ 0 := by
    rw [hmo]
    simp only [seqMark, Bool.false_eq_true, if_false, Results.pcount_markPending]
    omega
  cases lfuel with
  | zero => trivial
  | succ n =>
    unfold seqLoop
    simp only
    have hassoc : ∀ (r : Res Ctx) (g : Ctx → Res SeqOut) (g' : SeqOut → Res Ctx),
        (r.bind g).bind g' = r.bind fun c => (g c).bind g' := by
      intro r g g'; cases r <;> rfl
    rw [hassoc]
    refine Res.Spec.bind (hreca a x.d x.os (seqMark false x.e.id c) hR hx.da hx.ka hm hmp) ?_
    rintro c1 ⟨hc1, hr1, hno1, hyes1⟩
    rw [hmo] at hno1 hyes1
    have hgood1 : Good env R input f c1.res := by rw [hr1]; exact hgm
    have hh1 : ∀ o i t, c1.res.Has o i t ↔ c.res.Has o i t := by rw [hr1]; exact hmh
    have hfr1 := hc1.frame
    have hmlim : (seqMark false x.e.id c).offsetLimit = c.offsetLimit := rfl
    by_cases hml : c1.matchLast = false
    · -- no record of the choice
      have hnone : ∀ t, ¬ c.res.Has c.offset x.d.id t := by
        intro t ht
        obtain ⟨t', ht', hmax⟩ : ∃ t, c.res.Has c.offset x.d.id t ∧ ∀ t', c.res.Has c.offset x.d.id t' → t' ≤ t := by
          cases hl : c.res.longestMatch c.offset x.d.id with
          | none => exact absurd ht ((Results.longestMatch_none ..).1 hl _)
          | some t => exact ⟨t, ((Results.longestMatch_some ..).1 hl)⟩
        have := (hyes1 t' ((hmh ..).2 ht') (fun t'' h'' => hmax t'' ((hmh ..).1 h'')) (fun hn => by
          obtain ⟨t2, ns2, h2, -⟩ := hgm.chLe K hR hx.da hx.ka ((hmh ..).2 ht')
          rw [hgm.noM hR hx.da (by rw [hx.ka]; rfl) hn] at h2
          cases h2)).1
        rw [hml] at this; cases this
      simp only [hml, Bool.not_false, if_true]
      rw [if_neg (by decide), hassoc]
      refine Res.Spec.bind (seqItemFailed_tail K hR hx hgood1) ?_
      rintro c2 ⟨h1, h2, h3⟩
      refine ⟨h1, fun _ => ⟨?_, fun o i t ht => (hh1 ..).1 ((h2 ..).1 ht)⟩, fun l hh _ => absurd hh (hnone l)⟩
      cases hm2 : c2.matchLast with
      | false => rfl
      | true =>
        obtain ⟨k, j, ns, ms, -, hj, -⟩ := hgood1.tailHas hR hx (h3 hm2)
        exact absurd ((hh1 ..).1 hj) (hnone j)
    · simp only [Bool.not_eq_false] at hml
      obtain ⟨k, l, ns, hch, hat, hl, hmax, hle⟩ : ∃ k l ns, x.Chain env input c.offset k l ns ∧
          x.ss[k % x.ss.length]? = some x.s ∧ c.res.Has c.offset x.d.id l ∧
          (∀ t, c.res.Has c.offset x.d.id t → t ≤ l) ∧ ∀ t, c.res.Has c.offset x.e.id t → t ≤ l := by
        rcases hcase with hno | h
        · rw [hno1 fun t ht => hno t ((hmh ..).1 ht)] at hml; cases hml
        · exact h
      -- the first item is the longest record
      have hfirst : c1.offset = l := by
        refine (hyes1 l ((hmh ..).2 hl) (fun t'' h'' => hmax t'' ((hmh ..).1 h'')) (fun hn => ?_)).2
        obtain ⟨t2, ns2, h2, -⟩ := hgm.chLe K hR hx.da hx.ka ((hmh ..).2 hl)
        rw [hgm.noM hR hx.da (by rw [hx.ka]; rfl) hn] at h2
        cases h2
      have hlt : c.offset < l := hx.lt hch
      have hgt : c1.offset > c.offset := by omega
      simp only [hml, Bool.not_true, Bool.false_eq_true, if_false, hgt, decide_true, if_true, Bool.false_or]
      rw [if_pos (by decide), hfirst]
      refine Res.Spec.bind (seqLoop_exact K hRs hx.ds hx.ks hrec hlim hlater
        (Z := RefItems env.grammar (env.blocked input) input x.tail 0 l none)
        (P := fun c' => c'.res.pcount c.offset x.d.id ≠ 0 ∧ ∀ t, c'.res.Has c.offset x.e.id t → t ≤ l)
        (Ret := fun c' => Good env R input f c'.res ∧ RefItems env.grammar (env.blocked input) input x.tail 0 l none ∧
          (c'.matchLast = true → c'.offset ≤ l))
        ?_ ?_ n [(a, 1, 1)] x.tail 0 l c1 hx.zip (by omega) (by omega) hc1.inv hgood1 hfr1 hfirst (fun h => h) ?_) ?_
      · rintro q hq c2 c3 ⟨hp2, hle2⟩ heq
        have := hrecf a x c.offset q c2 hR hx (K.closed.child hRs hx.ds (by rw [hx.ks]; exact hq)) hp2
        rw [heq] at this
        have := Kept.keeps this fun h => absurd ⟨a, h ▸ hx.recurs⟩ (K.item_not_tail hRs hx.ds hx.ks hq)
        exact ⟨by rw [this.pc]; exact hp2, fun t ht => hle2 t (this.has t ht)⟩
      · rintro hz to c2 hg2 ⟨-, hle2⟩
        refine (seqItemFailed_tail K hR hx hg2).imp ?_
        rintro c3 ⟨h1, -, h2⟩
        exact ⟨h1, hz, fun hm => hle2 _ (h2 hm)⟩
      · refine ⟨?_, fun t ht => hle t ((hh1 ..).1 ht)⟩
        rw [hr1]
        exact hmp
      intro out hout
      have huniq : ∀ l', c.res.Has c.offset x.d.id l' → (∀ t, c.res.Has c.offset x.d.id t → t ≤ l') → l' = l := by
        intro l' h2 h3
        have := h3 _ hl
        have := hmax _ h2
        omega
      cases out with
      | returned c2 =>
        obtain ⟨h1, h2, h3⟩ := hout
        refine ⟨h1, fun hno => absurd hl (hno l), ?_⟩
        intro l' g2 g3
        obtain rfl := huniq l' g2 g3
        exact Or.inr ⟨h2, h3⟩
      | complete to c2 =>
        obtain ⟨hf2, hi2, hco, hg2, ⟨ms, hitems⟩, hvis⟩ := hout
        have hto := hx.tail hitems
        have hstep : x.Step env input c.offset k l ns to ms := ⟨hch, hat, hitems, hto⟩
        simp only [hx.kw, Bool.false_eq_true, if_false, Res.bind_ok]
        have hl2 : c2.res.Has c.offset x.d.id l := hf2.has _ _ _ ((hh1 ..).2 hl)
        have hgs := hg2.gens_tail K hR hx hstep hl2 hvis
        have fin : ∀ c3 : Ctx, c3.res = setGeneralizations c.offset to x.e.gens c2.res →
            (unmarkUnless false c.offset x.e.id
              (({ c3 with res := c3.res.setMatch c.offset x.e.id to } : Ctx).success to)).Spec True True (ExactT env R input f x c) := by
          intro c3 h3
          cases hu : unmarkUnless false c.offset x.e.id (({ c3 with res := c3.res.setMatch c.offset x.e.id to } : Ctx).success to) with
          | panic => trivial
          | oof => trivial
          | ok c4 =>
            obtain ⟨u1, u2, u3, u4⟩ := Good.unmarkSeq K hRs hx.ds hx.ks (by simpa [Ctx.success, h3] using hgs) hu
            refine ⟨u1, fun hno => absurd hl (hno l), ?_⟩
            intro l' g2 g3
            obtain rfl := huniq l' g2 g3
            have hoff : c4.offset = to := u3
            refine Or.inl ⟨by rw [u4]; rfl, by omega, ⟨ms, by rw [hoff]; exact hitems⟩, ?_⟩
            rw [hoff, u2]
            exact (Results.has_setMatch ..).2 (Or.inr ⟨rfl, rfl, rfl⟩)
        split
        · exact fin _ rfl
        · exact fin _ rfl

theorem parse_keyword (K : Ctxt env R input f root) (n : Nat) : RecK env input (parse env n) := by
  intro k d c lim hkw ht hd hi hl hlim
  exact ((parse_spec K.closed (Interp.trivial env R input) (env.bounds R) n k c (K.closed.keyword hkw) hi).and
    (parse_text K.closed K.valid hkw hd ht n lim hi hl hlim)).mono (fun _ => trivial) (fun _ => trivial) fun _ h => h

theorem parse_pending (K : Ctxt env R input f root) (n : Nat) : RecA env R input (parse env n) := by
  intro p d os c hR hd hk hi hp
  have hpost := parse_spec K.closed (Interp.trivial env R input) (env.bounds R) n p c hR hi
  refine (hpost.and (pb' := True) (ob' := True) ?_).mono (fun _ => trivial) (fun _ => trivial) fun _ h => h
  cases n with
  | zero => trivial
  | succ n =>
    unfold parse
    rw [hd]
    simp only [hk]
    unfold choiceParse
    split
    · rename_i c' hc'
      unfold Ctx.fromResults at hc'
      split at hc'
      · cases hc'
      · rename_i t hl
        obtain ⟨-, h1, h2⟩ := (Results.longestResult_some ..).1 hl
        cases hc'
        refine ⟨rfl, fun hno => absurd h1 (hno t), fun t' h3 h4 _ => ⟨rfl, ?_⟩⟩
        have := h2 _ h3
        have := h4 _ h1
        show t = t'
        omega
      · rename_i hl
        cases hc'
        exact ⟨rfl, fun _ => rfl, fun t' h3 h4 h5 => absurd ((Results.longestResult_fail ..).1 hl) h5⟩
    · rename_i hc'
      rw [if_pos ((Results.pending_iff ..).2 (by omega))]
      refine ⟨rfl, fun _ => rfl, fun t h3 h4 _ => ?_⟩
      unfold Ctx.fromResults at hc'
      split at hc'
      · rename_i hl
        exact absurd h3 (((Results.longestResult_none ..).1 hl).2 t)
      · cases hc'
      · cases hc'

/-- Parsing is exact. -/
theorem parse_exact_tail (K : Ctxt env R input f root) (n : Nat) : RecE env R input f (parse env n) ∧ RecT env R input f (parse env n) := by
  induction n with
  | zero => exact ⟨fun p c _ _ _ _ _ _ => trivial, fun a x c _ _ _ _ _ _ _ _ _ => trivial⟩
  | succ n ih =>
    constructor
    · intro p c hR hn h hg hpend hlim
      have hpost := parse_spec K.closed (Interp.trivial env R input) (env.bounds R) (n + 1) p c hR h
      refine (hpost.and (pb' := True) (ob' := True) ?_).mono (fun _ => trivial) (fun _ => trivial) fun _ h => h
      obtain ⟨d, hd⟩ := K.closed.def_ hR
      unfold parse
      rw [hd]
      simp only
      split
      · rename_i hk
        exact charParse_exact K hR hd hk h hg hlim
      · rename_i hk
        exact choiceParse_exact K hR hd hk ih.1 ih.2 (parse_kept K n) h hg hpend hlim
      · rename_i hk
        exact seqParse_exact K hR hn hd hk ih.1 (parse_keyword K n) h hg hpend hlim
    · intro a x c hR hx h hg hlater hpa hps hlim hcase
      have hpost := parse_spec K.closed (Interp.trivial env R input) (env.bounds R) (n + 1) x.s c (hx.reach K hR) h
      refine (hpost.and (pb' := True) (ob' := True) ?_).mono (fun _ => trivial) (fun _ => trivial) fun _ h => h
      unfold parse
      rw [hx.ds]
      simp only [hx.ks]
      exact seqParse_tail K hR hx ih.1 (parse_pending K n) (parse_kept K n) h hg hlater hpa hps hlim hcase

theorem parse_exact (K : Ctxt env R input f root) (n : Nat) : RecE env R input f (parse env n) := (parse_exact_tail K n).1

end
end Treerack
