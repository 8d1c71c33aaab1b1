import Verif.Proofs.TraceBounds

/-
The number of all attempts, when sequences do not contain each other in a cycle without a choice.
-/

namespace Treerack

/-- The parser is a choice. -/
def Env.isChoice (env : Env) (p : Ptr) : Bool :=
  match env.defs[p]? with
  | some d => match d.kind with
    | .choice _ => true
    | _ => false
  | none => false

/-- The parser is a sequence. -/
def Env.isSeq (env : Env) (p : Ptr) : Bool :=
  match env.defs[p]? with
  | some d => match d.kind with
    | .seq _ _ _ => true
    | _ => false
  | none => false

theorem Env.isChoice_iff {env : Env} {p : Ptr} : env.isChoice p = true ↔ ∃ d os, env.defs[p]? = some d ∧ d.kind = .choice os := by
  unfold Env.isChoice
  cases hd : env.defs[p]? with
  | none => simp
  | some d => cases hk : d.kind <;> simp [hk]

/-- The number of the attempts of choices. -/
def choiceEvents (env : Env) (tr : List Event) : Nat := (tr.filter fun e => env.isChoice e.1).length

@[simp] theorem choiceEvents_append (env : Env) (t u : List Event) : choiceEvents env (t ++ u) = choiceEvents env t + choiceEvents env u := by
  simp [choiceEvents]

@[simp] theorem choiceEvents_nil (env : Env) : choiceEvents env [] = 0 := rfl

/-- At most `k` events, and `b` for each attempt of a choice. -/
def CostAt (env : Env) (b k : Nat) (tr : List Event) : Prop := tr.length ≤ k + b * choiceEvents env tr

theorem CostAt.nil {env : Env} {b k : Nat} : CostAt env b k [] := Nat.zero_le _

theorem CostAt.append {env : Env} {b k l m : Nat} {t u : List Event} (h : CostAt env b k t) (h' : CostAt env b l u) (hm : k + l ≤ m) :
    CostAt env b m (t ++ u) := by
  unfold CostAt at *
  rw [List.length_append, choiceEvents_append, Nat.mul_add]
  omega

theorem CostAt.mono {env : Env} {b k m : Nat} {t : List Event} (h : CostAt env b k t) (hm : k ≤ m) : CostAt env b m t := by
  unfold CostAt at *; omega

section
variable {env : Env} {R : Ptr → Prop} {input : List Rune} {rend : Option Nat} {a : Ptr → Nat} {b A : Nat}

/-- What is assumed of the nested calls. -/
def CostRec (env : Env) (R : Ptr → Prop) (input : List Rune) (rend : Option Nat) (a : Ptr → Nat) (b : Nat) (recT : Ptr → Ctx → Traced Ctx) : Prop :=
  ∀ p c, R p → InvT env input rend c →
    (recT p c).Holds fun c' tr => CostAt env b (a p) tr ∧ InvT env input rend c' ∧ c.tokens.length ≤ c'.tokens.length ∧
      (c'.matchLast = true → c.offset ≤ c'.offset) ∧ (c'.matchLast = false → c'.offset = c.offset)

variable {recT : Ptr → Ctx → Traced Ctx} (hrec : CostRec env R input rend a b recT)
include hrec

theorem isKeywordLoopT_cost (from_ to : Nat) : ∀ (kws : List Ptr) (c : Ctx), (∀ k ∈ kws, R k ∧ a k ≤ A) → InvT env input rend c →
    from_ ≤ c.tokens.length → (isKeywordLoopT recT from_ to kws c).Holds fun _ tr => CostAt env b (kws.length * A) tr
  | [], c, _, _, _ => .lift fun a e => .nil
  | kw :: kws, c, hR, h, hf => by
    unfold isKeywordLoopT
    have hk := hR kw (by simp)
    refine (hrec kw _ hk.1 (h.setOffset hf)).bind fun c1 t h1 => ?_
    obtain ⟨h1, h2, h3, -⟩ := h1
    simp only at h3
    have hlen : (kw :: kws).length * A = A + kws.length * A := by rw [List.length_cons, Nat.add_mul]; omega
    have hka := hk.2
    split
    · exact .lift fun a e => h1.append .nil (l := 0) (by omega)
    · exact (isKeywordLoopT_cost from_ to kws c1 (fun k hk => hR k (by simp [hk])) h2 (by omega)).mono
        fun a u hu => h1.append hu (by omega)

theorem isKeywordT_cost {kws : List Ptr} (hR : ∀ k ∈ kws, R k ∧ a k ≤ A) {c : Ctx} {from_ to : Nat} (h : InvT env input rend c)
    (hf : from_ ≤ c.tokens.length) : (isKeywordT recT kws c from_ to).Holds fun _ tr => CostAt env b (kws.length * A) tr := by
  unfold isKeywordT
  refine (isKeywordLoopT_cost hrec from_ to kws _ hR (h.setLimit (l := (to : Int))) hf).bind fun x t h => ?_
  exact .lift fun a e => by simpa using h

/-- How much a choice can still grow. -/
def growth (L : Nat) (st : ChoiceSt) : Nat := (L - st.to) + if st.mtch then 0 else 1

/-- The state of a choice. -/
structure ChB (env : Env) (input : List Rune) (rend : Option Nat) (from_ : Nat) (st : ChoiceSt) : Prop where
  inv : InvT env input rend st.c
  off : st.c.offset = from_
  to : st.to ≤ input.length
  no : st.mtch = false → st.to = from_

theorem choicePassT_cost (id from_ : Nat) : ∀ (os : List Ptr) (st : ChoiceSt), (∀ o ∈ os, R o ∧ a o ≤ A) → ChB env input rend from_ st →
    (choicePassT recT id from_ os st).Holds fun st' tr => CostAt env b (os.length * A) tr ∧ ChB env input rend from_ st' ∧
      growth input.length st' ≤ growth input.length st ∧
      (st'.found = true → st.found = true ∨ growth input.length st' < growth input.length st)
  | [], st, _, h => .lift fun a e => by cases e; exact ⟨.nil, h, Nat.le_refl _, Or.inl⟩
  | x :: os, st, hR, h => by
    unfold choicePassT
    have hk := hR x (by simp)
    refine (hrec x _ hk.1 h.inv).bind fun c1 t h1 => ?_
    obtain ⟨h1, h2, h3, h4, -⟩ := h1
    have hlen := h.inv.off
    have htok := h2.tokens_length
    have hoff2 := h2.off
    have hoff := h.off
    have hka := hk.2
    have hl : (x :: os).length * A = A + os.length * A := by rw [List.length_cons, Nat.add_mul]; omega
    simp only
    have next : ∀ (st1 : ChoiceSt), ChB env input rend from_ st1 → growth input.length st1 ≤ growth input.length st →
        (st1.found = true → st.found = true ∨ growth input.length st1 < growth input.length st) →
        (choicePassT recT id from_ os st1).Holds fun st' u => CostAt env b ((x :: os).length * A) (t ++ u) ∧ ChB env input rend from_ st' ∧
          growth input.length st' ≤ growth input.length st ∧
          (st'.found = true → st.found = true ∨ growth input.length st' < growth input.length st) :=
      fun st1 hi hg hf => (choicePassT_cost id from_ os st1 (fun o ho => hR o (by simp [ho])) hi).mono
        fun st'' u hu => by
          obtain ⟨u1, u2, u3, u4⟩ := hu
          refine ⟨h1.append u1 (by omega), u2, by omega, fun hfo => ?_⟩
          rcases u4 hfo with u4 | u4
          · rcases hf u4 with hf | hf
            · exact Or.inl hf
            · exact Or.inr (by omega)
          · exact Or.inr (by omega)
    have hno : InvT env input rend { c1 with offset := from_ } := h2.setOffset (by omega)
    have hyes : c1.matchLast = true →
        InvT env input rend { c1 with offset := from_, res := c1.res.setMatch from_ id c1.offset } := by
      intro hm
      refine Inv.setRes (c := { c1 with offset := from_ }) hno (fun off i to hh => ?_) (hno.once.setMatch _ _ _)
      rcases (Results.has_setMatch ..).1 hh with hh | ⟨rfl, rfl, rfl⟩
      · exact h2.store _ _ _ hh
      · have := h4 hm
        exact ⟨by omega, h2.off, trivial⟩
    have grows : ∀ (fo : Int) (fg : Option Ptr), ¬ (!c1.matchLast || (st.mtch && decide (c1.offset ≤ st.to))) = true →
        (choicePassT recT id from_ os { c := { c1 with offset := from_, res := c1.res.setMatch from_ id c1.offset }, mtch := true, found := true, to := c1.offset, failOffset := fo, failing := fg }).Holds
          fun st' u => CostAt env b ((x :: os).length * A) (t ++ u) ∧ ChB env input rend from_ st' ∧
          growth input.length st' ≤ growth input.length st ∧
          (st'.found = true → st.found = true ∨ growth input.length st' < growth input.length st) := by
      intro fo fg hq
      simp only [Bool.or_eq_true, not_or, Bool.not_eq_true', Bool.not_eq_false, Bool.and_eq_true, not_and, decide_eq_true_eq] at hq
      obtain ⟨hm, hq⟩ := hq
      have h4 := h4 hm
      have hlt : growth input.length { c := { c1 with offset := from_, res := c1.res.setMatch from_ id c1.offset }, mtch := true, found := true, to := c1.offset, failOffset := fo, failing := fg } < growth input.length st := by
        unfold growth
        simp only [if_true]
        cases hmt : st.mtch with
        | false =>
          have := h.no hmt
          simp
          omega
        | true =>
          have := hq hmt
          simp only [if_true]
          omega
      exact next _ ⟨hyes hm, rfl, by simp only; omega, fun hh => by cases hh⟩ (by omega) fun _ => Or.inr hlt
    split <;> split
    · exact next _ ⟨hno, rfl, h.to, h.no⟩ (Nat.le_refl _) Or.inl
    · rename_i hq
      exact grows _ _ hq
    · exact next _ ⟨hno, rfl, h.to, h.no⟩ (Nat.le_refl _) Or.inl
    · rename_i hq
      exact grows _ _ hq

theorem choiceLoopT_cost (id from_ : Nat) (os : List Ptr) (hR : ∀ o ∈ os, R o ∧ a o ≤ A) : ∀ (n : Nat) (st : ChoiceSt),
    ChB env input rend from_ st →
    (choiceLoopT recT id from_ os n st).Holds fun st' tr => CostAt env b ((growth input.length st + 1) * (os.length * A)) tr ∧
      ChB env input rend from_ st'
  | 0, st, _ => .lift fun a e => by cases e
  | n + 1, st, h => by
    unfold choiceLoopT
    refine (choicePassT_cost hrec id from_ os { st with found := false } hR ⟨h.inv, h.off, h.to, h.no⟩).bind fun st1 t h1 => ?_
    obtain ⟨h1, h2, h3, h4⟩ := h1
    have hg : growth input.length { st with found := false } = growth input.length st := rfl
    rw [hg] at h3 h4
    generalize hX : os.length * A = X at h1 ⊢
    split
    · rename_i hf
      have hlt : growth input.length st1 < growth input.length st := by
        rcases h4 hf with h4 | h4
        · cases h4
        · exact h4
      refine (choiceLoopT_cost id from_ os hR n st1 h2).mono fun st' u hu => ⟨h1.append (hX ▸ hu.1) ?_, hu.2⟩
      have := Nat.mul_le_mul_right X (show growth input.length st1 + 1 ≤ growth input.length st by omega)
      rw [Nat.add_mul (growth input.length st)]
      omega
    · refine .lift fun a e => ?_
      cases e
      refine ⟨h1.append .nil (l := 0) ?_, h2⟩
      rw [Nat.add_mul]
      omega

theorem choiceParseT_cost {kws : List Ptr} (n : Nat) {p : Ptr} (d : PDef) {os : List Ptr} (hp : env.isChoice p = true)
    (hkw : ∀ k ∈ kws, R k ∧ a k ≤ A) (hR : ∀ o ∈ os, R o ∧ a o ≤ A) {c : Ctx} (h : InvT env input rend c)
    (hb : 1 + (input.length + 2) * (os.length * A) + kws.length * A ≤ b) :
    (choiceParseT recT kws n p d os c).Holds fun _ tr => CostAt env b 0 tr := by
  unfold choiceParseT
  have hlen := h.tokens_length
  have hoff := h.off
  split
  · exact .lift fun a e => .nil
  · split
    · exact .lift fun a e => .nil
    · simp only
      refine .record (Traced.Holds.mono
        (P := fun _ tr => CostAt env b ((input.length + 2) * (os.length * A) + kws.length * A) tr) ?_ fun _ tr ht => ?_)
      · refine (choiceLoopT_cost hrec d.id c.offset os hR n
          { c := { c with res := c.res.markPending c.offset d.id }, mtch := false, found := false, to := c.offset,
            failOffset := c.failOffset, failing := none }
          ⟨Inv.mark h c.offset d.id, rfl, by simp only; omega, fun _ => rfl⟩).bind fun st t h1 => ?_
        obtain ⟨h1, h2⟩ := h1
        have hf : c.offset ≤ st.c.tokens.length := by rw [← h2.off]; exact h2.inv.off
        have h1 : CostAt env b ((input.length + 2) * (os.length * A)) t := by
          refine h1.mono (Nat.mul_le_mul_right _ ?_)
          unfold growth
          simp only [Bool.false_eq_true, if_false]
          omega
        split
        · refine Traced.Holds.bind (P := fun _ u => CostAt env b (kws.length * A) u) ?_ fun x u hx => ?_
          · split
            · exact isKeywordT_cost hrec hkw h2.inv hf
            · exact .lift fun a e => .nil
          · obtain ⟨kw, c2⟩ := x
            simp only
            split <;> exact .lift fun a e => by simpa using h1.append hx (Nat.le_refl _)
        · exact .lift fun a e => by simpa using h1.mono (Nat.le_add_right _ _)
      · show CostAt env b 0 ((p, c.offset) :: tr)
        unfold CostAt at ht ⊢
        have : choiceEvents env ((p, c.offset) :: tr) = choiceEvents env tr + 1 := by
          simp [choiceEvents, hp]
        rw [this, Nat.mul_add, List.length_cons]
        omega

theorem seqLoopT_cost (p : Ptr) (d : PDef) (ac : Bool) (from_ : Nat) :
    ∀ (n : Nat) (its : List (Ptr × (Int × Int))) (m to : Nat) (c : Ctx), (∀ x ∈ its, R x.1 ∧ a x.1 ≤ A) → InvT env input rend c →
    from_ ≤ c.tokens.length → c.offset = to →
    (seqLoopT recT p d ac from_ n its m to c).Holds fun out tr => CostAt env b ((its.length + (input.length - to)) * A) tr ∧ match out with
      | .complete _ c' => InvT env input rend c' ∧ from_ ≤ c'.tokens.length
      | .returned _ => True
  | 0, _, _, _, _, _, _, _, _ => .lift fun a e => by cases e
  | n + 1, [], _, _, c, _, h, hf, _ => .lift fun a e => by cases e; exact ⟨.nil, h, hf⟩
  | n + 1, (item, mn, mx) :: rest, m, to, c, hR, h, hf, ho => by
    unfold seqLoopT
    have hit := hR _ List.mem_cons_self
    refine (hrec item _ hit.1 h).bind fun c1 t h1 => ?_
    obtain ⟨h1, h2, h3, h4, h5⟩ := h1
    have hia := hit.2
    simp only at hia
    have hoff := h2.off
    have htok := h2.tokens_length
    have next : ∀ {its' : List (Ptr × (Int × Int))} {m' to' : Nat}, (∀ x ∈ its', R x.1 ∧ a x.1 ≤ A) → c1.offset = to' →
        its'.length + (input.length - to') + 1 ≤ ((item, mn, mx) :: rest).length + (input.length - to) →
        (seqLoopT recT p d ac from_ n its' m' to' c1).Holds fun out u =>
          CostAt env b ((((item, mn, mx) :: rest).length + (input.length - to)) * A) (t ++ u) ∧ match out with
          | .complete _ c' => InvT env input rend c' ∧ from_ ≤ c'.tokens.length
          | .returned _ => True := by
      intro its' m' to' hR' ho' hle
      refine (seqLoopT_cost p d ac from_ n _ _ _ c1 hR' h2 (by omega) ho').mono fun out u hu => ⟨h1.append hu.1 ?_, hu.2⟩
      have := Nat.mul_le_mul_right A hle
      rw [Nat.add_mul, Nat.one_mul] at this
      omega
    have hrest : ∀ x ∈ rest, R x.1 ∧ a x.1 ≤ A := fun x hx => hR x (List.mem_cons_of_mem _ hx)
    split
    · rename_i hm
      have hm : c1.matchLast = false := by simpa using hm
      have h5 := h5 hm
      split
      · exact next hrest (by omega) (by simp only [List.length_cons]; omega)
      · refine .lift fun a e => ?_
        obtain ⟨c2, -, e⟩ := Res.bind_eq_ok e
        cases e
        refine ⟨?_, trivial⟩
        rw [List.append_nil]
        refine h1.mono (Nat.le_trans hia ?_)
        exact Nat.le_mul_of_pos_left _ (by simp only [List.length_cons]; omega)
    · rename_i hm
      have hm : c1.matchLast = true := by simpa using hm
      have h4 := h4 hm
      have done : ∀ (k : Nat), (seqLoopT recT p d ac from_ n rest k c1.offset c1).Holds fun out u =>
          CostAt env b ((((item, mn, mx) :: rest).length + (input.length - to)) * A) (t ++ u) ∧ match out with
          | .complete _ c' => InvT env input rend c' ∧ from_ ≤ c'.tokens.length
          | .returned _ => True :=
        fun k => next hrest rfl (by simp only [List.length_cons]; omega)
      simp only
      by_cases hpar : c1.offset > to
      · simp only [hpar, decide_true, Bool.not_true, Bool.false_or, if_true]
        split
        · exact done _
        · exact next hR rfl (by simp only [List.length_cons]; omega)
      · simp only [hpar, decide_false, Bool.not_false, Bool.true_or, if_true]
        exact done _

theorem seqParseT_cost {kws : List Ptr} (n : Nat) {p : Ptr} (d : PDef) {is : List Ptr} {rs : List (Int × Int)} {ac : Bool} {k : Nat}
    (hkw : d.commit.noKeyword = true → ∀ k ∈ kws, R k ∧ a k ≤ A) (hR : ∀ o ∈ is, R o ∧ a o ≤ A) {c : Ctx} (h : InvT env input rend c)
    (hb : 1 + (is.length + input.length + kws.length) * A ≤ k) :
    (seqParseT recT kws n p d is rs ac c).Holds fun _ tr => CostAt env b k tr := by
  unfold seqParseT
  have hlen := h.tokens_length
  have hoff := h.off
  split
  · exact .lift fun a e => .nil
  · simp only
    refine .record (Traced.Holds.mono
      (P := fun _ tr => CostAt env b ((is.length + input.length + kws.length) * A) tr) ?_ fun _ tr ht => ?_)
    · have hc : InvT env input rend (if ac = true then c else { c with res := c.res.markPending c.offset d.id }) ∧
          c.offset ≤ (if ac = true then c else { c with res := c.res.markPending c.offset d.id }).tokens.length ∧
          (if ac = true then c else { c with res := c.res.markPending c.offset d.id }).offset = c.offset := by
        split
        · exact ⟨h, hoff, rfl⟩
        · exact ⟨Inv.mark h _ _, hoff, rfl⟩
      refine (seqLoopT_cost hrec p d ac c.offset n (is.zip rs) 0 c.offset _ (fun x hx => hR _ (List.of_mem_zip hx).1) hc.1 hc.2.1 hc.2.2).bind
        fun out t h1 => ?_
      obtain ⟨h1, h2⟩ := h1
      have hz : (is.zip rs).length ≤ is.length := by rw [List.length_zip]; omega
      have h1 : CostAt env b ((is.length + input.length) * A) t :=
        h1.mono (Nat.mul_le_mul_right _ (by omega))
      have hmul : (is.length + input.length + kws.length) * A = (is.length + input.length) * A + kws.length * A := Nat.add_mul ..
      cases out with
      | returned c2 => exact .lift fun a e => by simpa using h1.mono (by omega)
      | complete to c2 =>
        simp only at h2 ⊢
        refine Traced.Holds.bind (P := fun _ u => CostAt env b (kws.length * A) u) ?_ fun x u hx => ?_
        · split
          · rename_i hnk
            exact isKeywordT_cost hrec (hkw hnk) h2.1 h2.2
          · exact .lift fun a e => .nil
        · obtain ⟨kw, c3⟩ := x
          simp only
          split <;> exact .lift fun a e => by simpa using h1.append hx (by omega)
    · show CostAt env b k ((p, c.offset) :: tr)
      unfold CostAt at ht ⊢
      have : b * choiceEvents env tr ≤ b * choiceEvents env ((p, c.offset) :: tr) := by
        refine Nat.mul_le_mul_left _ ?_
        unfold choiceEvents
        rw [List.filter_cons]
        split <;> simp
      rw [List.length_cons]
      omega

end
/-! ### The whole -/

/-- The cost of a sequence of a rank, when a sequence makes at most `T` calls. -/
def rankCost (T : Nat) : Nat → Nat
  | 0 => 0
  | r + 1 => 1 + T * rankCost T r

theorem rankCost_mono (T : Nat) {r r' : Nat} (h : r ≤ r') : rankCost T r ≤ rankCost T r' := by
  have step : ∀ r, rankCost T r ≤ rankCost T (r + 1) := by
    intro r
    induction r with
    | zero => exact Nat.zero_le _
    | succ r ih =>
      show 1 + T * rankCost T r ≤ 1 + T * rankCost T (r + 1)
      exact Nat.add_le_add_left (Nat.mul_le_mul_left _ ih) _
  induction h with
  | refl => exact Nat.le_refl _
  | step _ ih => exact Nat.le_trans ih (step _)

theorem rankCost_le (T : Nat) : ∀ r, rankCost T r ≤ (T + 1) ^ r
  | 0 => Nat.zero_le _
  | r + 1 => by
    have h := Nat.mul_le_mul_left T (rankCost_le T r)
    have h1 : 1 ≤ (T + 1) ^ r := Nat.one_le_pow _ _ (by omega)
    show 1 + T * rankCost T r ≤ (T + 1) ^ (r + 1)
    rw [Nat.pow_succ, Nat.mul_add, Nat.mul_one, Nat.mul_comm _ T]
    omega

/-- The sequences in a sequence, or the keywords that it excludes, have a lower rank: no sequence contains itself without a choice
in between. -/
def Ranked (env : Env) (root : Ptr) (rank : Ptr → Nat) : Prop :=
  ∀ p q d is rs ac, Reach env root p → env.defs[p]? = some d → d.kind = .seq is rs ac → env.isSeq q = true →
    (q ∈ is ∨ d.commit.noKeyword = true ∧ q ∈ env.keywords) → rank q < rank p

section
variable {env : Env} {root : Ptr} {input : List Rune} {rend : Option Nat} {rank : Ptr → Nat} {B : Nat}

/-- The number of the calls of a sequence. -/
def seqCalls (env : Env) (L : Nat) : Nat := env.maxItems + L + env.keywords.length

def seqCost (env : Env) (L : Nat) (rank : Ptr → Nat) (p : Ptr) : Nat := if env.isSeq p then rankCost (seqCalls env L) (rank p + 1) else 0

def choiceCost (env : Env) (L B : Nat) : Nat :=
  1 + (L + 2) * (env.maxItems * rankCost (seqCalls env L) B) + env.keywords.length * rankCost (seqCalls env L) B

theorem parseTraced_cost (C : Closed env (Reach env root)) (hr : Ranked env root rank) (hB : ∀ p, env.isSeq p = true → rank p < B) :
    ∀ (n : Nat), CostRec env (Reach env root) input rend (seqCost env input.length rank) (choiceCost env input.length B) (parseTraced env n)
  | 0 => fun p c _ _ _ _ e => by cases e
  | n + 1 => by
    intro p c hp h
    have hpost := Traced.Holds.ofSpec (parse_spec C (Interp.trivial env _ input) (env.bounds _) (n + 1) p c hp h)
    refine Traced.Holds.mono (Traced.Holds.and (Q := fun _ tr => CostAt env (choiceCost env input.length B) (seqCost env input.length rank p) tr)
      hpost ?_) fun c' tr hx => ⟨hx.2, hx.1.inv, hx.1.frame.toks.length_le, fun hm => (hx.1.mtch hm).1, hx.1.fail⟩
    have ih := parseTraced_cost C hr hB n
    unfold parseTraced
    cases hd : env.defs[p]? with
    | none => exact .lift fun a e => by cases e
    | some d =>
      have hch : ∀ q ∈ d.kind.children, Reach env root q := fun q hq => C.child hp hd hq
      have hmax : d.kind.children.length ≤ env.maxItems := foldr_max_le (fun d : PDef => d.kind.children.length) env.defs d (List.mem_of_getElem? hd)
      cases hk : d.kind with
      | char => simp only [hk]; exact .lift fun a e => .nil
      | choice os =>
        simp only [hk]
        have hle : ∀ q, seqCost env input.length rank q ≤ rankCost (seqCalls env input.length) B := by
          intro q
          unfold seqCost
          split
          · rename_i hs
            exact rankCost_mono _ (hB q hs)
          · exact Nat.zero_le _
        have hz : seqCost env input.length rank p = 0 := by
          unfold seqCost Env.isSeq
          simp [hd, hk]
        rw [hz]
        refine choiceParseT_cost ih (A := rankCost (seqCalls env input.length) B) _ d (Env.isChoice_iff.2 ⟨d, os, hd, hk⟩)
          (fun k hkk => ⟨C.keyword hkk, hle k⟩) (fun o ho => ⟨hch o (by rw [hk]; exact ho), hle o⟩) h ?_
        rw [hk] at hmax
        have hmax : os.length ≤ env.maxItems := hmax
        unfold choiceCost
        have := Nat.mul_le_mul_left (input.length + 2) (Nat.mul_le_mul_right (rankCost (seqCalls env input.length) B) hmax)
        omega
      | seq is rs ac =>
        simp only [hk]
        have hle : ∀ q, (q ∈ is ∨ d.commit.noKeyword = true ∧ q ∈ env.keywords) →
            seqCost env input.length rank q ≤ rankCost (seqCalls env input.length) (rank p) := by
          intro q hq
          unfold seqCost
          split
          · rename_i hs
            exact rankCost_mono _ (hr p q d is rs ac hp hd hk hs hq)
          · exact Nat.zero_le _
        have hz : seqCost env input.length rank p = rankCost (seqCalls env input.length) (rank p + 1) := by
          unfold seqCost Env.isSeq
          simp [hd, hk]
        rw [hz]
        refine seqParseT_cost ih (A := rankCost (seqCalls env input.length) (rank p)) _ d
          (fun hnk k hkk => ⟨C.keyword hkk, hle k (Or.inr ⟨hnk, hkk⟩)⟩) (fun o ho => ⟨hch o (by rw [hk]; exact ho), hle o (Or.inl ho)⟩) h ?_
        rw [hk] at hmax
        have hmax : is.length ≤ env.maxItems := hmax
        show _ ≤ 1 + seqCalls env input.length * rankCost (seqCalls env input.length) (rank p)
        have := Nat.mul_le_mul_right (rankCost (seqCalls env input.length) (rank p))
          (show is.length + input.length + env.keywords.length ≤ seqCalls env input.length by unfold seqCalls; omega)
        omega

/-- The number of all attempts. -/
theorem parseTraced_polynomial (C : Closed env (Reach env root)) (hr : Ranked env root rank) :
    ∃ K e, ∀ (input : List Rune) (rend : Option Nat) (n : Nat) (c : Ctx) (tr : List Event),
      parseTraced env n root (newContext input rend) = .ok (c, tr) → tr.length ≤ K * (input.length + 1) ^ e := by
  obtain ⟨B, hB⟩ : ∃ B, ∀ p, env.isSeq p = true → rank p < B := by
    refine ⟨(List.range env.defs.length).foldr (fun x m => max (rank x) m) 0 + 1, fun p hp => ?_⟩
    have hlt : p < env.defs.length := by
      unfold Env.isSeq at hp
      cases hd : env.defs[p]? with
      | none => rw [hd] at hp; cases hp
      | some d => exact (List.getElem?_eq_some_iff.1 hd).1
    exact Nat.lt_succ_of_le (foldr_max_le rank (List.range env.defs.length) p (List.mem_range.2 hlt))
  refine ⟨(env.maxItems + env.keywords.length + 1) ^ (B + 1) +
    (1 + 2 * (env.maxItems * (env.maxItems + env.keywords.length + 1) ^ B) + env.keywords.length * (env.maxItems + env.keywords.length + 1) ^ B) *
      env.defs.length, B + 2, fun input rend n c tr hp => ?_⟩
  have hcost := (parseTraced_cost (rend := rend) (input := input) C hr hB n root _ .root .init c tr hp).1
  have hch := parseTraced_choices C hp (fun e => env.isChoice e.1) fun e _ he => Env.isChoice_iff.1 he
  unfold CostAt at hcost
  have hc : choiceEvents env tr ≤ (input.length + 1) * env.defs.length := hch
  have hroot : seqCost env input.length rank root ≤ rankCost (seqCalls env input.length) (B + 1) := by
    unfold seqCost
    split
    · rename_i hs
      exact rankCost_mono _ (by have := hB root hs; omega)
    · exact Nat.zero_le _
  have hm2 : input.length + 2 ≤ 2 * (input.length + 1) := by omega
  have hm1 : 1 ≤ input.length + 1 := by omega
  have hT : seqCalls env input.length + 1 ≤ (env.maxItems + env.keywords.length + 1) * (input.length + 1) := by
    unfold seqCalls
    rw [Nat.mul_add, Nat.add_mul, Nat.add_mul]
    omega
  have hA : ∀ r, rankCost (seqCalls env input.length) r ≤ (env.maxItems + env.keywords.length + 1) ^ r * (input.length + 1) ^ r := by
    intro r
    rw [← Nat.mul_pow]
    exact Nat.le_trans (rankCost_le _ r) (Nat.pow_le_pow_left hT r)
  have hb : choiceCost env input.length B ≤
      (1 + 2 * (env.maxItems * (env.maxItems + env.keywords.length + 1) ^ B) + env.keywords.length * (env.maxItems + env.keywords.length + 1) ^ B) *
        (input.length + 1) ^ (B + 1) := by
    unfold choiceCost
    have hAB := hA B
    generalize env.maxItems + env.keywords.length + 1 = Q at *
    generalize rankCost (seqCalls env input.length) B = X at *
    generalize env.maxItems = I at *
    generalize env.keywords.length = W at *
    generalize input.length + 1 = m at *
    generalize input.length + 2 = m2 at *
    have hp1 : 1 ≤ m ^ (B + 1) := Nat.one_le_pow _ _ hm1
    have hp2 : m ^ B ≤ m ^ (B + 1) := Nat.pow_le_pow_right hm1 (by omega)
    have e1 : m2 * (I * X) ≤ 2 * (I * Q ^ B) * m ^ (B + 1) := by
      calc m2 * (I * X) ≤ (2 * m) * (I * (Q ^ B * m ^ B)) := Nat.mul_le_mul hm2 (Nat.mul_le_mul_left _ hAB)
        _ = 2 * (I * Q ^ B) * m ^ (B + 1) := by rw [Nat.pow_succ]; ac_rfl
    have e2 : W * X ≤ W * Q ^ B * m ^ (B + 1) := by
      calc W * X ≤ W * (Q ^ B * m ^ B) := Nat.mul_le_mul_left _ hAB
        _ = W * Q ^ B * m ^ B := by ac_rfl
        _ ≤ W * Q ^ B * m ^ (B + 1) := Nat.mul_le_mul_left _ hp2
    rw [Nat.add_mul, Nat.add_mul, Nat.one_mul]
    omega
  have hAB := hA (B + 1)
  generalize choiceCost env input.length B = b at *
  generalize (env.maxItems + env.keywords.length + 1) ^ (B + 1) = Q at *
  generalize 1 + 2 * (env.maxItems * (env.maxItems + env.keywords.length + 1) ^ B) +
    env.keywords.length * (env.maxItems + env.keywords.length + 1) ^ B = Y at *
  generalize rankCost (seqCalls env input.length) (B + 1) = X at *
  generalize seqCost env input.length rank root = Z at *
  generalize choiceEvents env tr = ch at *
  generalize env.defs.length = D at *
  generalize input.length + 1 = m at *
  have hp1 : m ^ (B + 1) ≤ m ^ (B + 2) := Nat.pow_le_pow_right hm1 (by omega)
  have e1 : Q * m ^ (B + 1) ≤ Q * m ^ (B + 2) := Nat.mul_le_mul_left _ hp1
  have e2 : b * ch ≤ Y * D * m ^ (B + 2) := by
    calc b * ch ≤ (Y * m ^ (B + 1)) * (m * D) := Nat.mul_le_mul hb hc
      _ = Y * D * m ^ (B + 2) := by rw [Nat.pow_succ m (B + 1)]; ac_rfl
  rw [Nat.add_mul]
  omega

end

/-! ### A test -/

/-- The sequences that a sequence can call. -/
def seqKids (env : Env) (p : Ptr) : List Ptr :=
  match env.defs[p]? with
  | some d => match d.kind with
    | .seq is _ _ => (is ++ if d.commit.noKeyword then env.keywords else []).filter env.isSeq
    | _ => []
  | none => []

/-- How deep the sequences are nested. -/
def seqRank (env : Env) : Nat → Ptr → Nat
  | 0, _ => 0
  | n + 1, p => (seqKids env p).foldr (fun q m => max (seqRank env n q + 1) m) 0

/-- The test with a given rank. -/
def rankedBy (env : Env) (rank : Ptr → Nat) : Bool :=
  (List.range env.defs.length).all fun p => (seqKids env p).all fun q => decide (rank q < rank p)

def rankedTest (env : Env) (n : Nat) : Bool := rankedBy env (seqRank env n)

theorem rankedBy_sound {env : Env} {rank : Ptr → Nat} (h : rankedBy env rank = true) (root : Ptr) : Ranked env root rank := by
  intro p q d is rs ac _ hd hk hq hm
  have hlt := (List.getElem?_eq_some_iff.1 hd).1
  have h1 := List.all_eq_true.1 (List.all_eq_true.1 h p (List.mem_range.2 hlt)) q (by
    unfold seqKids
    rw [hd]
    simp only [hk, List.mem_filter, List.mem_append]
    refine ⟨?_, hq⟩
    rcases hm with hm | ⟨hn, hm⟩
    · exact Or.inl hm
    · exact Or.inr (by rw [if_pos hn]; exact hm))
  exact of_decide_eq_true h1

theorem rankedTest_sound {env : Env} {n : Nat} (h : rankedTest env n = true) (root : Ptr) : Ranked env root (seqRank env n) :=
  rankedBy_sound h root

end Treerack
