import Verif.Proofs.Trace

/-
When a definition fails, it is known where: a sequence whose required items are characters leaves a fail offset behind, also as the last
option of a choice, and also between optional items.
-/

namespace Treerack

/-! ### Which failures are remembered -/

/-- The addresses are closed for the items, the options, and the keywords. -/
structure Around (env : Env) (R : Ptr → Prop) : Prop where
  choice : ∀ p d os, R p → env.defs[p]? = some d → d.kind = .choice os → ∀ o ∈ os, R o
  seq : ∀ p d is rs ac, R p → env.defs[p]? = some d → d.kind = .seq is rs ac → ∀ i ∈ is, R i
  keywords : ∀ p ∈ env.keywords, R p

/-- None of the choices has the id. -/
def Apart (env : Env) (R : Ptr → Prop) (k : Nat) : Prop :=
  ∀ p d os, R p → env.defs[p]? = some d → d.kind = .choice os → d.id ≠ k

/-- No failure was remembered about the definition. -/
def NoNew (k : Nat) (r r' : Results) : Prop := ∀ o, r'.NoM o k → r.NoM o k

namespace NoNew

theorem refl {k : Nat} (r : Results) : NoNew k r r := fun _ h => h

theorem trans {k : Nat} {a b c : Results} (h : NoNew k a b) (h' : NoNew k b c) : NoNew k a c := fun o x => h o (h' o x)

theorem setMatch {k : Nat} (r : Results) (o i t : Nat) : NoNew k r (r.setMatch o i t) := fun o' h => by simpa using h

theorem mark {k : Nat} (r : Results) (o i : Nat) : NoNew k r (r.markPending o i) := fun _ h => h

theorem unmark {k : Nat} {r r' : Results} {o i : Nat} (h : r.unmarkPending o i = .ok r') : NoNew k r r' := by
  have : r'.noMatch = r.noMatch := by
    unfold Results.unmarkPending at h
    split at h <;> cases h
    rfl
  exact fun o h => (Results.NoM.congr this).1 h

theorem setNoMatch {k : Nat} (r : Results) (o i : Nat) (h : i ≠ k) : NoNew k r (r.setNoMatch o i) := fun o' h' => by
  rcases (Results.noM_setNoMatch _ _ _ _ _).1 h' with h' | ⟨-, h', -⟩
  · exact h'
  · exact absurd h'.symm h

end NoNew

theorem setFailing_res (c : Ctx) (ct : Commit) (p : Ptr) : (c.setFailing ct p).res = c.res := by
  unfold Ctx.setFailing
  split <;> rfl

theorem fromResults_res {c c' : Ctx} {id : Nat} (h : c.fromResults id = some c') : c'.res = c.res := by
  unfold Ctx.fromResults at h
  split at h <;> cases h <;> rfl

section
variable {rec : Ptr → Ctx → Res Ctx} {k : Nat} {R : Ptr → Prop}

theorem unmarkUnless_noNew {ac : Bool} {o i : Nat} {c c' : Ctx} (h : unmarkUnless ac o i c = .ok c') : NoNew k c.res c'.res := by
  unfold unmarkUnless at h
  split at h
  · cases h
    exact .refl _
  · obtain ⟨r, hr, h⟩ := Res.bind_eq_ok h
    cases h
    exact .unmark hr

theorem isKeywordLoop_noNew (hrec : ∀ p c c', R p → rec p c = .ok c' → NoNew k c.res c'.res) (a b : Nat) :
    ∀ (kws : List Ptr) (c : Ctx) (out : Bool × Ctx), (∀ p ∈ kws, R p) → isKeywordLoop rec a b kws c = .ok out → NoNew k c.res out.2.res
  | [], c, out, _, h => by
    cases h
    exact .refl _
  | kw :: kws, c, out, hk, h => by
    unfold isKeywordLoop at h
    obtain ⟨c1, h1, h⟩ := Res.bind_eq_ok h
    have := hrec _ _ _ (hk kw (by simp)) h1
    split at h
    · cases h
      exact this
    · exact .trans this (isKeywordLoop_noNew hrec a b kws _ _ (fun p hp => hk p (by simp [hp])) h)

theorem keyword_noNew (hrec : ∀ p c c', R p → rec p c = .ok c' → NoNew k c.res c'.res) {kws : List Ptr} (hk : ∀ p ∈ kws, R p) {x : Bool}
    {c : Ctx} {a b : Nat} {out : Bool × Ctx} (h : (if x then isKeyword rec kws c a b else .ok (false, c)) = .ok out) :
    NoNew k c.res out.2.res := by
  split at h
  · unfold isKeyword at h
    obtain ⟨⟨b', c'⟩, h1, h⟩ := Res.bind_eq_ok h
    cases h
    have := isKeywordLoop_noNew hrec _ _ kws _ _ hk h1
    exact this
  · cases h
    exact .refl _

theorem choicePass_noNew (hrec : ∀ p c c', R p → rec p c = .ok c' → NoNew k c.res c'.res) (id a : Nat) :
    ∀ (os : List Ptr) (st st' : ChoiceSt), (∀ o ∈ os, R o) → choicePass rec id a os st = .ok st' → NoNew k st.c.res st'.c.res
  | [], st, st', _, h => by
    cases h
    exact .refl _
  | o :: os, st, st', ho, h => by
    unfold choicePass at h
    obtain ⟨c1, h1, h⟩ := Res.bind_eq_ok h
    have := hrec _ _ _ (ho o (by simp)) h1
    simp only at h
    have ho' : ∀ o ∈ os, R o := fun p hp => ho p (by simp [hp])
    have hm : NoNew k c1.res (c1.res.setMatch a id c1.offset) := .setMatch _ _ _ _
    split at h <;> split at h
    all_goals
      have := choicePass_noNew hrec id a os _ _ ho' h
      first
        | exact .trans ‹NoNew k st.c.res c1.res› this
        | exact .trans ‹NoNew k st.c.res c1.res› (.trans hm this)

theorem choiceLoop_noNew (hrec : ∀ p c c', R p → rec p c = .ok c' → NoNew k c.res c'.res) (id a : Nat) (os : List Ptr) (ho : ∀ o ∈ os, R o) :
    ∀ (n : Nat) (st st' : ChoiceSt), choiceLoop rec id a os n st = .ok st' → NoNew k st.c.res st'.c.res
  | 0, st, st', h => by cases h
  | n + 1, st, st', h => by
    unfold choiceLoop at h
    obtain ⟨st1, h1, h⟩ := Res.bind_eq_ok h
    have := choicePass_noNew hrec id a os _ _ ho h1
    split at h
    · exact .trans this (choiceLoop_noNew hrec id a os ho n _ _ h)
    · cases h
      exact this

theorem choiceParse_noNew (hrec : ∀ p c c', R p → rec p c = .ok c' → NoNew k c.res c'.res) {kws : List Ptr} (hk : ∀ p ∈ kws, R p) {n : Nat}
    {p : Ptr} {d : PDef} {os : List Ptr} (ho : ∀ o ∈ os, R o) (hd : d.id ≠ k) {c c' : Ctx}
    (h : choiceParse rec kws n p d os c = .ok c') : NoNew k c.res c'.res := by
  unfold choiceParse at h
  split at h
  · rename_i c1 h1
    cases h
    rw [fromResults_res h1]
    exact .refl _
  · split at h
    · cases h
      exact .refl _
    · obtain ⟨st, h1, h⟩ := Res.bind_eq_ok h
      have hl := NoNew.trans (.mark _ _ _) (choiceLoop_noNew hrec _ _ os ho _ _ _ h1 : NoNew k (c.res.markPending c.offset d.id) _)
      split at h
      · obtain ⟨⟨b, c1⟩, h2, h⟩ := Res.bind_eq_ok h
        have hkw := NoNew.trans hl (keyword_noNew hrec hk h2)
        simp only at h
        split at h
        · obtain ⟨r, hr, h⟩ := Res.bind_eq_ok h
          cases h
          refine .trans hkw ?_
          have := NoNew.unmark (k := k) hr
          simpa [Ctx.fail, setFailing_res] using this
        · obtain ⟨r, hr, h⟩ := Res.bind_eq_ok h
          cases h
          refine .trans hkw ?_
          have := NoNew.unmark (k := k) hr
          refine .trans ?_ this
          simp only [Ctx.success]
          split
          · exact .refl _
          · split <;> exact .refl _
      · unfold choiceNoMatch at h
        obtain ⟨r, hr, h⟩ := Res.bind_eq_ok h
        cases h
        refine .trans hl ?_
        refine .trans ?_ (NoNew.unmark (k := k) hr)
        simp only [Ctx.fail]
        split
        · rw [setFailing_res]
          exact .setNoMatch _ _ _ hd
        · exact .setNoMatch _ _ _ hd

theorem seqItemFailed_noNew {p : Ptr} {d : PDef} {ac : Bool} {a b : Nat} {c c' : Ctx} (h : seqItemFailed p d ac a b c = .ok c') :
    NoNew k c.res c'.res := by
  unfold seqItemFailed at h
  simp only at h
  split at h
  · rename_i c1 h1
    refine .trans ?_ (unmarkUnless_noNew h)
    have := fromResults_res h1
    split
    · show NoNew k c.res c1.res
      rw [this]
      exact .refl _
    · rw [this]
      exact .refl _
  · refine .trans ?_ (unmarkUnless_noNew h)
    show NoNew k c.res (Ctx.setFailing _ _ _).res
    rw [setFailing_res]
    exact .refl _

def SeqOut.firmCtx : SeqOut → Ctx
  | .complete _ c => c
  | .returned c => c

theorem seqLoop_noNew (hrec : ∀ p c c', R p → rec p c = .ok c' → NoNew k c.res c'.res) (p : Ptr) (d : PDef) (ac : Bool) (a : Nat) :
    ∀ (n : Nat) (its : List (Ptr × (Int × Int))) (m t : Nat) (c : Ctx) (out : SeqOut), (∀ i ∈ its, R i.1) →
      seqLoop rec p d ac a n its m t c = .ok out → NoNew k c.res out.firmCtx.res
  | 0, _, _, _, _, _, _, h => by cases h
  | n + 1, [], m, t, c, out, _, h => by
    cases h
    exact .refl _
  | n + 1, (i, (mn, mx)) :: its, m, t, c, out, hi, h => by
    unfold seqLoop at h
    obtain ⟨c1, h1, h⟩ := Res.bind_eq_ok h
    have := hrec _ _ _ (hi _ (List.mem_cons_self ..)) h1
    have hi' : ∀ j ∈ its, R j.1 := fun j hj => hi j (by simp [hj])
    split at h
    · split at h
      · exact .trans this (seqLoop_noNew hrec p d ac a n its _ _ _ _ hi' h)
      · obtain ⟨c2, h2, h⟩ := Res.bind_eq_ok h
        cases h
        exact .trans this (seqItemFailed_noNew h2)
    · simp only at h
      split at h <;> split at h
      all_goals first
        | exact .trans this (seqLoop_noNew hrec p d ac a n its _ _ _ _ hi' h)
        | exact .trans this (seqLoop_noNew hrec p d ac a n _ _ _ _ _ hi h)

theorem setGeneralizations_noNew (a b : Nat) : ∀ (gs : List Nat) (r : Results), NoNew k r (setGeneralizations a b gs r)
  | [], r => .refl _
  | g :: gs, r => by
    show NoNew k r (setGeneralizations a b gs (if r.pending a g then r.setMatch a g b else r))
    refine .trans ?_ (setGeneralizations_noNew a b gs _)
    split
    · exact .setMatch _ _ _ _
    · exact .refl _

theorem seqParse_noNew (hrec : ∀ p c c', R p → rec p c = .ok c' → NoNew k c.res c'.res) {kws : List Ptr} (hk : ∀ p ∈ kws, R p) {n : Nat}
    {p : Ptr} {d : PDef} {is : List Ptr} {rs : List (Int × Int)} {ac : Bool} (hi : ∀ i ∈ is, R i) {c c' : Ctx}
    (h : seqParse rec kws n p d is rs ac c = .ok c') : NoNew k c.res c'.res := by
  unfold seqParse at h
  split at h
  · cases h
    exact .refl _
  · obtain ⟨out, h1, h⟩ := Res.bind_eq_ok h
    have hm : NoNew k c.res (if ac = true then c else { c with res := c.res.markPending c.offset d.id }).res := by
      split
      · exact .refl _
      · exact .mark _ _ _
    have hl := NoNew.trans hm (seqLoop_noNew hrec p d ac _ _ _ _ _ _ _ (fun i hi' => hi _ (List.of_mem_zip hi').1) h1)
    cases out with
    | returned c1 =>
      cases h
      exact hl
    | complete to c1 =>
      simp only at h
      obtain ⟨⟨b, c2⟩, h2, h⟩ := Res.bind_eq_ok h
      have hkw := NoNew.trans hl (keyword_noNew hrec hk h2)
      simp only at h
      split at h
      · refine .trans hkw (.trans ?_ (unmarkUnless_noNew h))
        show NoNew k c2.res (Ctx.setFailing _ _ _).res
        rw [setFailing_res]
        exact .refl _
      · refine .trans hkw (.trans ?_ (unmarkUnless_noNew h))
        simp only [Ctx.success]
        split
        · exact .trans (setGeneralizations_noNew _ _ _ _) (.setMatch _ _ _ _)
        · exact .trans (setGeneralizations_noNew _ _ _ _) (.setMatch _ _ _ _)

end

/-- Only the choices that are tried are remembered as failing. -/
theorem parse_noNew {env : Env} {R : Ptr → Prop} (hR : Around env R) {k : Nat} (hk : Apart env R k) : ∀ (n : Nat) (p : Ptr) (c c' : Ctx),
    R p → parse env n p c = .ok c' → NoNew k c.res c'.res
  | 0, _, _, _, _, h => by cases h
  | n + 1, p, c, c', hp, h => by
    unfold parse at h
    have ih := parse_noNew hR hk n
    cases hd : env.defs[p]? with
    | none => rw [hd] at h; cases h
    | some d =>
      rw [hd] at h
      simp only at h
      cases hkd : d.kind with
      | char neg chars ranges =>
        rw [hkd] at h
        simp only at h
        rw [charParse_res h]
        exact .refl _
      | choice os =>
        rw [hkd] at h
        exact choiceParse_noNew ih hR.keywords (hR.choice p d os hp hd hkd) (hk p d os hp hd hkd) h
      | seq is rs ac =>
        rw [hkd] at h
        exact seqParse_noNew ih hR.keywords (hR.seq p d is rs ac hp hd hkd) h

/-! ### Where a definition fails -/

/-- `ks`: not remembered as failing, `ps`: not being parsed.  Sequences are never remembered as failing. -/
structure Clean (env : Env) (ks ps : List Nat) (c : Ctx) : Prop where
  seqs : ∀ o id, Apart env (fun _ => True) id → ¬ c.res.NoM o id
  noM : ∀ k ∈ ks, ∀ o, ¬ c.res.NoM o k
  free : ∀ k ∈ ps, ∀ o, c.res.pcount o k = 0

namespace Clean
variable {env : Env} {ks ps ks' ps' : List Nat} {c c' : Ctx}

theorem sub (h : Clean env ks ps c) (h1 : ∀ k ∈ ks', k ∈ ks) (h2 : ∀ k ∈ ps', k ∈ ps) : Clean env ks' ps' c :=
  ⟨h.seqs, fun k hk => h.noM k (h1 k hk), fun k hk => h.free k (h2 k hk)⟩

theorem congr (h : Clean env ks ps c) (e : c'.res = c.res) : Clean env ks ps c' :=
  ⟨by rw [e]; exact h.seqs, by rw [e]; exact h.noM, by rw [e]; exact h.free⟩

theorem mark (h : Clean env ks ps c) {o i : Nat} (hi : i ∉ ps) (e : c'.res = c.res.markPending o i) : Clean env ks ps c' := by
  refine ⟨by rw [e]; exact h.seqs, by rw [e]; exact h.noM, fun k hk o' => ?_⟩
  rw [e, Results.pcount_markPending, h.free k hk o', if_neg]
  rintro ⟨-, rfl⟩
  exact hi hk

theorem setMatch (h : Clean env ks ps c) {o i t : Nat} (e : c'.res = c.res.setMatch o i t) : Clean env ks ps c' := by
  refine ⟨fun o' k hk => ?_, fun k hk o' => ?_, fun k hk o' => ?_⟩ <;> rw [e]
  · rw [Results.noM_setMatch]; exact h.seqs o' k hk
  · rw [Results.noM_setMatch]; exact h.noM k hk o'
  · rw [Results.pcount_setMatch]; exact h.free k hk o'

theorem init {input : List Rune} {rend : Option Nat} : Clean env ks ps (newContext input rend) := by
  refine ⟨fun o k _ h => ?_, fun k _ o h => ?_, fun k _ o => rfl⟩ <;> cases h

end Clean

/-- The marks are the same after parsing. -/
theorem parse_marks {env : Env} {q : Ptr} {dq : PDef} {qos : List Ptr} (hq : env.defs[q]? = some dq) (hk : dq.kind = .choice qos) {n : Nat}
    {p : Ptr} {c c' : Ctx} (h : parse env n p c = .ok c') (o k : Nat) : c'.res.pcount o k = c.res.pcount o k := by
  have he := parseTraced_erase env n p c
  rw [h] at he
  cases ht : parseTraced env n p c with
  | panic => rw [ht] at he; cases he
  | oof => rw [ht] at he; cases he
  | ok x =>
    obtain ⟨c1, tr⟩ := x
    rw [ht] at he
    cases he
    exact (parseTraced_once hq hk 0 n p c _ _ ht).grown.pc o k

theorem parse_clean {env : Env} {R : Ptr → Prop} (hR : Around env R) {q : Ptr} {dq : PDef} {qos : List Ptr} (hq : env.defs[q]? = some dq)
    (hk : dq.kind = .choice qos) {ks ps : List Nat} (hks : ∀ k ∈ ks, Apart env R k) {n : Nat} {p : Ptr} {c c' : Ctx} (hp : R p)
    (hc : Clean env ks ps c) (h : parse env n p c = .ok c') : Clean env ks ps c' := by
  refine ⟨fun o k hk' hn => ?_, fun k hk' o hn => ?_, fun k hk' o => ?_⟩
  · exact hc.seqs o k hk' (parse_noNew hR (fun p d os _ => hk' p d os trivial) n p c c' hp h o hn)
  · exact hc.noM k hk' o (parse_noNew hR (hks k hk') n p c c' hp h o hn)
  · rw [parse_marks hq hk h]
    exact hc.free k hk' o

theorem around_all (env : Env) : Around env fun _ => True := ⟨fun _ _ _ _ _ _ _ _ => trivial, fun _ _ _ _ _ _ _ _ _ _ => trivial, fun _ _ => trivial⟩

/-- When it fails, it is known where. -/
def Firm (env : Env) (ks ps : List Nat) (p : Ptr) : Prop :=
  ∀ n c c', Clean env ks ps c → parse env n p c = .ok c' → c'.matchLast = false → 0 ≤ c'.failOffset

theorem unmarkUnless_flags {ac : Bool} {o i : Nat} {c c' : Ctx} (h : unmarkUnless ac o i c = .ok c') :
    c'.matchLast = c.matchLast ∧ c'.failOffset = c.failOffset := by
  unfold unmarkUnless at h
  split at h
  · cases h
    exact ⟨rfl, rfl⟩
  · obtain ⟨r, hr, h⟩ := Res.bind_eq_ok h
    cases h
    exact ⟨rfl, rfl⟩

theorem setFailing_flags (c : Ctx) (ct : Commit) (p : Ptr) : (c.setFailing ct p).failOffset = c.failOffset := by
  unfold Ctx.setFailing
  split <;> rfl

theorem firm_char {env : Env} {p : Ptr} {d : PDef} {neg : Bool} {chars : List Rune} {ranges : List (Rune × Rune)} {ks ps : List Nat}
    (hd : env.defs[p]? = some d) (hk : d.kind = .char neg chars ranges) : Firm env ks ps p := by
  intro n c c' _ h hm
  cases n with
  | zero => cases h
  | succ n =>
    unfold parse at h
    rw [hd] at h
    simp only [hk] at h
    unfold charParse at h
    obtain ⟨⟨tok, c1⟩, -, h⟩ := Res.bind_eq_ok h
    simp only at h
    split at h <;> split at h <;> cases h
    all_goals first
      | (simp only [Ctx.fail]
         split
         · exact Int.natCast_nonneg _
         · omega)
      | cases hm

theorem seqItemFailed_firm {p : Ptr} {d : PDef} {ac : Bool} {a b : Nat} {c c' : Ctx} (hn : ¬ c.res.NoM a d.id) (hf : 0 ≤ c.failOffset)
    (h : seqItemFailed p d ac a b c = .ok c') (hm : c'.matchLast = false) : 0 ≤ c'.failOffset := by
  unfold seqItemFailed at h
  simp only at h
  split at h
  · rename_i c1 h1
    obtain ⟨h2, h3⟩ := unmarkUnless_flags h
    rw [h2] at hm
    unfold Ctx.fromResults at h1
    split at h1
    · cases h1
    · cases h1
      split at hm <;> cases hm
    · rename_i h4
      exact absurd ((Results.longestResult_fail ..).1 h4) hn
  · obtain ⟨-, h3⟩ := unmarkUnless_flags h
    rw [h3]
    show 0 ≤ (Ctx.setFailing _ _ _).failOffset
    rw [setFailing_flags]
    exact hf

/-- The items of a sequence: `F` the ones that leave a fail offset behind, `P` the ones after which the others still do so. -/
inductive FirmItems (F P : Ptr → Prop) : Nat → List (Ptr × (Int × Int)) → Prop where
  | done {m its} : (∀ i ∈ its, i.2.1 ≤ 0) → FirmItems F P m its
  | next {m i mn mx its} : P i → (0 < mn → F i) → FirmItems F P 0 its → FirmItems F P m ((i, (mn, mx)) :: its)
  | last {i its} : F i → (∀ i ∈ its, i.2.1 ≤ 0) → FirmItems F P 0 ((i, (1, 1)) :: its)

section
variable {env : Env} {ks ps : List Nat} {rec : Ptr → Ctx → Res Ctx} {F P : Ptr → Prop}

theorem seqLoop_optional {p : Ptr} {d : PDef} {ac : Bool} {a : Nat} : ∀ (n : Nat) (its : List (Ptr × (Int × Int))) (m t : Nat) (c c' : Ctx),
    (∀ i ∈ its, i.2.1 ≤ 0) → seqLoop rec p d ac a n its m t c ≠ .ok (.returned c')
  | 0, _, _, _, _, _, _, h => by cases h
  | n + 1, [], _, _, _, _, _, h => by cases h
  | n + 1, (i, (mn, mx)) :: its, m, t, c, c', hi, h => by
    unfold seqLoop at h
    obtain ⟨c1, h1, h⟩ := Res.bind_eq_ok h
    have hi' : ∀ j ∈ its, j.2.1 ≤ 0 := fun j hj => hi j (by simp [hj])
    have h0 : mn ≤ 0 := hi _ (List.mem_cons_self ..)
    split at h
    · split at h
      · exact seqLoop_optional n _ _ _ _ _ hi' h
      · omega
    · simp only at h
      split at h <;> split at h
      all_goals first
        | exact seqLoop_optional n _ _ _ _ _ hi' h
        | exact seqLoop_optional n _ _ _ _ _ hi h

theorem seqLoop_firm (hF : ∀ p c c', F p → Clean env ks ps c → rec p c = .ok c' → c'.matchLast = false → 0 ≤ c'.failOffset)
    (hP : ∀ p c c', P p → Clean env ks ps c → rec p c = .ok c' → Clean env ks ps c')
    (hS : ∀ p c c' o k, Apart env (fun _ => True) k → ¬ c.res.NoM o k → rec p c = .ok c' → ¬ c'.res.NoM o k)
    {p : Ptr} {d : PDef} {ac : Bool} {a : Nat} (hd : Apart env (fun _ => True) d.id) :
    ∀ (n : Nat) (its : List (Ptr × (Int × Int))) (m t : Nat) (c c' : Ctx),
    FirmItems F P m its → Clean env ks ps c → seqLoop rec p d ac a n its m t c = .ok (.returned c') → c'.matchLast = false →
      0 ≤ c'.failOffset
  | 0, _, _, _, _, _, _, _, h, _ => by cases h
  | n + 1, [], _, _, _, _, _, _, h, _ => by cases h
  | n + 1, (i, (mn, mx)) :: its, m, t, c, c', hi, hc, h, hm => by
    cases hi with
    | done hi => exact absurd h (seqLoop_optional _ _ _ _ _ _ hi)
    | next hi hr hn =>
      unfold seqLoop at h
      obtain ⟨c1, h1, h⟩ := Res.bind_eq_ok h
      have hc1 := hP _ _ _ hi hc h1
      split at h
      · split at h
        · exact seqLoop_firm hF hP hS hd n _ _ _ _ _ hn hc1 h hm
        · rename_i hm1 _
          obtain ⟨c2, h2, h⟩ := Res.bind_eq_ok h
          cases h
          exact seqItemFailed_firm (hc1.seqs _ _ hd) (hF _ _ _ (hr (by omega)) hc h1 (by simpa using hm1)) h2 hm
      · simp only at h
        split at h <;> split at h
        all_goals first
          | exact seqLoop_firm hF hP hS hd n _ _ _ _ _ hn hc1 h hm
          | exact seqLoop_firm hF hP hS hd n _ _ _ _ _ (.next hi hr hn) hc1 h hm
    | last hi hn =>
      unfold seqLoop at h
      obtain ⟨c1, h1, h⟩ := Res.bind_eq_ok h
      split at h
      · split at h
        · exact absurd h (seqLoop_optional _ _ _ _ _ _ hn)
        · rename_i hm1 _
          obtain ⟨c2, h2, h⟩ := Res.bind_eq_ok h
          cases h
          exact seqItemFailed_firm (hS _ _ _ _ _ hd (hc.seqs _ _ hd) h1) (hF _ _ _ hi hc h1 (by simpa using hm1)) h2 hm
      · simp only at h
        split at h <;> split at h
        · exact absurd h (seqLoop_optional _ _ _ _ _ _ hn)
        · simp_all
        · exact absurd h (seqLoop_optional _ _ _ _ _ _ hn)
        · simp_all

theorem seqParse_firm (hF : ∀ p c c', F p → Clean env ks ps c → rec p c = .ok c' → c'.matchLast = false → 0 ≤ c'.failOffset)
    (hP : ∀ p c c', P p → Clean env ks ps c → rec p c = .ok c' → Clean env ks ps c')
    (hS : ∀ p c c' o k, Apart env (fun _ => True) k → ¬ c.res.NoM o k → rec p c = .ok c' → ¬ c'.res.NoM o k)
    {kws : List Ptr} {n : Nat} {p : Ptr} {d : PDef} {is : List Ptr} {rs : List (Int × Int)} {ac : Bool}
    (hd : Apart env (fun _ => True) d.id) (hk : d.commit.noKeyword = false) (hi : FirmItems F P 0 (is.zip rs)) {c c' : Ctx}
    (hc : Clean env ks ps c) (hp : ac = false → d.id ∉ ps ∧ c.res.pcount c.offset d.id = 0)
    (h : seqParse rec kws n p d is rs ac c = .ok c') (hm : c'.matchLast = false) : 0 ≤ c'.failOffset := by
  unfold seqParse at h
  split at h
  · rename_i hpe
    simp only [Bool.and_eq_true, Bool.not_eq_true'] at hpe
    have := (Results.pending_iff ..).1 hpe.2
    rw [(hp hpe.1).2] at this
    omega
  · obtain ⟨out, h1, h⟩ := Res.bind_eq_ok h
    have hc1 : Clean env ks ps (if ac = true then c else { c with res := c.res.markPending c.offset d.id }) := by
      split
      · exact hc
      · rename_i ha
        exact hc.mark (hp (by simpa using ha)).1 rfl
    cases out with
    | returned c1 =>
      cases h
      exact seqLoop_firm hF hP hS hd _ _ _ _ _ _ hi hc1 h1 hm
    | complete to c1 =>
      simp only [hk] at h
      obtain ⟨⟨b, c2⟩, h2, h⟩ := Res.bind_eq_ok h
      cases h2
      simp only [Bool.false_eq_true, if_false] at h
      rw [(unmarkUnless_flags h).1] at hm
      cases hm

theorem choicePass_firm {id a : Nat} {l : Ptr} 
    (hF : ∀ c c', Clean env [] ps c → rec l c = .ok c' → c'.matchLast = false → 0 ≤ c'.failOffset)
    (hP : ∀ p c c', Clean env [] ps c → rec p c = .ok c' → Clean env [] ps c') :
    ∀ (os : List Ptr) (st st' : ChoiceSt), Clean env [] ps st.c → choicePass rec id a (os ++ [l]) st = .ok st' →
      Clean env [] ps st'.c ∧ (st'.mtch = false → 0 ≤ st'.c.failOffset ∧ 0 ≤ st'.failOffset)
  | [], st, st', hc, h => by
    simp only [List.nil_append] at h
    unfold choicePass at h
    obtain ⟨c1, h1, h⟩ := Res.bind_eq_ok h
    have hc1 := hP _ _ _ hc h1
    have hf := hF _ _ hc h1
    simp only [choicePass] at h
    have hm : Clean env [] ps { c1 with offset := a, res := c1.res.setMatch a id c1.offset } := hc1.setMatch rfl
    split at h <;> split at h <;> cases h
    · rename_i h2 h3
      simp only [Bool.and_eq_true, Bool.not_eq_true', decide_eq_true_eq] at h2
      exact ⟨hc1.congr rfl, fun _ => ⟨hf h2.1, hf h2.1⟩⟩
    · exact ⟨hm, fun h => by cases h⟩
    · rename_i h2 h3
      refine ⟨hc1.congr rfl, fun h => ?_⟩
      simp only at h
      simp only [h, Bool.false_and, Bool.or_false, Bool.not_eq_true'] at h3
      simp only [h3, Bool.not_false, Bool.true_and, decide_eq_true_eq] at h2
      have := hf h3
      exact ⟨this, by simp only; omega⟩
    · exact ⟨hm, fun h => by cases h⟩
  | o :: os, st, st', hc, h => by
    simp only [List.cons_append] at h
    unfold choicePass at h
    obtain ⟨c1, h1, h⟩ := Res.bind_eq_ok h
    have hc1 := hP _ _ _ hc h1
    have hm : Clean env [] ps { c1 with offset := a, res := c1.res.setMatch a id c1.offset } := hc1.setMatch rfl
    have hc2 : Clean env [] ps { c1 with offset := a } := hc1.congr rfl
    simp only at h
    split at h <;> split at h
    all_goals first
      | exact choicePass_firm hF hP os _ _ hc2 h
      | exact choicePass_firm hF hP os _ _ hm h

theorem choiceLoop_firm {id a : Nat} {l : Ptr} 
    (hF : ∀ c c', Clean env [] ps c → rec l c = .ok c' → c'.matchLast = false → 0 ≤ c'.failOffset)
    (hP : ∀ p c c', Clean env [] ps c → rec p c = .ok c' → Clean env [] ps c') (os : List Ptr) :
    ∀ (n : Nat) (st st' : ChoiceSt), Clean env [] ps st.c → choiceLoop rec id a (os ++ [l]) n st = .ok st' →
      st'.mtch = false → 0 ≤ st'.c.failOffset ∧ 0 ≤ st'.failOffset
  | 0, _, _, _, h => by cases h
  | n + 1, st, st', hc, h => by
    unfold choiceLoop at h
    obtain ⟨st1, h1, h⟩ := Res.bind_eq_ok h
    obtain ⟨h2, h3⟩ := choicePass_firm hF hP os _ _ (by exact hc) h1
    split at h
    · exact choiceLoop_firm hF hP os n _ _ h2 h
    · cases h
      exact h3

theorem choiceParse_firm {l : Ptr} 
    (hF : ∀ c c', Clean env [] ps c → rec l c = .ok c' → c'.matchLast = false → 0 ≤ c'.failOffset)
    (hP : ∀ p c c', Clean env [] ps c → rec p c = .ok c' → Clean env [] ps c') {kws : List Ptr} {n : Nat} {p : Ptr} {d : PDef}
    {os : List Ptr} (hk : d.commit.noKeyword = false) {c c' : Ctx} (hc : Clean env [d.id] (d.id :: ps) c) (hi : d.id ∉ ps)
    (h : choiceParse rec kws n p d (os ++ [l]) c = .ok c') (hm : c'.matchLast = false) : 0 ≤ c'.failOffset := by
  unfold choiceParse at h
  split at h
  · rename_i c1 h1
    cases h
    unfold Ctx.fromResults at h1
    split at h1
    · cases h1
    · cases h1
      cases hm
    · rename_i h4
      exact absurd ((Results.longestResult_fail ..).1 h4) (hc.noM _ (by simp) _)
  · split at h
    · rename_i hpe
      have := (Results.pending_iff ..).1 hpe
      rw [hc.free _ (by simp)] at this
      omega
    · obtain ⟨st, h1, h⟩ := Res.bind_eq_ok h
      have hl := choiceLoop_firm hF hP os _ _ _
        (show Clean env [] ps _ from (hc.sub (by simp) (fun k hk => by simp [hk])).mark hi rfl) h1
      split at h
      · obtain ⟨⟨b, c1⟩, h2, h⟩ := Res.bind_eq_ok h
        simp only [hk] at h2
        cases h2
        simp only [Bool.false_eq_true, if_false] at h
        obtain ⟨r, hr, h⟩ := Res.bind_eq_ok h
        cases h
        cases hm
      · rename_i hmt
        obtain ⟨l1, l2⟩ := hl (by simpa using hmt)
        unfold choiceNoMatch at h
        obtain ⟨r, hr, h⟩ := Res.bind_eq_ok h
        cases h
        simp only [Ctx.fail]
        split
        · rw [setFailing_flags]
          exact l2
        · exact l1

end

section
variable {env : Env} {q : Ptr} {dq : PDef} {qos : List Ptr}

/-- A sequence of characters. -/
theorem firm_seq {R : Ptr → Prop} (hR : Around env R) (hq : env.defs[q]? = some dq) (hqk : dq.kind = .choice qos) {ks ps : List Nat}
    (hks : ∀ k ∈ ks, Apart env R k) {p : Ptr} {d : PDef} {is : List Ptr} {rs : List (Int × Int)} {ac : Bool} (hd : env.defs[p]? = some d)
    (hkd : d.kind = .seq is rs ac) (ha : Apart env (fun _ => True) d.id) (hk : d.commit.noKeyword = false)
    (hi : FirmItems (Firm env ks ps) R 0 (is.zip rs)) (hp : ac = false → d.id ∉ ps) :
    Firm env ks (if ac then ps else d.id :: ps) p := by
  intro n c c' hc h hm
  cases n with
  | zero => cases h
  | succ n =>
    unfold parse at h
    rw [hd] at h
    simp only [hkd] at h
    refine seqParse_firm (F := Firm env ks ps) (P := R) (ks := ks) (ps := ps) (fun p c c' hF => hF n c c') (fun p c c' hp hc h => parse_clean hR hq hqk hks hp hc h)
      (fun p c c' o k hk hn h hn' => hn (parse_noNew (around_all env) hk n p c c' trivial h o hn')) ha hk hi
      (hc.sub (fun _ h => h) fun k hk => ?_) (fun hac => ⟨hp hac, ?_⟩) h hm
    · split
      · exact hk
      · simp [hk]
    · subst hac
      exact hc.free _ (by simp) _

/-- A choice ending with a firm option. -/
theorem firm_choice {e : Ptr} {d : PDef} {os : List Ptr} {l : Ptr} (hd : env.defs[e]? = some d) (hkd : d.kind = .choice (os ++ [l])) {ps : List Nat}
    (hk : d.commit.noKeyword = false) (hl : Firm env [] ps l) (hi : d.id ∉ ps) : Firm env [d.id] (d.id :: ps) e := by
  intro n c c' hc h hm
  cases n with
  | zero => cases h
  | succ n =>
    unfold parse at h
    rw [hd] at h
    simp only [hkd] at h
    exact choiceParse_firm (fun c c' => hl n c c') (fun p c c' hc h => parse_clean (around_all env) hd hkd (by simp) trivial hc h) hk hc hi h hm

end

/-! ### A test -/

def apartTest (env : Env) (k : Nat) : Bool :=
  env.defs.all fun d => match d.kind with
    | .choice _ => d.id != k
    | _ => true

theorem apartTest_sound {env : Env} {k : Nat} (h : apartTest env k = true) : Apart env (fun _ => True) k := by
  intro p d os _ hd hk
  have := List.all_eq_true.1 h d (List.mem_of_getElem? hd)
  rw [hk] at this
  simpa using this

/-- The addresses are closed, and no choice of them has the id. -/
def aroundTest (env : Env) (V : List Ptr) (k : Nat) : Bool :=
  V.all (fun p => match env.defs[p]? with
    | none => true
    | some d => match d.kind with
      | .choice os => d.id != k && os.all V.contains
      | .seq is _ _ => is.all V.contains
      | .char .. => true) && env.keywords.all V.contains

theorem aroundTest_sound {env : Env} {V : List Ptr} {k : Nat} (h : aroundTest env V k = true) :
    Around env (· ∈ V) ∧ Apart env (· ∈ V) k := by
  unfold aroundTest at h
  simp only [Bool.and_eq_true] at h
  have key := List.all_eq_true.1 h.1
  refine ⟨⟨fun p d os hp hd hk o ho => ?_, fun p d is rs ac hp hd hk i hi => ?_, fun p hp => ?_⟩, fun p d os hp hd hk => ?_⟩
  · have := key p hp
    simp only [hd, hk, Bool.and_eq_true] at this
    simpa using List.all_eq_true.1 this.2 o ho
  · have := key p hp
    simp only [hd, hk] at this
    simpa using List.all_eq_true.1 this i hi
  · simpa using List.all_eq_true.1 h.2 p hp
  · have := key p hp
    simp only [hd, hk, Bool.and_eq_true] at this
    simpa using this.1

def charTest (env : Env) (p : Ptr) : Bool :=
  match env.defs[p]? with
  | none => false
  | some d => match d.kind with
    | .char .. => true
    | _ => false

theorem charTest_sound {env : Env} {p : Ptr} (h : charTest env p = true) (ks ps : List Nat) : Firm env ks ps p := by
  unfold charTest at h
  split at h
  · cases h
  · rename_i d hd
    split at h
    · rename_i hk
      exact firm_char hd hk
    · cases h

/-- A character or a sequence of characters. -/
def textTest (env : Env) (p : Ptr) : Bool :=
  charTest env p || match env.defs[p]? with
    | none => false
    | some d => match d.kind with
      | .seq is _ true => !d.commit.noKeyword && apartTest env d.id && is.all (charTest env)
      | _ => false

theorem textTest_sound {env : Env} {q : Ptr} {dq : PDef} {qos : List Ptr} (hq : env.defs[q]? = some dq) (hqk : dq.kind = .choice qos)
    {p : Ptr} (h : textTest env p = true) : Firm env [] [] p := by
  unfold textTest at h
  simp only [Bool.or_eq_true] at h
  rcases h with h | h
  · exact charTest_sound h _ _
  · split at h
    · cases h
    · rename_i d hd
      split at h
      · rename_i is rs hk
        simp only [Bool.and_eq_true, Bool.not_eq_true'] at h
        refine firm_seq (ac := true) (ps := []) (around_all env) hq hqk (by simp) hd hk (apartTest_sound h.1.2) h.1.1 ?_ (by simp)
        have : ∀ its : List (Ptr × (Int × Int)), (∀ i ∈ its, i.1 ∈ is) → FirmItems (Firm env [] []) (fun _ => True) 0 its := by
          intro its
          induction its with
          | nil => exact fun _ => .done (by simp)
          | cons i its ih =>
            intro hi
            exact .next trivial (fun _ => charTest_sound (List.all_eq_true.1 h.2 _ (hi i (by simp))) _ _)
              (ih fun j hj => hi j (by simp [hj]))
        exact this _ fun i hi => (List.of_mem_zip hi).1
      · cases h

/-- The root is a definition between optional ones, that is a choice, whose last option is a sequence, whose required items are
characters or sequences of characters. -/
structure Solid where
  root : Ptr
  before : Ptr
  body : Ptr
  after : Ptr
  choice : Ptr
  options : List Ptr
  last : Ptr
  items : List Ptr
  ranges : List (Int × Int)
  spaces : List Ptr

def Solid.test (x : Solid) (env : Env) : Bool :=
  match env.defs[x.root]?, env.defs[x.body]?, env.defs[x.choice]?, env.defs[x.last]? with
  | some dr, some db, some de, some dl =>
    decide (dr.kind = .seq [x.before, x.body, x.after] [(0, -1), (1, 1), (0, -1)] false) &&
    decide (db.kind = .seq [x.choice] [(1, 1)] false) && decide (de.kind = .choice (x.options ++ [x.last])) &&
    decide (dl.kind = .seq x.items x.ranges false) && [dr, db, de, dl].all (fun d => !d.commit.noKeyword) &&
    [dr, db, dl].all (fun d => apartTest env d.id) && decide ([dr.id, db.id, de.id, dl.id].Nodup) &&
    aroundTest env x.spaces de.id && x.spaces.contains x.before &&
    (x.items.zip x.ranges).all (fun i => decide (i.2.1 ≤ 0) || textTest env i.1)
  | _, _, _, _ => false

/-- When nothing matches, it is known where. -/
theorem Solid.firm {x : Solid} {env : Env} (h : x.test env = true) {n : Nat} {input : List Rune} {rend : Option Nat} {c : Ctx}
    (hp : parse env n x.root (newContext input rend) = .ok c) (hm : c.matchLast = false) : 0 ≤ c.failOffset := by
  unfold Solid.test at h
  split at h
  · rename_i dr db de dl hr hb he hl
    simp only [Bool.and_eq_true, decide_eq_true_eq, List.all_cons, List.all_nil, and_true, Bool.not_eq_true', List.nodup_cons,
      List.mem_cons, List.not_mem_nil, or_false, not_or] at h
    obtain ⟨⟨⟨⟨⟨⟨⟨⟨⟨kr, kb⟩, ke⟩, kl⟩, nr, nb, ne, nl⟩, ar, ab, al⟩, ⟨d1, d2, d3⟩, ⟨d4, d5⟩, d6, -⟩, hV⟩, hw⟩, hi⟩ := h
    obtain ⟨hR, hA⟩ := aroundTest_sound hV
    have hlast : Firm env [] [dl.id] x.last := by
      refine firm_seq (ac := false) (ps := []) (around_all env) he ke (by simp) hl kl (apartTest_sound al) nl ?_ (by simp)
      have : ∀ its : List (Ptr × (Int × Int)), its.all (fun i => decide (i.2.1 ≤ 0) || textTest env i.1) = true →
          FirmItems (Firm env [] []) (fun _ => True) 0 its := by
        intro its
        induction its with
        | nil => exact fun _ => .done (by simp)
        | cons i its ih =>
          intro hi
          simp only [List.all_cons, Bool.and_eq_true, Bool.or_eq_true, decide_eq_true_eq] at hi
          refine .next trivial (fun h0 => ?_) (ih hi.2)
          rcases hi.1 with h1 | h1
          · exact absurd h0 (Int.not_lt.2 h1)
          · exact textTest_sound he ke h1
      exact this _ hi
    have hchoice : Firm env [de.id] [de.id, dl.id] x.choice := firm_choice he ke ne hlast (by simpa using d6)
    have hbody : Firm env [de.id] [db.id, de.id, dl.id] x.body := by
      refine firm_seq (R := (· ∈ x.spaces)) (ac := false) (ps := [de.id, dl.id]) hR he ke (by simpa using hA) hb kb (apartTest_sound ab) nb
        (.last hchoice (by simp)) (fun _ => by simp [d4, d5])
    have hroot : Firm env [de.id] [dr.id, db.id, de.id, dl.id] x.root := by
      refine firm_seq (R := (· ∈ x.spaces)) (ac := false) (ps := [db.id, de.id, dl.id]) hR he ke (by simpa using hA) hr kr (apartTest_sound ar) nr
        (.next (by simpa using hw) (fun h => by omega) (.last hbody (by simp))) (fun _ => by simp [d1, d2, d3])
    exact hroot n _ _ .init hp hm
  · cases h

end Treerack
