import Verif.Model.Trace
import Verif.Proofs.Results
import Verif.Proofs.Spec

/-
The traced parser: it is the parser, and a choice tries its options at most once at an offset.
-/

namespace Treerack

namespace Traced
variable {α β : Type}

@[simp] theorem erase_lift (x : Res α) : (lift x).erase = x := by cases x <;> rfl

@[simp] theorem erase_record (e : Event) (x : Traced α) : (record e x).erase = x.erase := by
  unfold record erase; cases x <;> rfl

theorem erase_bind (x : Traced α) (f : α → Traced β) : (x.bind f).erase = x.erase.bind fun a => (f a).erase := by
  unfold Traced.bind erase
  cases x with
  | ok a => simp only [Res.bind_ok]; cases f a.1 <;> rfl
  | panic => rfl
  | oof => rfl

/-- What holds for the result and the trace, when there is a result. -/
def Holds (x : Traced α) (P : α → List Event → Prop) : Prop := ∀ a t, x = .ok (a, t) → P a t

theorem Holds.bind {x : Traced α} {f : α → Traced β} {P : α → List Event → Prop} {Q : β → List Event → Prop} (h : x.Holds P)
    (hf : ∀ a t, P a t → (f a).Holds fun b u => Q b (t ++ u)) : (x.bind f).Holds Q := by
  intro b u e
  unfold Traced.bind at e
  cases x with
  | panic => cases e
  | oof => cases e
  | ok a =>
    obtain ⟨a, t⟩ := a
    simp only [Res.bind_ok] at e
    cases hb : f a with
    | panic => rw [hb] at e; cases e
    | oof => rw [hb] at e; cases e
    | ok b' =>
      rw [hb] at e
      simp only [Res.bind_ok, Res.ok.injEq, Prod.mk.injEq] at e
      obtain ⟨rfl, rfl⟩ := e
      exact hf a t (h a t rfl) b'.1 b'.2 hb

theorem Holds.lift {x : Res α} {P : α → List Event → Prop} (h : ∀ a, x = .ok a → P a []) : (lift x).Holds P := by
  intro a t e
  cases x with
  | panic => cases e
  | oof => cases e
  | ok b =>
    unfold Traced.lift at e
    simp only [Res.bind_ok, Res.ok.injEq, Prod.mk.injEq] at e
    obtain ⟨rfl, rfl⟩ := e
    exact h _ rfl

theorem Holds.record {x : Traced α} {ev : Event} {P : α → List Event → Prop} (h : x.Holds fun a t => P a (ev :: t)) :
    (record ev x).Holds P := by
  intro a t e
  cases x with
  | panic => cases e
  | oof => cases e
  | ok b =>
    unfold Traced.record at e
    simp only [Res.bind_ok, Res.ok.injEq, Prod.mk.injEq] at e
    obtain ⟨rfl, rfl⟩ := e
    exact h _ _ rfl

theorem Holds.mono {x : Traced α} {P Q : α → List Event → Prop} (h : x.Holds P) (hpq : ∀ a t, P a t → Q a t) : x.Holds Q :=
  fun a t e => hpq a t (h a t e)

end Traced

/-! ### Without the trace -/

section
variable {recT : Ptr → Ctx → Traced Ctx} {rec : Ptr → Ctx → Res Ctx} (h : ∀ p c, (recT p c).erase = rec p c)
include h

theorem isKeywordLoopT_erase (from_ to : Nat) : ∀ (kws : List Ptr) (c : Ctx),
    (isKeywordLoopT recT from_ to kws c).erase = isKeywordLoop rec from_ to kws c
  | [], c => by unfold isKeywordLoopT isKeywordLoop; simp
  | k :: kws, c => by
    unfold isKeywordLoopT isKeywordLoop
    rw [Traced.erase_bind, h]
    congr 1
    funext c
    split
    · simp
    · exact isKeywordLoopT_erase from_ to kws c

theorem isKeywordT_erase (kws : List Ptr) (c : Ctx) (from_ to : Nat) :
    (isKeywordT recT kws c from_ to).erase = isKeyword rec kws c from_ to := by
  unfold isKeywordT isKeyword
  rw [Traced.erase_bind, isKeywordLoopT_erase h]
  simp

theorem choicePassT_erase (id from_ : Nat) : ∀ (os : List Ptr) (st : ChoiceSt),
    (choicePassT recT id from_ os st).erase = choicePass rec id from_ os st
  | [], st => by unfold choicePassT choicePass; simp
  | o :: os, st => by
    unfold choicePassT choicePass
    rw [Traced.erase_bind, h]
    congr 1
    funext c
    simp only
    split <;> split <;> exact choicePassT_erase id from_ os _

theorem choiceLoopT_erase (id from_ : Nat) (os : List Ptr) : ∀ (n : Nat) (st : ChoiceSt),
    (choiceLoopT recT id from_ os n st).erase = choiceLoop rec id from_ os n st
  | 0, st => by unfold choiceLoopT choiceLoop; simp
  | n + 1, st => by
    unfold choiceLoopT choiceLoop
    rw [Traced.erase_bind, choicePassT_erase h]
    congr 1
    funext st
    split
    · exact choiceLoopT_erase id from_ os n st
    · simp

theorem choiceParseT_erase (kws : List Ptr) (n : Nat) (p : Ptr) (d : PDef) (os : List Ptr) (c : Ctx) :
    (choiceParseT recT kws n p d os c).erase = choiceParse rec kws n p d os c := by
  unfold choiceParseT choiceParse
  cases hr : c.fromResults d.id with
  | some c' => simp
  | none =>
    simp only
    by_cases hp : c.res.pending c.offset d.id = true
    · simp [hp]
    · simp only [hp, if_false, Bool.false_eq_true, Traced.erase_record, Traced.erase_bind, choiceLoopT_erase h]
      congr 1
      funext st
      split
      · rw [Traced.erase_bind]
        congr 1
        · split
          · exact isKeywordT_erase h _ _ _ _
          · simp
        · funext x
          obtain ⟨kw, c⟩ := x
          simp only
          split <;> simp
      · simp

theorem seqLoopT_erase (p : Ptr) (d : PDef) (ac : Bool) (from_ : Nat) : ∀ (n : Nat) (its : List (Ptr × (Int × Int))) (k to : Nat)
    (c : Ctx), (seqLoopT recT p d ac from_ n its k to c).erase = seqLoop rec p d ac from_ n its k to c
  | 0, _, _, _, _ => by unfold seqLoopT seqLoop; simp
  | n + 1, [], _, _, _ => by unfold seqLoopT seqLoop; simp
  | n + 1, (item, mn, mx) :: rest, k, to, c => by
    unfold seqLoopT seqLoop
    rw [Traced.erase_bind, h]
    congr 1
    funext c
    split
    · split
      · exact seqLoopT_erase p d ac from_ n _ _ _ _
      · simp
    · simp only
      split <;> split <;> exact seqLoopT_erase p d ac from_ n _ _ _ _

theorem seqParseT_erase (kws : List Ptr) (n : Nat) (p : Ptr) (d : PDef) (is : List Ptr) (rs : List (Int × Int)) (ac : Bool) (c : Ctx) :
    (seqParseT recT kws n p d is rs ac c).erase = seqParse rec kws n p d is rs ac c := by
  unfold seqParseT seqParse
  split
  · simp
  · simp only [Traced.erase_record, Traced.erase_bind, seqLoopT_erase h]
    congr 1
    funext out
    cases out with
    | returned c => simp
    | complete to c =>
      simp only
      rw [Traced.erase_bind]
      congr 1
      · split
        · exact isKeywordT_erase h _ _ _ _
        · simp
      · funext x
        obtain ⟨kw, c⟩ := x
        simp only
        split <;> simp

end

/-- Without the trace, the traced parser is the parser. -/
theorem parseTraced_erase (env : Env) : ∀ (n : Nat) (p : Ptr) (c : Ctx), (parseTraced env n p c).erase = parse env n p c
  | 0, p, c => by unfold parseTraced parse; simp
  | n + 1, p, c => by
    unfold parseTraced parse
    cases hd : env.defs[p]? with
    | none => simp
    | some d =>
      cases hk : d.kind with
      | char => simp [hk]
      | choice => simp only [hk]; exact choiceParseT_erase (parseTraced_erase env n) _ _ _ _ _ _
      | seq => simp only [hk]; exact seqParseT_erase (parseTraced_erase env n) _ _ _ _ _ _ _ _

/-! ### A choice tries its options at most once at an offset -/

theorem read_res (c : Ctx) : c.read.2.res = c.res := by
  unfold Ctx.read
  split
  · rfl
  · split
    · split <;> rfl
    · split <;> rfl

theorem token_res {c c' : Ctx} {t : Option Rune} (h : c.token = .ok (t, c')) : c'.res = c.res := by
  have hr := read_res c
  unfold Ctx.token at h
  split at h
  · cases h; rfl
  · split at h
    · split at h
      · rename_i c1 hc
        rw [hc] at hr
        cases h
        exact hr
      · rename_i c1 hc
        rw [hc] at hr
        obtain ⟨r, -, h⟩ := Res.bind_eq_ok h
        cases h
        exact hr
    · obtain ⟨r, -, h⟩ := Res.bind_eq_ok h
      cases h
      rfl

theorem charParse_res {neg : Bool} {chars : List Rune} {ranges : List (Rune × Rune)} {c c' : Ctx}
    (h : charParse neg chars ranges c = .ok c') : c'.res = c.res := by
  unfold charParse at h
  obtain ⟨⟨tok, c1⟩, h1, h⟩ := Res.bind_eq_ok h
  have := token_res h1
  simp only at h
  have hf : ∀ (x : Ctx) (k : Nat), (x.fail k).res = x.res := fun _ _ => rfl
  split at h <;> split at h <;> cases h
  all_goals first
    | exact this
    | (rw [hf]; split <;> exact this)

/-- The marks are the same, the recorded results are kept. -/
structure Increased (r r' : Results) : Prop where
  pc : ∀ off id, r'.pcount off id = r.pcount off id
  has : ∀ off id to, r.Has off id to → r'.Has off id to
  noM : ∀ off id, r.NoM off id → r'.NoM off id

theorem Increased.refl (r : Results) : Increased r r := ⟨fun _ _ => rfl, fun _ _ _ h => h, fun _ _ h => h⟩

theorem Increased.trans {a b c : Results} (h : Increased a b) (h' : Increased b c) : Increased a c :=
  ⟨fun o i => (h'.pc o i).trans (h.pc o i), fun o i t x => h'.has o i t (h.has o i t x), fun o i x => h'.noM o i (h.noM o i x)⟩

theorem Increased.setMatch (r : Results) (o i t : Nat) : Increased r (r.setMatch o i t) :=
  ⟨fun _ _ => by simp, fun _ _ _ h => (Results.has_setMatch ..).2 (Or.inl h), fun _ _ h => by simpa using h⟩

theorem Increased.setNoMatch (r : Results) (o i : Nat) : Increased r (r.setNoMatch o i) :=
  ⟨fun _ _ => by simp, fun _ _ _ h => by simpa using h, fun _ _ h => (Results.noM_setNoMatch ..).2 (Or.inl h)⟩

theorem Increased.setGeneralizations (f t : Nat) : ∀ (gs : List Nat) (r : Results), Increased r (setGeneralizations f t gs r)
  | [], r => .refl r
  | g :: gs, r => by
    show Increased r (Treerack.setGeneralizations f t gs (if r.pending f g then r.setMatch f g t else r))
    refine Increased.trans ?_ (Increased.setGeneralizations f t gs _)
    split
    · exact .setMatch ..
    · exact .refl _

/-- Marked, some work, and unmarked. -/
theorem Increased.unmark {r r1 r2 : Results} {o i : Nat} (h : Increased (r.markPending o i) r1) (hu : r1.unmarkPending o i = .ok r2) : Increased r r2 := by
  obtain ⟨-, h1, h2, -, h3⟩ := Results.unmarkPending_ok hu
  refine ⟨fun off id => ?_, fun off id to hh => (Results.Has.congr h1).2 (h.has _ _ _ hh), fun off id hh => (Results.NoM.congr h2).2 (h.noM _ _ hh)⟩
  rw [h3, h.pc, Results.pcount_markPending]
  split <;> omega

/-- The definition is being parsed at the offset, or its result is recorded. -/
def Settled (o k : Nat) (r : Results) : Prop := 0 < r.pcount o k ∨ (∃ t, r.Has o k t) ∨ r.NoM o k

theorem Increased.settled {r r' : Results} {o k : Nat} (h : Increased r r') (hs : Settled o k r) : Settled o k r' := by
  rcases hs with hs | ⟨t, hs⟩ | hs
  · exact Or.inl (by rw [h.pc]; exact hs)
  · exact Or.inr (Or.inl ⟨t, h.has _ _ _ hs⟩)
  · exact Or.inr (Or.inr (h.noM _ _ hs))

/-- The event happens at most once, and only when the definition was not settled. -/
structure AtMostOnce (q : Ptr) (k o : Nat) (r r' : Results) (tr : List Event) : Prop where
  grown : Increased r r'
  once : tr.count (q, o) ≤ 1
  first : 0 < tr.count (q, o) → ¬ Settled o k r ∧ Settled o k r'

section
variable {q : Ptr} {k o : Nat}

theorem AtMostOnce.none {r r' : Results} (h : Increased r r') : AtMostOnce q k o r r' [] := ⟨h, by simp, by simp⟩

theorem AtMostOnce.append {a b c : Results} {t u : List Event} (h : AtMostOnce q k o a b t) (h' : AtMostOnce q k o b c u) :
    AtMostOnce q k o a c (t ++ u) := by
  have h1 := h.once
  have h2 := h'.once
  refine ⟨h.grown.trans h'.grown, ?_, ?_⟩
  · rw [List.count_append]
    by_cases ht : 0 < t.count (q, o)
    · have := (h.first ht).2
      have : ¬ 0 < u.count (q, o) := fun hu => (h'.first hu).1 this
      omega
    · omega
  · rw [List.count_append]
    intro hc
    by_cases ht : 0 < t.count (q, o)
    · exact ⟨(h.first ht).1, h'.grown.settled (h.first ht).2⟩
    · have := h'.first (by omega)
      exact ⟨fun hs => this.1 (h.grown.settled hs), this.2⟩

theorem AtMostOnce.more {a b c : Results} {t : List Event} (h : AtMostOnce q k o a b t) (h' : Increased b c) : AtMostOnce q k o a c t := by
  have := h.append (AtMostOnce.none (q := q) (k := k) (o := o) h')
  rwa [List.append_nil] at this

/-- What is assumed of the nested calls. -/
def OnceRec (q : Ptr) (k o : Nat) (recT : Ptr → Ctx → Traced Ctx) : Prop :=
  ∀ p c, (recT p c).Holds fun c' tr => AtMostOnce q k o c.res c'.res tr

variable {recT : Ptr → Ctx → Traced Ctx} (hrec : OnceRec q k o recT)
include hrec

theorem isKeywordLoopT_once (from_ to : Nat) : ∀ (kws : List Ptr) (c : Ctx),
    (isKeywordLoopT recT from_ to kws c).Holds fun x tr => AtMostOnce q k o c.res x.2.res tr
  | [], c => .lift fun a e => by cases e; exact .none (.refl _)
  | kw :: kws, c => by
    unfold isKeywordLoopT
    refine (hrec _ _).bind fun c1 t h => ?_
    split
    · exact .lift fun a e => by cases e; simpa using h
    · exact (isKeywordLoopT_once from_ to kws c1).mono fun a u hu => h.append hu

theorem isKeywordT_once (kws : List Ptr) (c : Ctx) (from_ to : Nat) :
    (isKeywordT recT kws c from_ to).Holds fun x tr => AtMostOnce q k o c.res x.2.res tr := by
  unfold isKeywordT
  refine (isKeywordLoopT_once hrec from_ to kws _).bind fun x t h => ?_
  exact .lift fun a e => by cases e; simpa using h

theorem choicePassT_once (id from_ : Nat) : ∀ (os : List Ptr) (st : ChoiceSt),
    (choicePassT recT id from_ os st).Holds fun st' tr => AtMostOnce q k o st.c.res st'.c.res tr ∧
      ((st.mtch = true → ∃ t, st.c.res.Has from_ id t) → st'.mtch = true → ∃ t, st'.c.res.Has from_ id t)
  | [], st => .lift fun a e => by cases e; exact ⟨.none (.refl _), fun h => h⟩
  | x :: os, st => by
    unfold choicePassT
    refine (hrec _ _).bind fun c1 t h => ?_
    simp only
    split <;> split <;> refine (choicePassT_once id from_ os _).mono fun st' u hu => ?_
    · exact ⟨h.append hu.1, fun hm => hu.2 fun hm' => let ⟨t, ht⟩ := hm hm'; ⟨t, h.grown.has _ _ _ ht⟩⟩
    · exact ⟨(h.more (.setMatch ..)).append hu.1, fun _ => hu.2 fun _ => ⟨_, (Results.has_setMatch ..).2 (Or.inr ⟨rfl, rfl, rfl⟩)⟩⟩
    · exact ⟨h.append hu.1, fun hm => hu.2 fun hm' => let ⟨t, ht⟩ := hm hm'; ⟨t, h.grown.has _ _ _ ht⟩⟩
    · exact ⟨(h.more (.setMatch ..)).append hu.1, fun _ => hu.2 fun _ => ⟨_, (Results.has_setMatch ..).2 (Or.inr ⟨rfl, rfl, rfl⟩)⟩⟩

theorem choiceLoopT_once (id from_ : Nat) (os : List Ptr) : ∀ (n : Nat) (st : ChoiceSt),
    (choiceLoopT recT id from_ os n st).Holds fun st' tr => AtMostOnce q k o st.c.res st'.c.res tr ∧
      ((st.mtch = true → ∃ t, st.c.res.Has from_ id t) → st'.mtch = true → ∃ t, st'.c.res.Has from_ id t)
  | 0, st => .lift fun a e => by cases e
  | n + 1, st => by
    unfold choiceLoopT
    refine (choicePassT_once hrec id from_ os _).bind fun st1 t h => ?_
    split
    · exact (choiceLoopT_once id from_ os n st1).mono fun st' u hu => ⟨h.1.append hu.1, fun hm => hu.2 (h.2 hm)⟩
    · exact .lift fun a e => by cases e; simpa using h

/-- A choice; `(p, id)` are the watched ones, or `p` is another parser. -/
theorem choiceParseT_once (kws : List Ptr) (n : Nat) (p : Ptr) (d : PDef) (os : List Ptr) (c : Ctx) (hq : p = q → d.id = k) :
    (choiceParseT recT kws n p d os c).Holds fun c' tr => AtMostOnce q k o c.res c'.res tr := by
  unfold choiceParseT
  cases hr : c.fromResults d.id with
  | some c' =>
    refine .lift fun a e => ?_
    cases e
    refine .none ?_
    unfold Ctx.fromResults at hr
    split at hr <;> cases hr <;> exact .refl _
  | none =>
    simp only
    have hno : ¬ c.res.NoM c.offset d.id ∧ ∀ t, ¬ c.res.Has c.offset d.id t := by
      rw [← Results.longestResult_none]
      unfold Ctx.fromResults at hr
      split at hr
      · assumption
      · cases hr
      · cases hr
    by_cases hp : c.res.pending c.offset d.id = true
    · rw [if_pos hp]
      exact .lift fun a e => by cases e; exact .none (.refl _)
    · rw [if_neg hp]
      -- the result of the body: grown after the mark, recorded at the end
      have fin : ∀ {r1 r2 : Results} {tr : List Event}, AtMostOnce q k o (c.res.markPending c.offset d.id) r1 tr →
          ((∃ t, r1.Has c.offset d.id t) ∨ r1.NoM c.offset d.id) → r1.unmarkPending c.offset d.id = .ok r2 →
          AtMostOnce q k o c.res r2 ((p, c.offset) :: tr) := by
        intro r1 r2 tr h hrecd hu
        have hg := h.grown.unmark hu
        obtain ⟨-, h1, h2, -, h3⟩ := Results.unmarkPending_ok hu
        refine ⟨hg, ?_, ?_⟩
        · rw [List.count_cons]
          have := h.once
          split
          · rename_i he
            have he := beq_iff_eq.1 he
            obtain ⟨rfl, ho⟩ := Prod.mk.inj he
            have : ¬ 0 < tr.count (p, o) := fun hc => (h.first hc).1 (Or.inl (by
              rw [Results.pcount_markPending, ← hq rfl, ho]; simp))
            omega
          · omega
        · rw [List.count_cons]
          split
          · rename_i he
            have he := beq_iff_eq.1 he
            obtain ⟨rfl, ho⟩ := Prod.mk.inj he
            intro _
            rw [← hq rfl, ← ho]
            constructor
            · rintro (hs | ⟨t, hs⟩ | hs)
              · exact hp ((Results.pending_iff ..).2 hs)
              · exact hno.2 t hs
              · exact hno.1 hs
            · rcases hrecd with ⟨t, ht⟩ | ht
              · exact Or.inr (Or.inl ⟨t, (Results.Has.congr h1).2 ht⟩)
              · exact Or.inr (Or.inr ((Results.NoM.congr h2).2 ht))
          · intro hc
            obtain ⟨k1, k2⟩ := h.first (by omega)
            have hne : ¬ (o = c.offset ∧ k = d.id) := fun ⟨e1, e2⟩ => k1 (Or.inl (by
              rw [Results.pcount_markPending, e1, e2]; simp))
            refine ⟨fun hs => k1 ?_, ?_⟩
            · rcases hs with hs | hs | hs
              · exact Or.inl (by rw [Results.pcount_markPending]; omega)
              · exact Or.inr (Or.inl hs)
              · exact Or.inr (Or.inr hs)
            · rcases k2 with hs | ⟨t, hs⟩ | hs
              · exact Or.inl (by rw [h3, if_neg hne]; exact hs)
              · exact Or.inr (Or.inl ⟨t, (Results.Has.congr h1).2 hs⟩)
              · exact Or.inr (Or.inr ((Results.NoM.congr h2).2 hs))
      refine .record ((choiceLoopT_once hrec _ _ _ _ _).bind fun st t h => ?_)
      have hm := h.2 (fun hm => by cases hm)
      have h := h.1
      simp only at h hm
      split
      · rename_i hmt
        refine Traced.Holds.bind (P := fun x u => AtMostOnce q k o st.c.res x.2.res u) ?_ fun x u hx => ?_
        · split
          · exact isKeywordT_once hrec _ _ _ _
          · exact .lift fun a e => by cases e; exact .none (.refl _)
        · obtain ⟨kw, c2⟩ := x
          obtain ⟨tt, htt⟩ := hm hmt
          have hall := h.append hx
          have hh := hx.grown.has _ _ _ htt
          simp only at hall hh ⊢
          split
          · refine .lift fun a e => ?_
            obtain ⟨r, hu, e⟩ := Res.bind_eq_ok e
            cases e
            have hres : ((c2.setFailing d.commit p).fail c.offset).res = c2.res := by
              unfold Ctx.setFailing Ctx.fail; split <;> rfl
            rw [hres] at hu
            simpa using fin hall (Or.inl ⟨tt, hh⟩) hu
          · refine .lift fun a e => ?_
            obtain ⟨r, hu, e⟩ := Res.bind_eq_ok e
            cases e
            have hres : ∀ (x : Ctx), (x.success st.to).res = x.res := by
              intro x; unfold Ctx.success; simp only; try split <;> rfl
            rw [hres] at hu
            have : (if st.failOffset > (st.to : Int) then ({ c2 with failOffset := st.failOffset, failing := st.failing } : Ctx)
                else if (st.to : Int) > c.failOffset then { c2 with failOffset := -1, failing := none }
                else { c2 with failOffset := c.failOffset, failing := c.failing }).res = c2.res := by
              split
              · rfl
              · split <;> rfl
            rw [this] at hu
            simpa using fin hall (Or.inl ⟨tt, hh⟩) hu
      · refine .lift fun a e => ?_
        unfold choiceNoMatch at e
        obtain ⟨r, hu, e⟩ := Res.bind_eq_ok e
        cases e
        have : ∀ (x : Ctx), x.res = st.c.res →
            (Ctx.fail { x with res := x.res.setNoMatch c.offset d.id } c.offset).res = st.c.res.setNoMatch c.offset d.id := by
          intro x hx; unfold Ctx.fail; simp only [hx]
        rw [this] at hu
        · have hset : (∃ t, (st.c.res.setNoMatch c.offset d.id).Has c.offset d.id t) ∨
              (st.c.res.setNoMatch c.offset d.id).NoM c.offset d.id := by
            by_cases hh : ∃ t, st.c.res.Has c.offset d.id t
            · obtain ⟨t, ht⟩ := hh
              exact Or.inl ⟨t, by simpa using ht⟩
            · exact Or.inr ((Results.noM_setNoMatch ..).2 (Or.inr ⟨rfl, rfl, fun t ht => hh ⟨t, ht⟩⟩))
          simpa using fin (h.more (.setNoMatch ..)) hset hu
        · split
          · unfold Ctx.setFailing; split <;> rfl
          · rfl

theorem seqLoopT_once (p : Ptr) (d : PDef) (ac : Bool) (from_ : Nat) :
    ∀ (n : Nat) (its : List (Ptr × (Int × Int))) (m to : Nat) (c : Ctx),
    (seqLoopT recT p d ac from_ n its m to c).Holds fun out tr => match out with
      | .complete _ c' => AtMostOnce q k o c.res c'.res tr
      | .returned c' => ∃ r1, AtMostOnce q k o c.res r1 tr ∧
        (if ac then c'.res = r1 else r1.unmarkPending from_ d.id = .ok c'.res)
  | 0, _, _, _, _ => .lift fun a e => by cases e
  | n + 1, [], _, _, c => .lift fun a e => by cases e; exact .none (.refl _)
  | n + 1, (item, mn, mx) :: rest, m, to, c => by
    have next : ∀ {c1 : Ctx} {t : List Event} {its' : List (Ptr × (Int × Int))} {m' to' : Nat},
        AtMostOnce q k o c.res c1.res t →
        (seqLoopT recT p d ac from_ n its' m' to' c1).Holds fun out u => match out with
          | .complete _ c' => AtMostOnce q k o c.res c'.res (t ++ u)
          | .returned c' => ∃ r1, AtMostOnce q k o c.res r1 (t ++ u) ∧
            (if ac then c'.res = r1 else r1.unmarkPending from_ d.id = .ok c'.res) := by
      intro c1 t its' m' to' h
      refine (seqLoopT_once p d ac from_ n its' m' to' c1).mono fun out u hu => ?_
      cases out with
      | complete => exact h.append hu
      | returned =>
        obtain ⟨r1, hu, hr⟩ := hu
        exact ⟨r1, h.append hu, hr⟩
    unfold seqLoopT
    refine (hrec _ _).bind fun c1 t h => ?_
    split
    · split
      · exact next h
      · refine .lift fun a e => ?_
        obtain ⟨c2, h2, e⟩ := Res.bind_eq_ok e
        cases e
        simp only [List.append_nil]
        have un : ∀ (x : Ctx), x.res = c1.res → unmarkUnless ac from_ d.id x = .ok c2 →
            (if ac then c2.res = c1.res else c1.res.unmarkPending from_ d.id = .ok c2.res) := by
          intro x hx hu
          unfold unmarkUnless at hu
          split at hu
          · cases hu; rename_i hac; rw [if_pos hac]; exact hx
          · rename_i hac
            obtain ⟨r, hu', e⟩ := Res.bind_eq_ok hu
            cases e
            rw [if_neg hac, ← hx]
            exact hu'
        refine ⟨_, h, ?_⟩
        unfold seqItemFailed at h2
        simp only at h2
        split at h2
        · rename_i c3 h3
          refine un _ ?_ h2
          have : c3.res = c1.res := by
            unfold Ctx.fromResults at h3
            split at h3 <;> cases h3 <;> rfl
          split
          · exact this
          · exact this
        · refine un _ ?_ h2
          unfold Ctx.setFailing Ctx.fail
          split <;> rfl
    · simp only
      split <;> split <;> exact next h

theorem seqParseT_once (kws : List Ptr) (n : Nat) (p : Ptr) (d : PDef) (is : List Ptr) (rs : List (Int × Int)) (ac : Bool) (c : Ctx)
    (hq : p ≠ q) : (seqParseT recT kws n p d is rs ac c).Holds fun c' tr => AtMostOnce q k o c.res c'.res tr := by
  unfold seqParseT
  split
  · exact .lift fun a e => by cases e; exact .none (.refl _)
  · simp only
    -- the mark, or none
    have fin : ∀ {r1 r2 : Results} {tr : List Event},
        AtMostOnce q k o (if ac then c else { c with res := c.res.markPending c.offset d.id }).res r1 tr →
        (if ac then r2 = r1 else r1.unmarkPending c.offset d.id = .ok r2) →
        AtMostOnce q k o c.res r2 ((p, c.offset) :: tr) := by
      intro r1 r2 tr h hu
      have hc : ((p, c.offset) :: tr).count (q, o) = tr.count (q, o) := by
        rw [List.count_cons, if_neg]
        · rfl
        · intro he
          exact hq (Prod.mk.inj (beq_iff_eq.1 he)).1
      cases ac with
      | true =>
        simp only [if_true] at h hu
        subst hu
        exact ⟨h.grown, by rw [hc]; exact h.once, by rw [hc]; exact h.first⟩
      | false =>
        simp only [if_false, Bool.false_eq_true] at h hu
        obtain ⟨-, h1, h2, -, h3⟩ := Results.unmarkPending_ok hu
        refine ⟨h.grown.unmark hu, by rw [hc]; exact h.once, ?_⟩
        rw [hc]
        intro hcnt
        obtain ⟨k1, k2⟩ := h.first hcnt
        have hne : ¬ (o = c.offset ∧ k = d.id) := fun ⟨e1, e2⟩ => k1 (Or.inl (by
          rw [Results.pcount_markPending, e1, e2]; simp))
        refine ⟨fun hs => k1 ?_, ?_⟩
        · rcases hs with hs | hs | hs
          · exact Or.inl (by rw [Results.pcount_markPending]; omega)
          · exact Or.inr (Or.inl hs)
          · exact Or.inr (Or.inr hs)
        · rcases k2 with hs | ⟨t, hs⟩ | hs
          · exact Or.inl (by rw [h3, if_neg hne]; exact hs)
          · exact Or.inr (Or.inl ⟨t, (Results.Has.congr h1).2 hs⟩)
          · exact Or.inr (Or.inr ((Results.NoM.congr h2).2 hs))
    have un : ∀ {x c2 : Ctx} {r1 : Results}, x.res = r1 → unmarkUnless ac c.offset d.id x = .ok c2 →
        (if ac then c2.res = r1 else r1.unmarkPending c.offset d.id = .ok c2.res) := by
      intro x c2 r1 hx hu
      unfold unmarkUnless at hu
      split at hu
      · cases hu; rename_i hac; rw [if_pos hac]; exact hx
      · rename_i hac
        obtain ⟨r, hu', e⟩ := Res.bind_eq_ok hu
        cases e
        rw [if_neg hac, ← hx]
        exact hu'
    refine .record ((seqLoopT_once hrec p d ac c.offset _ _ _ _ _).bind fun out t h => ?_)
    cases out with
    | returned c1 =>
      obtain ⟨r1, h, hu⟩ := h
      exact .lift fun a e => by cases e; simpa using fin h hu
    | complete to c1 =>
      simp only at h ⊢
      refine Traced.Holds.bind (P := fun x u => AtMostOnce q k o c1.res x.2.res u) ?_ fun x u hx => ?_
      · split
        · exact isKeywordT_once hrec _ _ _ _
        · exact .lift fun a e => by cases e; exact .none (.refl _)
      · obtain ⟨kw, c2⟩ := x
        have hall := h.append hx
        simp only at hall ⊢
        split
        · refine .lift fun a e => ?_
          have := fin hall (un (r1 := c2.res) (by unfold Ctx.setFailing Ctx.fail; split <;> rfl) e)
          simpa using this
        · refine .lift fun a e => ?_
          have hg := hall.more ((Increased.setGeneralizations c.offset to d.gens c2.res).trans (.setMatch _ c.offset d.id to))
          have := fin hg (un (r1 := (setGeneralizations c.offset to d.gens c2.res).setMatch c.offset d.id to)
            (by unfold Ctx.success; simp only; split <;> (try split) <;> rfl) e)
          simpa using this

end

/-- A choice tries its options at most once at an offset. -/
theorem parseTraced_once {env : Env} {q : Ptr} {dq : PDef} {qos : List Ptr} (hq : env.defs[q]? = some dq) (hk : dq.kind = .choice qos)
    (o : Nat) : ∀ (n : Nat) (p : Ptr) (c : Ctx),
    (parseTraced env n p c).Holds fun c' tr => AtMostOnce q dq.id o c.res c'.res tr
  | 0, p, c => .lift fun a e => by cases e
  | n + 1, p, c => by
    have ih : OnceRec q dq.id o (parseTraced env n) := parseTraced_once hq hk o n
    unfold parseTraced
    cases hd : env.defs[p]? with
    | none => exact .lift fun a e => by cases e
    | some d =>
      simp only
      cases hkd : d.kind with
      | char neg chars ranges =>
        refine .lift fun a e => ?_
        rw [charParse_res e]
        exact .none (.refl _)
      | choice os =>
        refine choiceParseT_once ih _ _ _ _ _ _ ?_
        rintro rfl
        rw [hq] at hd
        cases hd
        rfl
      | seq is rs ac =>
        refine seqParseT_once ih _ _ _ _ _ _ _ _ ?_
        rintro rfl
        rw [hq] at hd
        cases hd
        rw [hk] at hkd
        cases hkd

end Treerack
