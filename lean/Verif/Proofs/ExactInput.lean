import Verif.Proofs.ExactBuild
import Verif.Proofs.Morphism

/-
Parse calls where only choices are left recursive, and only directly: they accept what the reference semantics matches to the end, and they return its tree.
-/

namespace Treerack
open Spec

/-! ### The reference semantics is total -/

section
variable {env : Env} {root : Ptr} {input : List Rune}

theorem mem_zip_fst {α β : Type} {x : α × β} {l : List α} {m : List β} (h : x ∈ l.zip m) : x.1 ∈ l := by
  obtain ⟨a, b⟩ := x
  exact (List.of_mem_zip h).1

theorem Reach.option {p o : Ptr} {d : GDef Ptr} {os : List Ptr} (h : Reach env root p) (hd : env.grammar p = some d)
    (he : d.expr = .choice os) (ho : o ∈ os) : Reach env root o := by
  simp only [Env.grammar, Option.map_eq_some_iff] at hd
  obtain ⟨e, h1, rfl⟩ := hd
  refine .child h h1 ?_
  simp only at he
  cases hk : e.kind <;> rw [hk] at he <;> simp [PKind.expr] at he
  subst he
  exact ho

theorem Reach.item {p : Ptr} {d : GDef Ptr} {items : List (Ptr × Int × Int)} {x : Ptr × Int × Int} (h : Reach env root p)
    (hd : env.grammar p = some d) (he : d.expr = .seq items) (hx : x ∈ items) : Reach env root x.1 := by
  simp only [Env.grammar, Option.map_eq_some_iff] at hd
  obtain ⟨e, h1, rfl⟩ := hd
  refine .child h h1 ?_
  simp only at he
  cases hk : e.kind <;> rw [hk] at he <;> simp [PKind.expr] at he
  subst he
  exact mem_zip_fst hx

theorem Reach.leftCall {p q : Ptr} (h : Reach env root p) (hc : LeftCall env.grammar p q) : Reach env root q := by
  cases hc with
  | option h1 h2 h3 _ => exact h.option h1 h2 h3
  | item h1 h2 h3 => exact h.item h1 h2 (by simp)

/-- How many definitions are called at the same position. -/
noncomputable def leftRank (env : Env) (p : Ptr) : Nat :=
  open Classical in (List.range env.defs.length).countP fun q => decide (LeftCalls env.grammar p q)

theorem Linked.ranked (L : Linked env root) (hf : ∀ {p}, Reach env root p → ¬ LeftCalls env.grammar p p)
    (hg : ∀ {p d os}, Reach env root p → env.defs[p]? = some d → d.kind = .choice os → (∃ s, Recurs env.grammar p s) →
      Grows env.grammar p os) :
    Ranked env.grammar (Reach env root) (leftRank env) where
  grows := fun {n d os} h h1 h2 h3 => by
    simp only [Env.grammar, Option.map_eq_some_iff] at h1
    obtain ⟨e, h1, rfl⟩ := h1
    simp only at h2
    refine hg h h1 ?_ h3
    cases hk : e.kind <;> rw [hk] at h2 <;> simp [PKind.expr] at h2
    rw [h2]
  def_ := fun h => by
    obtain ⟨d, hd⟩ := L.closed.def_ h
    exact ⟨_, Env.grammar_some hd⟩
  option := fun h h1 h2 h3 => h.option h1 h2 h3
  item := fun h h1 h2 h3 => h.item h1 h2 h3
  left := fun {n m} h hc => by
    have hm := h.leftCall hc
    obtain ⟨d, hd⟩ := L.closed.def_ hm
    refine countP_lt (a := m) ?_ ?_ ?_ ?_
    · intro x _ hx
      simp only [decide_eq_true_eq] at hx ⊢
      exact .step hc hx
    · exact List.mem_range.2 (List.getElem?_eq_some_iff.1 hd).1
    · simpa using LeftCalls.one hc
    · simpa using hf hm

/-- The result of every definition at every position. -/
theorem Linked.refs (L : Linked env root) (hf : ∀ {p}, Reach env root p → ¬ LeftCalls env.grammar p p)
    (hg : ∀ {p d os}, Reach env root p → env.defs[p]? = some d → d.kind = .choice os → (∃ s, Recurs env.grammar p s) →
      Grows env.grammar p os) (input : List Rune) :
    ∃ f : Ptr → Nat → Match, ∀ {p}, Reach env root p → ∀ i, Ref env.grammar (env.blocked input) input p i (f p i) := by
  have key : ∀ p i, ∃ m, Reach env root p → Ref env.grammar (env.blocked input) input p i m := by
    intro p i
    by_cases h : Reach env root p
    · obtain ⟨m, hm⟩ := Ref.total (input := input) (L.ranked hf hg) (input.length + 1 - i) (leftRank env p) (Nat.le_refl _)
        (Nat.le_refl _) h
      exact ⟨m, fun _ => hm⟩
    · exact ⟨none, fun h' => absurd h' h⟩
  exact ⟨fun p i => Classical.choose (key p i), fun h i => Classical.choose_spec (key _ i) h⟩

/-! ### Parsing an input -/

/-- The assumptions about the parsers, for the parsing phase. -/
structure Parsable (env : Env) (root : Ptr) : Prop where
  linked : Linked env root
  free : ∀ {p}, Reach env root p → ¬ LeftCalls env.grammar p p
  grows : ∀ {p d os}, Reach env root p → env.defs[p]? = some d → d.kind = .choice os → (∃ s, Recurs env.grammar p s) →
    Grows env.grammar p os
  sole : ∀ {a s m d}, Recurs env.grammar a s → Reach env root m → env.defs[m]? = some d → s ∈ d.kind.children → m = a
  tailKw : ∀ {a s d}, Recurs env.grammar a s → Reach env root s → env.defs[s]? = some d → d.commit.noKeyword = false
  rootTail : ¬ IsTail env root
  noKw : ∀ {p d}, Reach env root p → env.defs[p]? = some d → d.commit.noKeyword = true → env.keywords = [] ∨
    ((∃ is rs ac, d.kind = .seq is rs ac) ∧ ∀ k ∈ env.keywords, TextParser env k)

/-- The assumptions about the parsers, also for the building. -/
structure Straight (env : Env) (root : Ptr) : Prop extends Parsable env root where
  plainOption : ∀ {p d os o e}, Reach env root p → env.defs[p]? = some d → d.kind = .choice os → o ∈ os →
    env.defs[o]? = some e → e.kind.isChar = false
  plainItem : ∀ {p d is rs q e}, Reach env root p → env.defs[p]? = some d → d.kind = .seq is rs false → q ∈ is →
    env.defs[q]? = some e → e.kind.isChar = false

theorem Parsable.ctxt (T : Parsable env root) (hval : replacementChar ∉ input) {f : Ptr → Nat → Match}
    (hf : ∀ {p}, Reach env root p → ∀ i, Ref env.grammar (env.blocked input) input p i (f p i)) :
    Ctxt env (Reach env root) input f root :=
  ⟨T.linked, rfl, hval, hf, T.free, T.grows, T.sole, T.tailKw, T.noKw⟩

theorem start_pend : Pend env (Reach env root) root 0 (newContext input none).res :=
  ⟨fun _ _ _ => rfl, fun _ _ _ _ => rfl⟩

/-- The records after the parsing phase. -/
theorem resetPending_good {R : Ptr → Prop} {f : Ptr → Nat → Match} {r : Results} (h : Good env R input f r)
    (hp : ∀ o i, r.pcount o i = 0) : Good env R input f r.resetPending :=
  h.pending (fun _ _ _ => Iff.rfl) (fun _ _ => Iff.rfl) fun _ _ _ _ _ => Or.inl (hp _ _)

theorem finalizeParse_accepts {c : Ctx} (h : Inv env input none (fun _ _ _ => True) c) (hne : c.readErr = none)
    {d : PDef} (hd : env.defs[root]? = some d) (hl : c.res.longestResult 0 d.id = some (some input.length)) :
    ∃ c', finalizeParse env c root = .ok (none, c') := by
  obtain ⟨bad, hs1, hs2, hs3⟩ := h.split
  have hb : bad = [] := by
    by_cases hb : bad = []
    · exact hb
    · have := (hs3 hb).2; rw [hne] at this; cases this
  subst hb
  have hlen := congrArg List.length hs1
  simp only [List.append_nil, List.length_append, List.length_nil, Nat.add_zero] at hlen hs2
  obtain ⟨-, hh, -⟩ := (Results.longestResult_some ..).1 hl
  have hst := (h.store _ _ _ hh).2.1
  have hr : c.reader = [] := List.eq_nil_of_length_eq_zero (by omega)
  unfold finalizeParse
  rw [hd]
  simp only [hl]
  rw [if_neg (by simp; omega)]
  have : c.read.2.eof = true := by
    unfold Ctx.read
    by_cases he : c.eof = true
    · simp [he]
    · simp [he, hne, hr, h.rendEq]
  rw [if_pos this]
  exact ⟨_, rfl⟩

/-- What a parse call returns. -/
theorem parseInput_exact (T : Straight env root) (hval : replacementChar ∉ input) (n : Nat) :
    (parseInput env n root input none).Spec (¬ ∃ ns, Ref env.grammar (env.blocked input) input root 0 (some (input.length, ns))) True (fun x =>
      match x with
      | .ok t => Ref env.grammar (env.blocked input) input root 0 (some (input.length, [t]))
      | .error _ => ¬ ∃ ns, Ref env.grammar (env.blocked input) input root 0 (some (input.length, ns))) := by
  obtain ⟨f, hf⟩ := T.linked.refs T.free T.grows input
  have K := T.ctxt hval hf
  obtain ⟨d, hd, hk, hal⟩ := T.linked.rootDef
  have hroot := hf (.root : Reach env root root) 0
  have hE := parse_exact K n root (newContext input none) .root T.rootTail .init .init start_pend rfl
  have hP := parse_spec (rend := none) T.linked.closed (Interp.trivial env (Reach env root) input) (env.bounds _) n root
    (newContext input none) .root .init
  have hacc : ∀ ns, Ref env.grammar (env.blocked input) input root 0 (some (input.length, ns)) → f root 0 = some (input.length, ns) :=
    fun ns h => hroot.unique h
  unfold parseInput
  cases hc : parse env n root (newContext input none) with
  | oof => trivial
  | panic => rw [hc] at hP; exact absurd hP hval
  | ok c =>
    rw [hc] at hE
    obtain ⟨P, E⟩ := hE
    have hre : c.readErr = none := by
      cases hre : c.readErr with
      | none => rfl
      | some e =>
        rcases P.inv.rerr e hre with ⟨-, h⟩ | ⟨k, -, h, -⟩
        · exact absurd h hval
        · cases h
    simp only [Res.bind_ok, hre]
    have hpc : ∀ o i, c.res.pcount o i = 0 := fun o i => by rw [P.frame.pc]; rfl
    have hrec : Recorded env f c.res root 0 := E.recd
    -- what is recorded for the root
    have hhas : ∀ to, c.res.Has 0 d.id to → ∃ t ns, f root 0 = some (t, ns) ∧ to ≤ t := by
      intro to h
      cases hkind : d.kind with
      | char => rw [hkind] at hk; cases hk
      | choice os => exact E.good.chLe K .root hd hkind h
      | seq is rs ac =>
        obtain ⟨ns, h1⟩ := E.good.seqHas .root T.rootTail hd hkind h
        exact ⟨to, ns, h1, Nat.le_refl _⟩
    by_cases ha : ∃ ns, f root 0 = some (input.length, ns)
    · obtain ⟨ns, ha⟩ := ha
      have hl : c.res.longestResult 0 d.id = some (some input.length) := by
        refine (Results.longestResult_some ..).2 ⟨fun h => ?_, hrec d hd hk _ _ ha, fun t ht => ?_⟩
        · have := E.good.noM .root hd hk h
          rw [ha] at this; cases this
        · obtain ⟨t', ns', h1, h2⟩ := hhas t ht
          rw [ha] at h1; cases h1
          exact h2
      obtain ⟨c1, hfin⟩ := finalizeParse_accepts P.inv hre hd hl
      have hfs := (finalizeParse_spec (root := root) P.inv hre hd).of_eq hfin
      simp only at hfs
      obtain ⟨i1, i2, i3, -, -⟩ := hfs
      simp only [hfin, Res.bind_ok]
      have B : BCtxt env (Reach env root) input f root c.res.resetPending :=
        ⟨K, resetPending_good E.good hpc, fun _ _ => rfl, T.plainOption, T.plainItem⟩
      have hB := build_exact B n root { c1 with offset := 0, res := c1.res.resetPending } d .root T.rootTail hd hk i3 hrec
        (by rw [i2]; exact P.inv.once.congr rfl) (by
        rw [i2]
        exact ⟨fun _ _ _ => ⟨rfl, fun _ => Iff.rfl⟩, fun _ _ _ _ => ⟨rfl, fun _ => Iff.rfl⟩⟩)
      cases hb : build env n root { c1 with offset := 0, res := c1.res.resetPending } with
      | oof => trivial
      | panic => rw [hb] at hB; exact hB.elim
      | ok x =>
        rw [hb] at hB
        obtain ⟨h1, -⟩ := hB.some _ _ ha
        obtain ⟨y, c2⟩ := x
        simp only at h1
        subst h1
        have hw : ∃ t, ns = [t] := by
          rw [ha] at hroot
          generalize hm : some (input.length, ns) = m at hroot
          have hg := env.grammar_some hd
          cases hroot with
          | char g1 g2 => rw [hg] at g1; cases g1; cases hkind : d.kind <;> rw [hkind] at hk g2 <;> first | (simp [PKind.expr] at g2; done) | cases hk
          | noChar g1 g2 => cases hm
          | choice g1 g2 g3 =>
            rw [hg] at g1; cases g1
            obtain ⟨x, h1, h2⟩ := Option.map_eq_some_iff.1 hm.symm
            simp only [GDef.wrap, hal, Prod.mk.injEq] at h2
            exact ⟨_, h2.2.symm⟩
          | blocked => cases hm
          | noBase => cases hm
          | grow g1 g2 g3 g4 g5 =>
            rw [hg] at g1; cases g1
            obtain ⟨ns', h2⟩ := g5.wrap
            cases hm
            simp only [GDef.wrap, hal] at h2
            exact ⟨_, h2⟩
          | seq g1 g2 g3 =>
            rw [hg] at g1; cases g1
            obtain ⟨x, h1, h2⟩ := Option.map_eq_some_iff.1 hm.symm
            simp only [GDef.wrap, hal, Prod.mk.injEq] at h2
            exact ⟨_, h2.2.symm⟩
        obtain ⟨t, rfl⟩ := hw
        rw [ha] at hroot
        exact hroot
    · have hno : ¬ ∃ ns, Ref env.grammar (env.blocked input) input root 0 (some (input.length, ns)) := fun ⟨ns, h⟩ => ha ⟨ns, hacc ns h⟩
      cases hfin : finalizeParse env c root with
      | oof => trivial
      | panic => exact hno
      | ok x =>
        obtain ⟨e, c1⟩ := x
        cases e with
        | some e => exact hno
        | none =>
          have hfs := (finalizeParse_spec (root := root) P.inv hre hd).of_eq hfin
          simp only at hfs
          obtain ⟨-, -, -, -, i5⟩ := hfs
          obtain ⟨g1, -⟩ := (Results.longestMatch_some ..).1 i5
          obtain ⟨t, ns, g2, g3⟩ := hhas _ g1
          have g4 := (hroot.bounded _ g2).2
          have : t = input.length := by
            simp only at g4
            by_cases h0 : 0 < t
            · have := g4 h0; omega
            · omega
          subst this
          exact absurd ⟨ns, g2⟩ ha

/-- What a parse call returns, also when the parsed tree cannot be built. -/
theorem parseInput_parsable (T : Parsable env root) (hval : replacementChar ∉ input) (n : Nat) :
    (parseInput env n root input none).Spec True True (fun x =>
      match x with
      | .ok _ => ∃ ns, Ref env.grammar (env.blocked input) input root 0 (some (input.length, ns))
      | .error _ => ¬ ∃ ns, Ref env.grammar (env.blocked input) input root 0 (some (input.length, ns))) := by
  obtain ⟨f, hf⟩ := T.linked.refs T.free T.grows input
  have K := T.ctxt hval hf
  obtain ⟨d, hd, hk, hal⟩ := T.linked.rootDef
  have hroot := hf (.root : Reach env root root) 0
  have hE := parse_exact K n root (newContext input none) .root T.rootTail .init .init start_pend rfl
  unfold parseInput
  cases hc : parse env n root (newContext input none) with
  | oof => trivial
  | panic => trivial
  | ok c =>
    rw [hc] at hE
    obtain ⟨P, E⟩ := hE
    have hre : c.readErr = none := by
      cases hre : c.readErr with
      | none => rfl
      | some e =>
        rcases P.inv.rerr e hre with ⟨-, h⟩ | ⟨k, -, h, -⟩
        · exact absurd h hval
        · cases h
    simp only [Res.bind_ok, hre]
    have hrec : Recorded env f c.res root 0 := E.recd
    have hhas : ∀ to, c.res.Has 0 d.id to → ∃ t ns, f root 0 = some (t, ns) ∧ to ≤ t := by
      intro to h
      cases hkind : d.kind with
      | char => rw [hkind] at hk; cases hk
      | choice os => exact E.good.chLe K .root hd hkind h
      | seq is rs ac =>
        obtain ⟨ns, h1⟩ := E.good.seqHas .root T.rootTail hd hkind h
        exact ⟨to, ns, h1, Nat.le_refl _⟩
    cases hfin : finalizeParse env c root with
    | oof => trivial
    | panic => trivial
    | ok x =>
      obtain ⟨e, c1⟩ := x
      cases e with
      | some e =>
        rintro ⟨ns, h⟩
        have ha := hroot.unique h
        have hl : c.res.longestResult 0 d.id = some (some input.length) := by
          refine (Results.longestResult_some ..).2 ⟨fun h => ?_, hrec d hd hk _ _ ha, fun t ht => ?_⟩
          · have := E.good.noM .root hd hk h
            rw [ha] at this; cases this
          · obtain ⟨t', ns', h1, h2⟩ := hhas t ht
            rw [ha] at h1; cases h1
            exact h2
        obtain ⟨c2, hfin2⟩ := finalizeParse_accepts P.inv hre hd hl
        rw [hfin] at hfin2
        cases hfin2
      | none =>
        have hfs := (finalizeParse_spec (root := root) P.inv hre hd).of_eq hfin
        simp only at hfs
        obtain ⟨-, -, -, -, i5⟩ := hfs
        obtain ⟨g1, -⟩ := (Results.longestMatch_some ..).1 i5
        obtain ⟨t, ns, g2, g3⟩ := hhas _ g1
        have g4 := (hroot.bounded _ g2).2
        have : t = input.length := by
          simp only at g4
          by_cases h0 : 0 < t
          · have := g4 h0; omega
          · omega
        subst this
        rw [g2] at hroot
        simp only [Res.bind_ok]
        cases hb : build env n root { c1 with offset := 0, res := c1.res.resetPending } with
        | oof => trivial
        | panic => trivial
        | ok x =>
          obtain ⟨y, c2⟩ := x
          cases y with
          | none => trivial
          | some ts =>
            cases ts with
            | nil => trivial
            | cons => exact ⟨ns, hroot⟩

end
end Treerack
