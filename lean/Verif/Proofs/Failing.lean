import Verif.Proofs.GenNames

/-
The definition that is named in a parse error: which parsers are remembered as the failing parser, and which names they have.
-/

namespace Treerack
open Spec Whitespace

/-! ### Parsing -/

/-- The parsers that may be remembered. -/
def Reporting (env : Env) (p : Ptr) : Prop := ∃ d, env.defs[p]? = some d ∧ d.commit.reports = true

/-- The remembered parser, if any, is one of them. -/
def FailingOK (env : Env) (o : Option Ptr) : Prop := ∀ p, o = some p → Reporting env p

section
variable {env : Env} {rec : Ptr → Ctx → Res Ctx}

theorem failingOK_none : FailingOK env none := fun _ h => by cases h

theorem setFailing_ok {c : Ctx} {p : Ptr} {d : PDef} (hd : env.defs[p]? = some d) (h : FailingOK env c.failing) :
    FailingOK env (c.setFailing d.commit p).failing := by
  unfold Ctx.setFailing
  split
  · rename_i hb
    intro q hq
    cases hq
    exact ⟨d, hd, (Bool.and_eq_true_iff.1 hb).2⟩
  · exact h

theorem read_failing (c : Ctx) : c.read.2.failing = c.failing := by
  unfold Ctx.read
  split
  · rfl
  · split
    · split <;> rfl
    · split <;> rfl

theorem token_failing (c : Ctx) : c.token.Spec True True (fun x => x.2.failing = c.failing) := by
  have hr := read_failing c
  have key : ∀ (l : List Rune) (i : Nat) (c' : Ctx), c'.failing = c.failing →
      ((Res.index l i).bind fun r => Res.ok (some r, c')).Spec True True (fun x => x.2.failing = c.failing) := by
    intro l i c' h
    refine Res.Spec.bind (P := fun _ => True) ?_ fun _ _ => h
    cases Res.index l i <;> trivial
  unfold Ctx.token
  split
  · exact rfl
  · split
    · split
      · rename_i c' hc
        rw [hc] at hr
        exact hr
      · rename_i c' hc
        rw [hc] at hr
        exact key _ _ _ hr
    · exact key _ _ _ rfl

theorem unmark_failing {r : Results} {f i : Nat} {c : Ctx} (h : FailingOK env c.failing) :
    ((r.unmarkPending f i).bind fun r => Res.ok { c with res := r }).Spec True True (fun c => FailingOK env c.failing) := by
  refine Res.Spec.bind (P := fun _ => True) ?_ fun _ _ => h
  cases r.unmarkPending f i <;> trivial

theorem unmarkUnless_failing {b : Bool} {f i : Nat} {c : Ctx} (h : FailingOK env c.failing) :
    (unmarkUnless b f i c).Spec True True (fun c => FailingOK env c.failing) := by
  unfold unmarkUnless
  split
  · exact h
  · exact unmark_failing h

theorem fromResults_failing {c c' : Ctx} {id : Nat} (h : c.fromResults id = some c') : c'.failing = c.failing := by
  unfold Ctx.fromResults at h
  split at h
  · cases h
  · cases h; rfl
  · cases h; rfl

theorem charParse_failing {neg : Bool} {cs : List Rune} {rs : List (Rune × Rune)} {c : Ctx} (h : FailingOK env c.failing) :
    (charParse neg cs rs c).Spec True True (fun c => FailingOK env c.failing) := by
  unfold charParse
  refine (token_failing c).bind fun x hx => ?_
  obtain ⟨tok, c'⟩ := x
  simp only at hx ⊢
  rw [← hx] at h
  have key : FailingOK env (if (c'.offset : Int) > c'.failOffset then
      { c' with failOffset := c'.offset, failing := none } else c').failing := by
    split
    · exact failingOK_none
    · exact h
  have both : ∀ b : Bool, (if b = true then Res.ok (c'.success (c'.offset + 1)) else
      Res.ok (Ctx.fail (if (c'.offset : Int) > c'.failOffset then
        { c' with failOffset := c'.offset, failing := none } else c')
        (if (c'.offset : Int) > c'.failOffset then
        { c' with failOffset := c'.offset, failing := none } else c').offset)).Spec True True (fun c => FailingOK env c.failing) := by
    intro b
    cases b
    · exact key
    · exact h
  exact both _

variable (hrec : ∀ p c, FailingOK env c.failing → (rec p c).Spec True True (fun c => FailingOK env c.failing))
include hrec

theorem isKeywordLoop_failing {f t : Nat} : ∀ (kws : List Ptr) {c : Ctx}, FailingOK env c.failing →
    (isKeywordLoop rec f t kws c).Spec True True (fun x => FailingOK env x.2.failing)
  | [], c, h => h
  | kw :: kws, c, h => by
    unfold isKeywordLoop
    refine (hrec kw { c with offset := f } h).bind fun c' hc => ?_
    split
    · exact hc
    · exact isKeywordLoop_failing kws hc

theorem isKeyword_failing {kws : List Ptr} {f t : Nat} {c : Ctx} (h : FailingOK env c.failing) :
    (isKeyword rec kws c f t).Spec True True (fun x => FailingOK env x.2.failing) := by
  unfold isKeyword
  exact Res.Spec.bind (isKeywordLoop_failing hrec kws h) fun x hx => hx

theorem checked_failing {b : Bool} {kws : List Ptr} {f t : Nat} {c : Ctx} (h : FailingOK env c.failing) :
    (if b = true then isKeyword rec kws c f t else .ok (false, c)).Spec True True (fun x => FailingOK env x.2.failing) := by
  split
  · exact isKeyword_failing hrec h
  · exact h

theorem choicePass_failing {id f : Nat} : ∀ (os : List Ptr) {st : ChoiceSt}, FailingOK env st.c.failing → FailingOK env st.failing →
    (choicePass rec id f os st).Spec True True (fun st => FailingOK env st.c.failing ∧ FailingOK env st.failing)
  | [], st, h1, h2 => ⟨h1, h2⟩
  | o :: os, st, h1, h2 => by
    unfold choicePass
    refine (hrec o _ h1).bind fun c hc => ?_
    simp only
    split <;> split <;> (apply choicePass_failing os <;> assumption)

theorem choiceLoop_failing {id f : Nat} {os : List Ptr} : ∀ (n : Nat) {st : ChoiceSt}, FailingOK env st.c.failing → FailingOK env st.failing →
    (choiceLoop rec id f os n st).Spec True True (fun st => FailingOK env st.c.failing ∧ FailingOK env st.failing)
  | 0, _, _, _ => trivial
  | n + 1, st, h1, h2 => by
    unfold choiceLoop
    refine Res.Spec.bind (choicePass_failing hrec os (st := { st with found := false }) h1 h2) fun st' hs => ?_
    split
    · exact choiceLoop_failing n hs.1 hs.2
    · exact hs

theorem choiceParse_failing {kws : List Ptr} {n : Nat} {p : Ptr} {d : PDef} (hd : env.defs[p]? = some d) {os : List Ptr} {c : Ctx}
    (h : FailingOK env c.failing) : (choiceParse rec kws n p d os c).Spec True True (fun c => FailingOK env c.failing) := by
  unfold choiceParse
  split
  · rename_i c' hc
    rw [Res.Spec.ok_iff, fromResults_failing hc]; exact h
  · split
    · exact h
    · simp only
      refine Res.Spec.bind (choiceLoop_failing hrec n ?_ ?_) fun st hs => ?_
      · exact h
      · exact failingOK_none
      · split
        · refine Res.Spec.bind (checked_failing hrec hs.1) fun x hx => ?_
          obtain ⟨kw, c'⟩ := x
          simp only at hx ⊢
          split
          · exact unmark_failing (setFailing_ok hd hx)
          · refine unmark_failing ?_
            simp only [Ctx.success]
            split
            · exact hs.2
            · split
              · exact failingOK_none
              · exact h
        · unfold choiceNoMatch
          refine unmark_failing ?_
          simp only [Ctx.fail]
          split
          · exact setFailing_ok hd hs.2
          · exact hs.1

omit hrec in
theorem seqItemFailed_failing {p : Ptr} {d : PDef} (hd : env.defs[p]? = some d) {b : Bool} {f t : Nat} {c : Ctx}
    (h : FailingOK env c.failing) : (seqItemFailed p d b f t c).Spec True True (fun c => FailingOK env c.failing) := by
  unfold seqItemFailed
  simp only
  split
  · rename_i c' hc
    refine unmarkUnless_failing ?_
    split
    · exact failingOK_none
    · rw [fromResults_failing hc]; exact h
  · exact unmarkUnless_failing (setFailing_ok hd h)

/-- The context of the end of the loop of a sequence. -/
def SeqOut.last : SeqOut → Ctx
  | .complete _ c | .returned c => c

theorem seqLoop_failing {p : Ptr} {d : PDef} (hd : env.defs[p]? = some d) {b : Bool} {f : Nat} : ∀ (n : Nat)
    (its : List (Ptr × (Int × Int))) (k t : Nat) {c : Ctx}, FailingOK env c.failing →
    (seqLoop rec p d b f n its k t c).Spec True True (fun o => FailingOK env o.last.failing)
  | 0, _, _, _, _, _ => trivial
  | n + 1, [], _, _, c, h => h
  | n + 1, (item, (mn, mx)) :: rest, k, t, c, h => by
    unfold seqLoop
    refine (hrec item _ h).bind fun c' hc => ?_
    split
    · split
      · exact seqLoop_failing hd n rest 0 t hc
      · exact Res.Spec.bind (seqItemFailed_failing hd hc) fun c2 h2 => h2
    · simp only
      split <;> split <;> exact seqLoop_failing hd n _ _ _ hc

theorem seqParse_failing {kws : List Ptr} {n : Nat} {p : Ptr} {d : PDef} (hd : env.defs[p]? = some d) {is : List Ptr}
    {rs : List (Int × Int)} {b : Bool} {c : Ctx} (h : FailingOK env c.failing) :
    (seqParse rec kws n p d is rs b c).Spec True True (fun c => FailingOK env c.failing) := by
  unfold seqParse
  split
  · exact h
  · simp only
    refine Res.Spec.bind (seqLoop_failing hrec hd n _ _ _ ?_) fun o ho => ?_
    · split <;> exact h
    · split
      · exact ho
      · refine Res.Spec.bind (checked_failing hrec ho) fun x hx => ?_
        obtain ⟨kw, c'⟩ := x
        simp only at hx ⊢
        split
        · exact unmarkUnless_failing (setFailing_ok hd hx)
        · refine unmarkUnless_failing ?_
          simp only [Ctx.success]
          split
          · exact failingOK_none
          · exact hx

omit hrec in
theorem parse_failing (env : Env) : ∀ (n : Nat) (p : Ptr) (c : Ctx), FailingOK env c.failing →
    (parse env n p c).Spec True True (fun c => FailingOK env c.failing)
  | 0, _, _, _ => trivial
  | n + 1, p, c, h => by
    unfold parse
    split
    · trivial
    · rename_i d hd
      split
      · exact charParse_failing h
      · exact choiceParse_failing (parse_failing env n) hd h
      · exact seqParse_failing (parse_failing env n) hd h

end

/-- The name in a parse error: the one of the root or of a reporting parser. -/
theorem parseInput_name {env : Env} {fuel : Nat} {root : Ptr} {input : List Rune} {rend : Option Nat} {o l k : Nat} {n : Name}
    (hcl : Closed env (Reach env root)) (h : parseInput env fuel root input rend = .ok (.error (.parseError o l k n))) :
    ∃ p d, env.defs[p]? = some d ∧ (p = root ∨ d.commit.reports = true) ∧ n = definitionPart d.pname := by
  have perr : ∀ (c : Ctx) (p : Ptr), parseError env c p = .ok (.parseError o l k n) →
      ∃ d, env.defs[p]? = some d ∧ n = definitionPart d.pname := by
    intro c p h
    unfold parseError Env.nodeName at h
    obtain ⟨m, h1, h⟩ := Res.bind_eq_ok h
    split at h1
    · rename_i d hd
      cases h1
      obtain ⟨x, -, h⟩ := Res.bind_eq_ok h
      cases h
      exact ⟨d, hd, rfl⟩
    · cases h1
  unfold parseInput at h
  obtain ⟨c, hc, h⟩ := Res.bind_eq_ok h
  have hf := (parse_failing env fuel root (newContext input rend) failingOK_none).of_eq hc
  have hinv := ((parse_spec (rend := rend) hcl (Interp.trivial env (Reach env root) input) (env.bounds _) fuel root
    (newContext input rend) .root .init).of_eq hc).inv
  cases hre : c.readErr with
  | some e =>
    rw [hre] at h
    cases h
    rcases hinv.rerr _ hre with ⟨h, -⟩ | ⟨_, h, -⟩ <;> cases h
  | none =>
    rw [hre] at h
    obtain ⟨⟨err, c1⟩, h1, h⟩ := Res.bind_eq_ok h
    cases err with
    | some e =>
      cases h
      unfold finalizeParse at h1
      simp only at h1
      split at h1
      · cases h1
      · rename_i dr hdr
        rcases ite_cases h1 with ⟨-, h1⟩ | ⟨-, h1⟩
        · obtain ⟨e, h2, h1⟩ := Res.bind_eq_ok h1
          cases h1
          obtain ⟨d, g1, g2⟩ := perr _ _ h2
          refine ⟨_, d, g1, ?_, g2⟩
          cases hcf : c.failing with
          | none => exact Or.inl rfl
          | some p =>
            obtain ⟨d', k1, k2⟩ := hf p hcf
            rw [hcf, Option.getD_some] at g1
            rw [g1] at k1
            cases k1
            exact Or.inr k2
        · split at h1
          · cases h1
          · obtain ⟨r1, -⟩ := hinv.read hre
            split at h1
            · rename_i e' he'
              cases h1
              rcases r1.rerr _ he' with ⟨h, -⟩ | ⟨_, h, -⟩ <;> cases h
            · obtain ⟨e, h2, h1⟩ := Res.bind_eq_ok h1
              cases h1
              obtain ⟨d, g1, g2⟩ := perr _ _ h2
              exact ⟨root, d, g1, Or.inl rfl, g2⟩
    | none =>
      simp only at h
      obtain ⟨x, -, h⟩ := Res.bind_eq_ok h
      split at h <;> cases h

/-! ### The names -/

/-- What is demanded of the name and the flags of every object, in front of the initialization and after it. -/
structure Lasting (P : Name → Commit → Prop) : Prop where
  root : ∀ {n : Name} {ct : Commit} (b : Bool), P n ct → P n { ct with root := b }
  alias : ∀ {n : Name} {ct : Commit}, P n ct → P n { ct with alias := true }
  internal : ∀ {n : Name} {ct : Commit}, ct.userDefined = false → P n ct
  body : ∀ {n : Name} {ct : Commit}, P n ct → P (patchName [n, runes "wsroot"]) ct

def Heap.All (P : Name → Commit → Prop) (h : Heap) : Prop := ∀ (p : Ptr) d, h[p]? = some d → P d.name d.commitType

section
variable {P : Name → Commit → Prop}

theorem Heap.All.append {h : Heap} {ds : List Def} (hh : h.All P) (hd : ∀ d ∈ ds, P d.name d.commitType) :
    Heap.All P (h ++ ds) := by
  intro p d h1
  rw [List.getElem?_append] at h1
  split at h1
  · exact hh p d h1
  · exact hd d (List.mem_of_getElem? h1)

theorem withRoot_all (hP : Lasting P) (b : Bool) {d : Def} (h : P d.name d.commitType) :
    P (d.withRoot b).name (d.withRoot b).commitType := by
  cases hk : d.kind.isChar with
  | true => 
    have : d.withRoot b = d := by
      unfold Def.withRoot Def.setCommitType
      cases h : d.kind <;> simp_all [DKind.isChar]
    rw [this]; exact h
  | false =>
    have : (d.withRoot b).name = d.name ∧ (d.withRoot b).commitType = { d.commitType with root := b } := by
      unfold Def.withRoot Def.setCommitType
      cases h : d.kind <;> simp_all [DKind.isChar, Def.commitType]
    rw [this.1, this.2]; exact hP.root b h

theorem Registered.all (hP : Lasting P) {s s' : Syntax} {d : Def} (hr : Registered s d s') (h : s.heap.All P)
    (hd : P d.name d.commitType) : s'.heap.All P := by
  intro p e he
  have hlt : p < s.heap.length + 1 := by rw [← hr.len]; exact (List.getElem?_eq_some_iff.1 he).1
  by_cases hp : p < s.heap.length
  · rw [hr.old p hp] at he
    obtain ⟨e0, h0, rfl⟩ := Option.map_eq_some_iff.1 he
    split
    · exact withRoot_all hP false (h p e0 h0)
    · exact h p e0 h0
  · obtain rfl : p = s.heap.length := Nat.le_antisymm (Nat.le_of_lt_succ hlt) (Nat.le_of_not_lt hp)
    rw [hr.new] at he
    cases he
    split
    · exact withRoot_all hP true hd
    · exact hd

theorem registers_all (hP : Lasting P) : ∀ (ds : List Def) {s s' : Syntax}, SInv s → s.heap.All P →
    (∀ d ∈ ds, RawDef d ∧ P d.name d.commitType) → s.registers ds = (s', none) → s'.heap.All P
  | [], s, s', _, hm, _, h => by
    simp only [Syntax.registers, Prod.mk.injEq, and_true] at h
    exact h ▸ hm
  | d :: ds, s, s', hs, hm, hd, h => by
    simp only [Syntax.registers] at h
    cases hr : s.register d with
    | mk s1 e =>
      rw [hr] at h
      cases e with
      | some e => simp at h
      | none =>
        have rs := register_spec hs.root_lt hr
        exact registers_all hP ds (hs.register (hd d (by simp)).1 rs) (rs.all hP hm (hd d (by simp)).2)
          (fun d' h' => hd d' (by simp [h'])) h

theorem acts_all (hP : Lasting P) : ∀ (as pre : List Act) {s s' : Syntax}, Syntax.acts {} pre = some s → s.heap.All P →
    (∀ a ∈ as, ∀ d ∈ a.objects, P d.name d.commitType) → s.acts as = some s' → s'.heap.All P
  | [], pre, s, s', _, hm, _, h => by
    simp only [Syntax.acts, Option.some.injEq] at h
    simpa [← h] using hm
  | a :: as, pre, s, s', h0, hm, hd, h => by
    simp only [Syntax.acts] at h
    cases hr : s.act a with
    | mk s1 e =>
      rw [hr] at h
      cases e with
      | some e => simp at h
      | none =>
        have hs := (made_called (acts_made h0)).built.inv
        exact acts_all hP as (pre ++ [a]) (acts_snoc h0 hr) (registers_all hP a.objects hs hm
          (fun d h => ⟨act_raw a d h, hd a (by simp) d h⟩) (act_ok hr)) (fun b hb => hd b (by simp [hb])) h

theorem applyToDefs_all (hP : Lasting P) : ∀ (ps : List Ptr) (h : Heap), h.All P → (applyToDefs ps h).2.All P
  | [], h, hf => hf
  | q :: ps, h, hf => by
    intro p d hd
    rw [applyToDefs] at hd
    simp only at hd
    cases hq : h[q]? with
    | none => rw [hq] at hd; exact applyToDefs_all hP ps h hf p d hd
    | some e =>
      rw [hq] at hd
      simp only at hd
      split at hd
      · exact applyToDefs_all hP ps h hf p d hd
      · split at hd
        · refine applyToDefs_all hP ps _ (hf.append ?_) p d hd
          intro d' hd'
          simp only [applyToSeq, List.mem_append, List.mem_singleton] at hd'
          rcases hd' with hd' | rfl
          · exact hP.internal (by rw [(applyToItems_commit _ _ _ _ hd').1])
          · exact hf q e hq
        · exact applyToDefs_all hP ps h hf p d hd

theorem preHeap_all {s : Syntax} (hs : SInv s) (h : s.heap.All P) : s.preHeap.All P := by
  intro p d hd
  unfold Syntax.preHeap at hd
  rw [foldl_update _ _ _ hs.nodup p] at hd
  split at hd
  · obtain ⟨e, h1, rfl⟩ := Option.map_eq_some_iff.1 hd
    rw [initRanges_commitType, initRanges_name]
    exact h p e h1
  · exact h p d hd

theorem prepare_all (hP : Lasting P) {s s1 : Syntax} {root r1 : Ptr} (hs : SInv s) (h : s.heap.All P)
    (hp : s.prepare root = .ok (s1, r1)) : s1.heap.All P := by
  have hlen : s.preHeap.length = s.heap.length := foldl_update_length ..
  have hpre := preHeap_all hs h
  unfold Syntax.prepare at hp
  simp only at hp
  rw [show s.registry.definitions.foldl (fun h p => h.update p Def.initRanges) s.heap = s.preHeap from rfl] at hp
  split at hp
  · obtain ⟨⟨h4, defs, r⟩, ha, hp⟩ := Res.bind_eq_ok hp
    obtain ⟨h1, defs2, h3, r0, d, A⟩ := (apply_spec hs.nodup (fun p hp => by rw [hlen]; exact hs.mem_lt hp)).of_eq ha
    have hheap := A.heap; have hdefs := A.defs_; have hr := A.root_
    simp only at hheap hdefs hr
    simp only [Res.ok.injEq, Prod.mk.injEq] at hp
    obtain ⟨rfl, rfl⟩ := hp
    have hfr1 : h1.All P := by
      intro p d hd
      rw [A.get1] at hd
      split at hd
      · obtain ⟨e, h1, rfl⟩ := Option.map_eq_some_iff.1 hd
        have he := hpre p e h1
        cases hk : e.kind.isChar with
        | true => exact hP.internal (by unfold Def.withAlias Def.setCommitType; cases h : e.kind <;> simp_all [DKind.isChar, Def.commitType])
        | false =>
          have : e.withAlias.name = e.name ∧ e.withAlias.commitType = { e.commitType with alias := true } := by
            unfold Def.withAlias Def.setCommitType
            cases h : e.kind <;> simp_all [DKind.isChar, Def.commitType]
          rw [this.1, this.2]; exact hP.alias he
      · exact hpre p d hd
    have hfr3 : h3.All P := by
      have := applyToDefs_all hP (nonWsPart s.preHeap s.registry.definitions)
        (h1 ++ [mergeDefs h1 (wsPart s.preHeap s.registry.definitions)])
        (hfr1.append (by intro d hd; rw [List.mem_singleton] at hd; subst hd; exact hP.internal rfl))
      rw [A.run] at this
      exact this
    have hfr4 : Heap.All P h4 := by
      rw [hheap]
      refine Heap.All.append ?_ (by intro d hd; rw [List.mem_singleton] at hd; subst hd; exact hP.internal rfl)
      intro p e he
      simp only [Heap.update, List.getElem?_modify] at he
      obtain ⟨e0, h0, rfl⟩ := Option.map_eq_some_iff.1 he
      split
      · rename_i hp
        subst hp
        rw [A.rootDef] at h0
        cases h0
        rw [wsBody_name, wsBody_commitType]
        split
        · exact hP.internal rfl
        · exact hP.alias (hP.root false (hP.body (hfr3 _ _ A.rootDef)))
      · exact hfr3 p e0 h0
    intro p e he
    obtain ⟨e0, i, g1, g2⟩ := (newRegistry_weak h4 defs).same _ _ he
    rw [g2]
    exact hfr4 p e0 g1
  · simp only [Res.ok.injEq, Prod.mk.injEq] at hp
    obtain ⟨rfl, rfl⟩ := hp
    exact hpre

/-- The name of the root is kept. -/
theorem prepare_rootName {s s1 : Syntax} {root r1 : Ptr} (hs : SInv s) (hroot : s.root = some root)
    (hp : s.prepare root = .ok (s1, r1)) : s1.nameAt r1 = s.nameAt root := by
  have hlen : s.preHeap.length = s.heap.length := foldl_update_length ..
  unfold Syntax.prepare at hp
  simp only at hp
  rw [show s.registry.definitions.foldl (fun h p => h.update p Def.initRanges) s.heap = s.preHeap from rfl] at hp
  split at hp
  · obtain ⟨⟨h4, defs, r⟩, ha, hp⟩ := Res.bind_eq_ok hp
    obtain ⟨h1, defs2, h3, r0, d, A⟩ := (apply_spec hs.nodup (fun p hp => by rw [hlen]; exact hs.mem_lt hp)).of_eq ha
    have hheap := A.heap; have hdefs := A.defs_; have hr := A.root_
    simp only at hheap hdefs hr
    simp only [Res.ok.injEq, Prod.mk.injEq] at hp
    obtain ⟨rfl, rfl⟩ := hp
    have hget := A.applied.get
    simp only at hget
    have hr0 : r0 ∈ defs2 ∧ (Syntax.commitOf h3 r0).root = true := by
      have := List.mem_of_getLast? A.rootEq
      rw [List.mem_filter] at this
      exact this
    have hroot3 : d.commitType.root = true := by
      have := hr0.2
      rw [Syntax.commitOf, A.rootDef] at this
      exact this
    have hmem : h3[r0]? ∈ defs2.map (fun q => h3[q]?) := List.mem_map.2 ⟨r0, hr0.1, rfl⟩
    rw [hget, A.rootDef] at hmem
    obtain ⟨d', hd', he⟩ := List.mem_map.1 hmem
    cases he
    obtain ⟨p, hpm, hdp⟩ := List.mem_flatMap.1 hd'
    obtain ⟨hp1, hp2⟩ := List.mem_filter.1 hpm
    have hpl : p < h1.length := by rw [A.len1, hlen]; exact hs.mem_lt hp1
    obtain ⟨e, he⟩ : ∃ e, s.heap[p]? = some e := ⟨_, List.getElem?_eq_getElem (hs.mem_lt hp1)⟩
    have hpp : s.preHeap[p]? = some e.initRanges := by
      unfold Syntax.preHeap
      rw [foldl_update _ _ _ hs.nodup p, if_pos hp1, he]; rfl
    have hp3 : (h1 ++ [mergeDefs h1 (wsPart s.preHeap s.registry.definitions)])[p]? = some e.initRanges := by
      rw [List.getElem?_append_left hpl, A.get1, if_neg (by simp at hp2; simp [hp2]), hpp]
    unfold wsBlock at hdp
    rw [hp3] at hdp
    simp only [List.mem_append, List.mem_singleton] at hdp
    have hname : d.name = s.nameAt root := by
      rcases hdp with hdp | rfl
      · rw [wsGen_commit hdp] at hroot3; cases hroot3
      · rw [wsRepl_commitType, initRanges_commitType] at hroot3
        have hk : e.kind.isChar = false := by
          cases hk : e.kind <;> simp_all [Def.commitType, DKind.isChar]
        rw [commitType_notChar hk] at hroot3
        have := (hs.rootFlag p e hp1 he hk).1 hroot3
        rw [hroot] at this
        cases this
        rw [wsRepl_name, initRanges_name, Syntax.nameAt, he]; rfl
    rw [← hname]
    have W := newRegistry_weak h4 defs
    have hl : h3.length < (Registry.newRegistry h4 defs).2.length := by
      rw [W.len, hheap]; simp [Heap.length_update]
    obtain ⟨e', i, g1, g2⟩ := W.same _ _ (List.getElem?_eq_getElem hl)
    have : e' = wsRootDef d.name := by
      rw [hheap, List.getElem?_append_right (by rw [Heap.length_update]; exact Nat.le_refl _)] at g1
      simp [Heap.length_update] at g1
      exact g1.symm
    subst this
    simp only [Syntax.nameAt, hr]
    rw [List.getElem?_eq_getElem hl, g2]
    rfl
  · simp only [Res.ok.injEq, Prod.mk.injEq] at hp
    obtain ⟨rfl, rfl⟩ := hp
    simp only [Syntax.nameAt, Syntax.preHeap]
    rw [foldl_update _ _ _ hs.nodup root]
    split
    · cases s.heap[root]? with
      | none => rfl
      | some e => simp [initRanges_name]
    · rfl

/-- `Init`: the names and the flags of the objects, and the name of the root. -/
theorem Init_names (hP : Lasting P) {s s' : Syntax} (hs : SInv s) (h : s.heap.All P) (hi : s.Init = .ok (s', none)) :
    s'.heap.All P ∧ ∃ r0 r1, s.root = some r0 ∧ s'.root = some r1 ∧ s'.nameAt r1 = s.nameAt r0 := by
  rw [Syntax.Init_eq, if_neg (by simp [hs.initFailed]), if_neg (by simp [hs.initialized])] at hi
  cases hroot : s.root with
  | none => rw [hroot] at hi; simp at hi
  | some r0 =>
    rw [hroot] at hi
    simp only at hi
    cases hd : s.heap[r0]? with
    | none => rw [hd] at hi; cases hi
    | some d =>
      rw [hd] at hi
      simp only at hi
      split at hi
      · simp at hi
      · obtain ⟨⟨s1, r1⟩, hprep, hi⟩ := Res.bind_eq_ok hi
        obtain ⟨hpb, hr1, -⟩ := (prepare_weak hs.weak hroot).of_eq hprep
        have I : InitOK s1 r1 s' := (finishInit_spec hpb).of_eq hi
        simp only at hr1
        refine ⟨?_, r0, r1, rfl, by rw [I.same]; exact hr1, ?_⟩
        · intro p e he
          obtain ⟨e1, g1, g2⟩ := I.sk.symm.to he
          rw [← Def.sk_name g2, ← Def.sk_commitType g2]
          exact prepare_all hP hs h hprep p e1 g1
        · rw [← prepare_rootName hs hroot hprep]
          have := I.sk r1
          simp only [Syntax.nameAt]
          cases h1 : s'.heap[r1]? with
          | none => cases h2 : s1.heap[r1]? <;> simp_all
          | some e =>
            obtain ⟨e1, g1, g2⟩ := I.sk.symm.to h1
            simp only [g1, Option.map_some, Option.getD_some]
            exact (Def.sk_name g2).symm

end

end Treerack
