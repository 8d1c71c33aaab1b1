import Verif.Proofs.GenRun

/-
The whole generated function: it is accepted by the compiler and behaves like the parsers that it was
generated from.
-/

namespace Treerack

open Spec

theorem Reach.from_ {env : Env} {root p : Ptr} (h : Reach env root p) : From env (env.keywords ++ [root]) p := by
  induction h with
  | root => exact .start (by simp)
  | keyword hk => exact .start (by simp [hk])
  | child _ hd hq ih => exact .child ih hd hq

theorem From.reach {env : Env} {root p : Ptr} {ps : List Ptr} (hps : ∀ p ∈ ps, Reach env root p) (h : From env ps p) :
    Reach env root p := by
  induction h with
  | start hp => exact hps _ hp
  | child _ hd hq ih => exact .child ih hd hq

/-- What the generator relies on. -/
structure Generatable (env : Env) (root : Ptr) : Prop where
  distinct : Distinct env (Reach env root) PDef.pname
  name : ∀ {p d}, Reach env root p → env.defs[p]? = some d → d.name = d.pname
  rootDef : ∀ d, env.defs[root]? = some d → d.kind.isChar = false
  keyword : ∀ k ∈ env.keywords, ∀ d, env.defs[k]? = some d → d.kind.isChar = false
  options : ∀ p d os, Reach env root p → env.defs[p]? = some d → d.kind = .choice os → ∀ o ∈ os, ∀ e,
    env.defs[o]? = some e → e.kind.isChar = false

theorem Generatable.distinctName {env : Env} {root : Ptr} (h : Generatable env root) :
    Distinct env (From env [root]) PDef.name := by
  have hr : ∀ {p}, From env [root] p → Reach env root p := fun hp =>
    From.reach (fun p hp => by simp only [List.mem_singleton] at hp; subst hp; exact .root) hp
  refine ⟨fun hp => h.distinct.def_ (hr hp), fun hp hd hq => .child hp hd hq, ?_, ?_, ?_⟩
  · intro p q d e hp hq hd he h1 h2 hn
    refine h.distinct.keys (hr hp) (hr hq) hd he h1 h2 ?_
    rw [← h.name (hr hp) hd, ← h.name (hr hq) he]; exact hn
  · exact fun hp hq => h.distinct.ids (hr hp) (hr hq)
  · exact fun hp hq => h.distinct.once (hr hp) (hr hq)

theorem unseen_le (env : Env) (key : PDef → Name) (done : List Name) : unseen env key done < env.defs.length + 1 :=
  Nat.lt_succ_of_le List.countP_le_length

/-- The name of the root in the errors of the generated parser. -/
def generatedName (d : PDef) : Name := if d.commit.userDefined then d.pname else []

theorem parserLit_name {d : PDef} (hk : d.kind.isChar = false) : d.parserLit.name = generatedName d := by
  unfold PDef.parserLit generatedName
  cases hkk : d.kind <;> simp [hkk, PKind.isChar] at hk ⊢

theorem generateProgram_spec {env : Env} {root : Ptr} (h : Generatable env root) {d : PDef} (hd : env.defs[root]? = some d) :
    ∃ prog, generateProgram env root = .ok prog ∧
      WellDeclared prog.parsers (prog.keywords ++ [prog.rootParser]) ∧
      WellDeclared prog.builders [prog.rootBuilder] ∧
      ∀ fuel reader rend, Res.Rel (OutcomeRel d.pname (generatedName d)) (parseInput env fuel root reader rend)
        (prog.run fuel reader rend) := by
  have hnc : ∀ p ∈ env.keywords ++ [root], ∀ e, ¬ CharAt env p e := by
    intro p hp e hc
    rcases List.mem_append.1 hp with hp | hp
    · exact absurd (h.keyword p hp e hc.1) (by simp [hc.2])
    · simp only [List.mem_singleton] at hp
      subst hp
      exact absurd (h.rootDef e hc.1) (by simp [hc.2])
  have hR : ∀ p ∈ env.keywords ++ [root], Reach env root p := by
    intro p hp
    rcases List.mem_append.1 hp with hp | hp
    · exact .keyword hp
    · simp only [List.mem_singleton] at hp; subst hp; exact .root
  have hF : ∀ p ∈ [root], From env [root] p := fun p hp => .start hp
  unfold generateProgram
  simp only
  have hok : ∀ {α : Type} {x : Res α} {P : α → Prop}, x.Spec False False P → ∃ a, x = .ok a ∧ P a := by
    intro α x P hx
    cases x with
    | ok a => exact ⟨a, rfl, hx⟩
    | panic => exact hx.elim
    | oof => exact hx.elim
  have hpw : CharsOnce env (env.keywords ++ [root]) := by
    rw [CharsOnce, List.pairwise_iff_getElem]
    intro i j hi hj _ _ e
    exact hnc _ (List.getElem_mem hi) e
  obtain ⟨⟨ps, dp⟩, e1, hP⟩ := hok (generateAll_spec (lit := PDef.parserLit) h.distinct
    (rec := generate env PDef.pname PDef.parserLit (env.defs.length + 1)) (n := env.defs.length + 1)
    (fun p done h1 h2 h3 => generate_spec h.distinct _ p done h1 h2 h3) (env.keywords ++ [root]) [] hR
    (unseen_le ..) (fun c hc e he => absurd he (hnc c hc e)) hpw)
  obtain ⟨⟨bs, db⟩, e2, hB⟩ := hok (generate_spec (lit := PDef.builderLit) h.distinctName (env.defs.length + 1) root []
    (hF root (by simp)) (unseen_le ..) (fun c hc e he => by
      simp only [List.mem_singleton] at hc
      subst hc
      exact absurd he (hnc c (by simp) e)))
  obtain ⟨ks, e3, -⟩ := hok (nodeIDs_spec (Q := Reach env root) h.distinct.def_ env.keywords fun p hp => .keyword hp)
  have e4 : nodeIDs env [root] = .ok [d.id] := by simp [nodeIDs, hd]
  simp only at hP hB
  have hkp : Pairs (VarOf env (env.keywords ++ [root])) env.keywords ks :=
    nodeIDs_pairs (fun p hp => .start (by simp [hp])) e3
  refine ⟨_, by rw [e1, Res.bind_ok, e2, Res.bind_ok, e3, Res.bind_ok, e4, Res.bind_ok], ?_, ?_, ?_⟩
  · apply hP.wellDeclared
    intro x hx
    simp only [List.headD_cons] at hx
    rcases List.mem_append.1 hx with hx | hx
    · have hspec := (nodeIDs_spec (Q := Reach env root) h.distinct.def_ env.keywords fun p hp => .keyword hp).of_eq e3
      obtain ⟨p, hp, e, he, rfl⟩ := (hspec x).1 hx
      exact ⟨p, by simp [hp], e, .keyword hp, he, rfl⟩
    · simp only [List.mem_singleton] at hx
      subst hx
      exact ⟨root, by simp, d, .root, hd, rfl⟩
  · apply hB.wellDeclared
    intro x hx
    simp only [List.headD_cons, List.mem_singleton] at hx
    subst hx
    exact ⟨root, by simp, d, hF root (by simp), hd, rfl⟩
  · intro fuel reader rend
    have hchoiceP : ∀ (d : PDef) os, d.kind = .choice os → d.parserLit.kind = .choice := by
      intro d os hk; simp [PDef.parserLit, hk]
    have hseqP : ∀ (d : PDef) is rs ac, d.kind = .seq is rs ac → d.parserLit.kind = .seq rs ac := by
      intro d is rs ac hk; simp [PDef.parserLit, hk]
    have hchoiceB : ∀ (d : PDef) os, d.kind = .choice os → d.builderLit.kind = .choice := by
      intro d os hk; simp [PDef.builderLit, hk]
    have hseqB : ∀ (d : PDef) is rs ac, d.kind = .seq is rs ac → d.builderLit.kind = .seq rs ac := by
      intro d is rs ac hk; simp [PDef.builderLit, hk]
    have hEP := hP.envRel (P := True) (B := False) h.distinct hR (fun _ => hkp) (fun h => h.elim)
      (fun d neg cs rs hk => ⟨neg, cs, rs, by simp [PDef.parserLit, hk], fun _ => ⟨rfl, rfl, rfl⟩⟩) hchoiceP hseqP
      (fun d hk => by
        refine ⟨?_, ?_, ?_, fun h => h.elim, fun _ hr => ?_⟩
        · unfold PDef.parserLit; cases hkk : d.kind <;> simp
        · unfold PDef.parserLit; cases hkk : d.kind <;> simp [hkk, PKind.isChar] at hk ⊢
        · unfold PDef.parserLit; cases hkk : d.kind <;> simp [hkk, PKind.isChar] at hk ⊢
        · rw [parserLit_name hk, generatedName, if_pos]
          unfold Commit.reports at hr
          simp only [Bool.and_eq_true] at hr
          exact hr.1.1)
    have hEB := hB.envRel (P := False) (B := True) (ks := []) h.distinctName hF (fun h => h.elim)
      (fun _ p e os hp he hk o ho f hf =>
        h.options p e os (From.reach (fun p hp => by simp only [List.mem_singleton] at hp; subst hp; exact .root) hp)
          he hk o ho f hf)
      (fun d neg cs rs hk => ⟨false, [], [], by simp [PDef.builderLit, hk], fun h => h.elim⟩) hchoiceB hseqB
      (fun d hk => by
        refine ⟨?_, ?_, ?_, fun _ hr => ?_, fun h => h.elim⟩
        · unfold PDef.builderLit; cases hkk : d.kind <;> simp [hkk, PKind.isChar] at hk ⊢
        · unfold PDef.builderLit; cases hkk : d.kind <;> simp [hkk, PKind.isChar] at hk ⊢
        · unfold PDef.builderLit; cases hkk : d.kind <;> simp [hkk, PKind.isChar] at hk ⊢
        · unfold PDef.builderLit; cases hkk : d.kind <;> simp [hkk, PKind.isChar, hr] at hk ⊢)
    obtain ⟨-, v, hv, hv1, hv2⟩ : ∃ ids : List Nat, ∃ e, (execAll ps).defs[d.id]? = some e ∧
        e.pname = d.parserLit.name ∧ e.id = d.id := by
      obtain ⟨ids, -, e, he, h1, h2⟩ := hP.value h.distinct hR (.start (by simp)) hd
      refine ⟨ids, e, he, ?_, ?_⟩
      · by_cases hc : d.kind.children = []
        · rw [h1 hc]; rfl
        · rw [h2 hc]; unfold PDef.assign; cases d.parserLit.toPDef.kind <;> cases d.kind.field <;> rfl
      · have hid : d.parserLit.id = d.id := by unfold PDef.parserLit; cases hkk : d.kind <;> simp
        by_cases hc : d.kind.children = []
        · rw [h1 hc]; exact hid
        · rw [h2 hc, ← hid]; unfold PDef.assign; cases d.parserLit.toPDef.kind <;> cases d.kind.field <;> rfl
    have := parseWith_rel hEP hEB (p := root) (q := d.id) (b := d.id) ⟨.start (by simp), d, hd, rfl⟩
      ⟨.start (by simp), d, hd, rfl⟩ hd hv hv2.symm fuel reader rend
    rw [hv1, parserLit_name (h.rootDef d hd)] at this
    exact this

end Treerack
