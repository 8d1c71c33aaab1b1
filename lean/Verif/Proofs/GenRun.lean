import Verif.Proofs.Generate
import Verif.Proofs.Simulation

/-
Running the generated code: the variables have the fields of the objects they were generated from, so
the generated parsers and builders correspond to the objects of the syntax.
-/

namespace Treerack

open Spec

/-! ### The final values of the variables -/

theorem lookup_mapValue (n : Nat) (g : PDef → PDef) (x : Nat) : ∀ vs : Vars,
    (vs.map fun v => if v.1 == n then (v.1, g v.2) else v).lookup x =
      if x = n then (vs.lookup x).map g else vs.lookup x
  | [] => by simp
  | (m, d) :: vs => by
    have ih := lookup_mapValue n g x vs
    rw [List.map_cons]
    by_cases hm : m = n
    · subst hm
      simp only [beq_self_eq_true, if_true, List.lookup_cons]
      by_cases hx : x = m
      · simp [hx]
      · have hb : (x == m) = false := by simpa using hx
        simp only [hb, hx, if_false] at ih ⊢
        exact ih
    · have hb : (m == n) = false := by simpa using hm
      simp only [hb, Bool.false_eq_true, if_false, List.lookup_cons]
      by_cases hx : x = m
      · subst hx
        simp [hm]
      · have hb' : (x == m) = false := by simpa using hx
        simp only [hb']
        exact ih

theorem assign_assign (d : PDef) (f : Field) (r : List Nat) : (d.assign f r).assign f r = d.assign f r := by
  unfold PDef.assign
  cases hk : d.kind <;> cases f <;> simp [hk]

theorem execAll_snoc (ss : List Stmt) (st : Stmt) : execAll (ss ++ [st]) = st.exec (execAll ss) := by
  simp [execAll]

/-- The final value of a variable that is declared once, when all the assignments to it are the same. -/
theorem execAll_lookup {x : Nat} {l : Lit} {f : Field} {r : List Nat} : ∀ ss : List Stmt, (ss.flatMap declared).Nodup →
    (∀ pre st post, ss = pre ++ st :: post → ∀ n ∈ used st, n ∈ pre.flatMap declared) →
    (∀ g refs, .assign x g refs ∈ ss → g = f ∧ refs = r) → .declare x l ∈ ss →
    (execAll ss).lookup x = some (if .assign x f r ∈ ss then l.toPDef.assign f r else l.toPDef) := by
  intro ss
  induction hn : ss.length generalizing ss with
  | zero =>
    intro _ _ _ h
    rw [List.eq_nil_of_length_eq_zero hn] at h
    cases h
  | succ n ih =>
    intro h1 h2 h3 h4
    obtain ⟨init, st, rfl⟩ : ∃ init st, ss = init ++ [st] := by
      have hne : ss ≠ [] := by intro h; rw [h] at hn; cases hn
      exact ⟨ss.dropLast, ss.getLast hne, (List.dropLast_concat_getLast hne).symm⟩
    rw [List.length_append, List.length_singleton] at hn
    have hi1 : (init.flatMap declared).Nodup := by
      rw [List.flatMap_append] at h1
      exact (List.nodup_append.1 h1).1
    have hi2 : ∀ pre st' post, init = pre ++ st' :: post → ∀ n ∈ used st', n ∈ pre.flatMap declared := by
      intro pre st' post he
      exact h2 pre st' (post ++ [st]) (by rw [he]; simp)
    have hi3 : ∀ g refs, .assign x g refs ∈ init → g = f ∧ refs = r := fun g refs h => h3 g refs (by simp [h])
    have ih := ih init (by omega) hi1 hi2 hi3
    rw [execAll_snoc]
    cases st with
    | declare y l' =>
      have has : (.assign x f r ∈ init ++ [.declare y l']) ↔ (.assign x f r ∈ init) := by simp
      simp only [has]
      have hdis : ∀ l, .declare y l ∉ init := by
        intro l hl
        rw [List.flatMap_append] at h1
        exact (List.nodup_append.1 h1).2.2 y (List.mem_flatMap.2 ⟨_, hl, by simp [declared]⟩) y (by simp [declared]) rfl
      simp only [Stmt.exec, List.lookup_cons]
      by_cases hxy : x = y
      · subst hxy
        have hl : l = l' := by
          rcases List.mem_append.1 h4 with h | h
          · exact absurd h (hdis l)
          · simp only [List.mem_singleton, Stmt.declare.injEq, true_and] at h; exact h
        subst hl
        have hno : .assign x f r ∉ init := by
          intro h
          obtain ⟨a, b, hab⟩ := List.append_of_mem h
          have := hi2 a _ b hab x (by simp [used])
          obtain ⟨st, hs1, hs2⟩ := List.mem_flatMap.1 this
          cases st with
          | declare m l0 =>
            simp only [declared, List.mem_singleton] at hs2
            subst hs2
            exact hdis l0 (by rw [hab]; simp [hs1])
          | assign m g refs => simp [declared] at hs2
        simp [hno]
      · have hb : (x == y) = false := by simpa using hxy
        simp only [hb]
        apply ih
        rcases List.mem_append.1 h4 with h | h
        · exact h
        · simp only [List.mem_singleton, Stmt.declare.injEq] at h
          exact absurd h.1 hxy
    | assign y g refs =>
      have h4' : .declare x l ∈ init := by simpa using h4
      have ih := ih h4'
      simp only [Stmt.exec]
      rw [lookup_mapValue y (fun d => d.assign g refs) x, ih]
      by_cases hxy : x = y
      · subst hxy
        obtain ⟨rfl, rfl⟩ := h3 g refs (by simp)
        simp only [if_true, Option.map_some, List.mem_append, List.mem_singleton, or_true]
        split
        · rw [assign_assign]
        · rfl
      · have : (.assign x f r ∈ init ++ [.assign y g refs]) ↔ (.assign x f r ∈ init) := by simp [hxy]
        simp [this, hxy]

theorem foldl_max_le (l : List Nat) : ∀ a, a ≤ l.foldl max a ∧ ∀ x ∈ l, x ≤ l.foldl max a := by
  induction l with
  | nil => simp
  | cons y l ih =>
    intro a
    simp only [List.foldl_cons, List.mem_cons]
    obtain ⟨h1, h2⟩ := ih (max a y)
    refine ⟨by omega, ?_⟩
    rintro x (rfl | h)
    · omega
    · exact h2 x h

theorem lookup_mem {vs : Vars} {x : Nat} {d : PDef} (h : vs.lookup x = some d) : x ∈ vs.map Prod.fst := by
  induction vs with
  | nil => cases h
  | cons v vs ih =>
    obtain ⟨m, e⟩ := v
    rw [List.lookup_cons] at h
    by_cases hx : (x == m) = true
    · simp only [List.map_cons, List.mem_cons]
      left; simpa using hx
    · simp only [hx] at h
      simp only [List.map_cons, List.mem_cons]
      exact Or.inr (ih h)

theorem Vars.defs_get {vs : Vars} {x : Nat} {d : PDef} (h : vs.lookup x = some d) : vs.defs[x]? = some d := by
  unfold Vars.defs
  have hm := (foldl_max_le (vs.map Prod.fst) 0).2 x (lookup_mem h)
  rw [List.getElem?_map, List.getElem?_range (by omega)]
  simp [h]

/-! ### The definitions that are generated -/

/-- The definitions that are reached from a list of definitions. -/
inductive From (env : Env) (ps : List Ptr) : Ptr → Prop
  | start {p : Ptr} : p ∈ ps → From env ps p
  | child {p q : Ptr} {d : PDef} : From env ps p → env.defs[p]? = some d → q ∈ d.kind.children → From env ps q

section

variable {env : Env} {Q : Ptr → Prop} {key : PDef → Name} {lit : PDef → Lit} {done : List Name} {ss : List Stmt}
  {ps : List Ptr}

theorem Generated.covered (hD : Distinct env Q key) (h : Generated env Q key lit [] done ss ps) (hps : ∀ p ∈ ps, Q p)
    {p : Ptr} (hp : From env ps p) : Q p ∧ ∀ d, env.defs[p]? = some d →
      .declare d.id (lit d) ∈ ss ∧ (d.kind.isChar = false → New env Q key [] done p d) := by
  induction hp with
  | @start p hp =>
    refine ⟨hps p hp, fun d hd => ?_⟩
    cases hc : d.kind.isChar with
    | true => exact ⟨h.hasChar p hp d ⟨hd, hc⟩, by simp⟩
    | false =>
      have hn : New env Q key [] done p d := ⟨hps p hp, hd, hc, by simp, h.visited p hp d hd hc⟩
      exact ⟨(h.hasNew p d hn).1, fun _ => hn⟩
  | @child p q e _ he hq ih =>
    have hQ := hD.child ih.1 he hq
    refine ⟨hQ, fun d hd => ?_⟩
    have hek : e.kind.isChar = false := by
      cases hk : e.kind <;> simp [hk, PKind.children, PKind.isChar] at hq ⊢
    have hn := (ih.2 e he).2 hek
    obtain ⟨-, -, g3⟩ := h.hasNew p e hn
    cases hc : d.kind.isChar with
    | true => exact ⟨(g3 q hq d hd).1 hc, by simp⟩
    | false =>
      have hn : New env Q key [] done q d := ⟨hQ, hd, hc, by simp, (g3 q hq d hd).2 hc⟩
      exact ⟨(h.hasNew q d hn).1, fun _ => hn⟩

theorem Generated.wellDeclared (h : Generated env Q key lit [] done ss ps) {closing : List Nat}
    (hc : ∀ x ∈ closing, ∃ p ∈ ps, ∃ d, Q p ∧ env.defs[p]? = some d ∧ x = d.id) : WellDeclared ss closing := by
  refine ⟨h.once, ?_, ?_⟩
  · intro pre st post he n hn
    rcases h.before pre st post he n hn with h | ⟨_, _, _, _, _, h, _⟩
    · exact h
    · cases h
  · intro x hx
    obtain ⟨p, hp, d, hQ, hd, rfl⟩ := hc x hx
    cases hk : d.kind.isChar with
    | true => exact declared_mem.2 ⟨_, h.hasChar p hp d ⟨hd, hk⟩⟩
    | false =>
      exact declared_mem.2 ⟨_, (h.hasNew p d ⟨hQ, hd, hk, by simp, h.visited p hp d hd hk⟩).1⟩

/-- The object of the variable of a definition. -/
theorem Generated.value (hD : Distinct env Q key) (h : Generated env Q key lit [] done ss ps) (hps : ∀ p ∈ ps, Q p)
    {p : Ptr} (hp : From env ps p) {d : PDef} (hd : env.defs[p]? = some d) :
    ∃ ids, (d.kind.isChar = false → nodeIDs env d.kind.children = .ok ids) ∧
      ∃ e, (execAll ss).defs[d.id]? = some e ∧ (d.kind.children = [] → e = (lit d).toPDef) ∧
        (d.kind.children ≠ [] → e = (lit d).toPDef.assign d.kind.field ids) := by
  obtain ⟨hQ, hcov⟩ := h.covered hD hps hp
  obtain ⟨hdecl, hnew⟩ := hcov d hd
  have hwd := h.wellDeclared (closing := []) (by simp)
  have hasg : ∀ f refs, .assign d.id f refs ∈ ss → f = d.kind.field ∧ d.kind.isChar = false ∧ nodeIDs env d.kind.children = .ok refs ∧
      d.kind.children ≠ [] := by
    intro f refs hr
    obtain ⟨r, e, hn, h1, hf, h2, h3⟩ := h.assigns _ _ _ hr
    have := hD.ids hQ hn.reached hd hn.at_ h1
    subst this
    have hh := hn.at_
    rw [hd] at hh
    cases hh
    exact ⟨hf, hn.notChar, h2, h3⟩
  cases hk : d.kind.isChar with
  | true =>
    have hch : d.kind.children = [] := by
      cases hkk : d.kind <;> simp [hkk, PKind.children, PKind.isChar] at hk ⊢
    refine ⟨[], by simp, _, ?_, fun _ => rfl, fun h => absurd hch h⟩
    apply Vars.defs_get
    rw [execAll_lookup (f := .items) (r := []) ss hwd.once hwd.before (fun f refs hr => by
      rw [(hasg f refs hr).2.1] at hk; cases hk) hdecl, if_neg]
    intro hr
    rw [(hasg _ _ hr).2.1] at hk
    cases hk
  | false =>
    by_cases hch : d.kind.children = []
    · refine ⟨[], fun _ => by rw [hch]; rfl, _, ?_, fun _ => rfl, fun h => absurd hch h⟩
      apply Vars.defs_get
      rw [execAll_lookup (f := .items) (r := []) ss hwd.once hwd.before (fun f refs hr => absurd hch (hasg f refs hr).2.2.2) hdecl, if_neg]
      exact fun hr => (hasg _ _ hr).2.2.2 hch
    · obtain ⟨-, g2, -⟩ := h.hasNew p d (hnew hk)
      obtain ⟨ids, k1, k2⟩ := g2 hch
      refine ⟨ids, fun _ => k1, _, ?_, fun h => absurd h hch, fun _ => rfl⟩
      apply Vars.defs_get
      rw [execAll_lookup (f := d.kind.field) (r := ids) ss hwd.once hwd.before (fun f refs hr => by
        refine ⟨(hasg f refs hr).1, ?_⟩
        have := (hasg f refs hr).2.2.1
        rw [k1] at this
        exact (Res.ok.inj this).symm) hdecl, if_pos k2]

/-- The relation of the objects to the variables. -/
def VarOf (env : Env) (ps : List Ptr) (p : Ptr) (x : Nat) : Prop := From env ps p ∧ ∃ d, env.defs[p]? = some d ∧ x = d.id

theorem nodeIDs_pairs : ∀ {l : List Ptr} {ids : List Nat}, (∀ p ∈ l, From env ps p) → nodeIDs env l = .ok ids →
    Pairs (VarOf env ps) l ids
  | [], ids, _, h => by cases h; exact .nil
  | p :: l, ids, hl, h => by
    unfold nodeIDs at h
    cases hd : env.defs[p]? with
    | none => rw [hd] at h; cases h
    | some d =>
      rw [hd] at h
      obtain ⟨ids', h1, h2⟩ := Res.bind_eq_ok h
      cases h2
      exact .cons ⟨hl p (by simp), d, hd, rfl⟩ (nodeIDs_pairs (fun q hq => hl q (by simp [hq])) h1)

theorem Pairs.refl {α : Type} {l : List α} : Pairs Eq l l := by
  induction l with
  | nil => exact .nil
  | cons a l ih => exact .cons rfl ih

/-- The statements lead to objects that correspond to the objects of the syntax. -/
theorem Generated.envRel (hD : Distinct env Q key) (h : Generated env Q key lit [] done ss ps) (hps : ∀ p ∈ ps, Q p)
    {P B : Prop} {ks : List Nat} (hk : P → Pairs (VarOf env ps) env.keywords ks)
    (hnochar : B → ∀ p d os, From env ps p → env.defs[p]? = some d → d.kind = .choice os → ∀ o ∈ os, ∀ e,
      env.defs[o]? = some e → e.kind.isChar = false)
    (hchar : ∀ d neg cs rs, d.kind = .char neg cs rs → ∃ neg' cs' rs', (lit d).kind = .char neg' cs' rs' ∧
      (P → neg = neg' ∧ cs = cs' ∧ rs = rs'))
    (hchoice : ∀ d os, d.kind = .choice os → (lit d).kind = .choice)
    (hseq : ∀ d is rs ac, d.kind = .seq is rs ac → (lit d).kind = .seq rs ac)
    (hlit : ∀ d, d.kind.isChar = false → (lit d).id = d.id ∧ (lit d).commit = d.commit ∧ (lit d).gens = d.gens ∧
      (B → d.commit.alias = false → d.name = (lit d).name) ∧
      (P → d.commit.reports = true → d.pname = (lit d).name)) :
    EnvRel P B (VarOf env ps) Eq env { defs := (execAll ss).defs, keywords := ks } := by
  have hval : ∀ p x, VarOf env ps p x → ∃ d e, env.defs[p]? = some d ∧ (execAll ss).defs[x]? = some e ∧
      KindRel P (VarOf env ps) d.kind e.kind ∧ (d.kind.isChar = false → DefRel P B (VarOf env ps) Eq d e) := by
    rintro p x ⟨hp, d, hd, rfl⟩
    obtain ⟨ids, h1, v, h2, hv1, hv2⟩ := h.value hD hps hp hd
    have hpairs : d.kind.isChar = false → Pairs (VarOf env ps) d.kind.children ids := fun hk =>
      nodeIDs_pairs (fun q hq => .child hp hd hq) (h1 hk)
    refine ⟨d, v, hd, h2, ?_, ?_⟩
    · cases hkind : d.kind with
      | char neg cs rs =>
        obtain ⟨neg', cs', rs', g1, g2⟩ := hchar d neg cs rs hkind
        rw [hv1 (by simp [hkind, PKind.children])]
        unfold Lit.toPDef
        rw [g1]
        exact .char g2
      | choice os =>
        have hp' := hpairs (by simp [hkind, PKind.isChar])
        rw [hkind] at hp'
        simp only [PKind.children] at hp'
        have hl := hchoice d os hkind
        by_cases hos : os = []
        · subst hos
          rw [hv1 (by simp [hkind, PKind.children])]
          unfold Lit.toPDef
          rw [hl]
          exact .choice .nil
        · rw [hv2 (by simpa [hkind, PKind.children] using hos)]
          unfold PDef.assign Lit.toPDef
          rw [hl, hkind]
          exact .choice hp'
      | seq is rs ac =>
        have hp' := hpairs (by simp [hkind, PKind.isChar])
        rw [hkind] at hp'
        simp only [PKind.children] at hp'
        have hl := hseq d is rs ac hkind
        by_cases his : is = []
        · subst his
          rw [hv1 (by simp [hkind, PKind.children])]
          unfold Lit.toPDef
          rw [hl]
          exact .seq _ _ .nil
        · rw [hv2 (by simpa [hkind, PKind.children] using his)]
          unfold PDef.assign Lit.toPDef
          rw [hl, hkind]
          exact .seq _ _ hp'
    · intro hk
      obtain ⟨g1, g2, g3, g4, g5⟩ := hlit d hk
      have hfields : ∀ e : PDef, (e = (lit d).toPDef ∨ e = (lit d).toPDef.assign d.kind.field ids) → e.id = (lit d).id ∧
          e.commit = (lit d).commit ∧ e.gens = (lit d).gens ∧ e.name = (lit d).name ∧ e.pname = (lit d).name := by
        have hb : (lit d).toPDef.commit = (lit d).commit := by
          unfold Lit.toPDef
          cases hkind : d.kind with
          | char => simp [hkind, PKind.isChar] at hk
          | choice os => rw [hchoice d os hkind]
          | seq is rs ac => rw [hseq d is rs ac hkind]
        have ha : ∀ (d : PDef) f r, (d.assign f r).id = d.id ∧ (d.assign f r).commit = d.commit ∧ (d.assign f r).gens = d.gens ∧
            (d.assign f r).name = d.name ∧ (d.assign f r).pname = d.pname := by
          intro d f r
          unfold PDef.assign
          cases d.kind <;> cases f <;> simp
        rintro e (rfl | rfl)
        · exact ⟨rfl, hb, rfl, rfl, rfl⟩
        · obtain ⟨a1, a2, a3, a4, a5⟩ := ha (lit d).toPDef d.kind.field ids
          exact ⟨a1, a2.trans hb, a3, a4, a5⟩
      obtain ⟨e1, e2, e3, e4, e5⟩ := hfields v (by
        by_cases hch : d.kind.children = []
        · exact Or.inl (hv1 hch)
        · exact Or.inr (hv2 hch))
      refine ⟨by rw [e1, g1], by rw [e2, g2], fun hB ha => by rw [e4]; exact g4 hB ha,
        fun hP hr => by rw [e5]; exact g5 hP hr, ?_⟩
      rw [e3, g3]
      exact .refl
  refine ⟨?_, hval, ?_, hk⟩
  · intro a b a' b' h1 h2
    subst h1
    subst h2
    exact Iff.rfl
  · intro hB p q d e os os' hpq hd he hkd hke
    obtain ⟨d1, e1, hd1, he1, h1, -⟩ := hval p q hpq
    have he' : (execAll ss).defs[q]? = some e := he
    rw [hd] at hd1
    rw [he'] at he1
    cases hd1
    cases he1
    rw [hkd, hke] at h1
    cases h1 with
    | choice ho =>
      have : ∀ {os os' : List Nat}, Pairs (VarOf env ps) os os' → (∀ o ∈ os, ∀ e, env.defs[o]? = some e → e.kind.isChar = false) →
          Pairs (SameIds env { defs := (execAll ss).defs, keywords := ks } Eq) os os' := by
        intro os os' ho
        induction ho with
        | nil => intro _; exact .nil
        | cons hxy _ ih =>
          intro hc
          obtain ⟨a, b, ha, hb, -, g⟩ := hval _ _ hxy
          exact .cons ⟨a, b, ha, hb, (g (hc _ (by simp) a ha)).id⟩ (ih fun o ho => hc o (by simp [ho]))
      exact this ho fun o ho e he => hnochar hB p d os hpq.1 hd hkd o ho e he

end

end Treerack
