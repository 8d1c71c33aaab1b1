import Verif.Proofs.Linked
import Verif.Spec.Generated

/-
The statements written by `generate`: every definition that is reached is declared once, before it is
referenced, and the final value of its variable has the fields of its object.
-/

namespace Treerack

open Spec

/-- What is needed of the objects that are reached (`Q`): the walk recognizes them by their names, the variables are
named by their ids, and the characters, which are not recognized, are referenced only once. -/
structure Distinct (env : Env) (Q : Ptr → Prop) (key : PDef → Name) : Prop where
  def_ : ∀ {p}, Q p → ∃ d, env.defs[p]? = some d
  child : ∀ {p d q}, Q p → env.defs[p]? = some d → q ∈ d.kind.children → Q q
  keys : ∀ {p q d e}, Q p → Q q → env.defs[p]? = some d → env.defs[q]? = some e → d.kind.isChar = false →
    e.kind.isChar = false → key d = key e → p = q
  ids : ∀ {p q d e}, Q p → Q q → env.defs[p]? = some d → env.defs[q]? = some e → d.id = e.id → p = q
  once : ∀ {p q c d e f} {i j : Nat}, Q p → Q q → env.defs[p]? = some d → env.defs[q]? = some e →
    d.kind.children[i]? = some c → e.kind.children[j]? = some c → env.defs[c]? = some f → f.kind.isChar = true →
    p = q ∧ i = j

section

variable {env : Env} {Q : Ptr → Prop} {key : PDef → Name} {lit : PDef → Lit}

/-- A definition that was generated. -/
structure New (env : Env) (Q : Ptr → Prop) (key : PDef → Name) (done done' : List Name) (r : Ptr) (d : PDef) : Prop where
  reached : Q r
  at_ : env.defs[r]? = some d
  notChar : d.kind.isChar = false
  fresh : key d ∉ done
  gone : key d ∈ done'

/-- A character at an address. -/
def CharAt (env : Env) (c : Ptr) (e : PDef) : Prop := env.defs[c]? = some e ∧ e.kind.isChar = true

/-- The field with the references of a definition. -/
def PKind.field : PKind → Field
  | .seq _ _ _ => .items
  | _ => .options

/-- The statements for the definitions `ps`. -/
structure Generated (env : Env) (Q : Ptr → Prop) (key : PDef → Name) (lit : PDef → Lit) (done done' : List Name)
    (ss : List Stmt) (ps : List Ptr) : Prop where
  sub : ∀ x ∈ done, x ∈ done'
  visited : ∀ p ∈ ps, ∀ d, env.defs[p]? = some d → d.kind.isChar = false → key d ∈ done'
  hasChar : ∀ p ∈ ps, ∀ e, CharAt env p e → .declare e.id (lit e) ∈ ss
  once : (ss.flatMap declared).Nodup
  declares : ∀ x l, .declare x l ∈ ss → ∃ r d, Q r ∧ env.defs[r]? = some d ∧ x = d.id ∧ l = lit d ∧
    (New env Q key done done' r d ∨ CharAt env r d ∧
      (r ∈ ps ∨ ∃ q e, New env Q key done done' q e ∧ r ∈ e.kind.children))
  hasNew : ∀ r d, New env Q key done done' r d → .declare d.id (lit d) ∈ ss ∧
    (d.kind.children ≠ [] → ∃ ids, nodeIDs env d.kind.children = .ok ids ∧ .assign d.id d.kind.field ids ∈ ss) ∧
    ∀ c ∈ d.kind.children, ∀ e, env.defs[c]? = some e →
      (e.kind.isChar = true → .declare e.id (lit e) ∈ ss) ∧ (e.kind.isChar = false → key e ∈ done')
  assigns : ∀ x f refs, .assign x f refs ∈ ss → ∃ r d, New env Q key done done' r d ∧ x = d.id ∧ f = d.kind.field ∧
    nodeIDs env d.kind.children = .ok refs ∧ d.kind.children ≠ []
  before : ∀ pre st post, ss = pre ++ st :: post → ∀ x ∈ used st, x ∈ pre.flatMap declared ∨
    ∃ r d, Q r ∧ env.defs[r]? = some d ∧ d.kind.isChar = false ∧ key d ∈ done ∧ x = d.id

theorem declared_mem {ss : List Stmt} {x : Nat} : x ∈ ss.flatMap declared ↔ ∃ l, Stmt.declare x l ∈ ss := by
  rw [List.mem_flatMap]
  constructor
  · rintro ⟨st, h1, h2⟩
    cases st with
    | declare n l => simp only [declared, List.mem_singleton] at h2; subst h2; exact ⟨l, h1⟩
    | assign n f refs => simp [declared] at h2
  · rintro ⟨l, h⟩
    exact ⟨_, h, by simp [declared]⟩

theorem New.mono {a b a' b' : List Name} {r : Ptr} {d : PDef} (h : New env Q key a b r d) (h1 : ∀ x ∈ a', x ∈ a)
    (h2 : ∀ x ∈ b, x ∈ b') : New env Q key a' b' r d :=
  ⟨h.reached, h.at_, h.notChar, fun hc => h.fresh (h1 _ hc), h2 _ h.gone⟩

/-- Ids of the nodes. -/
theorem nodeIDs_spec (hQ : ∀ {p}, Q p → ∃ d, env.defs[p]? = some d) : ∀ (ps : List Ptr), (∀ p ∈ ps, Q p) →
    (nodeIDs env ps).Spec False False fun ids => ∀ x, x ∈ ids ↔ ∃ p ∈ ps, ∃ d, env.defs[p]? = some d ∧ x = d.id
  | [], _ => by simp [nodeIDs]
  | p :: ps, h => by
    obtain ⟨d, hd⟩ := hQ (h p (by simp))
    unfold nodeIDs
    rw [hd]
    simp only
    refine Res.Spec.bind (nodeIDs_spec hQ ps fun q hq => h q (by simp [hq])) ?_
    intro ids hi x
    simp only [List.mem_cons]
    rw [hi]
    constructor
    · rintro (rfl | ⟨q, h1, h2⟩)
      · exact ⟨p, Or.inl rfl, d, hd, rfl⟩
      · exact ⟨q, Or.inr h1, h2⟩
    · rintro ⟨q, rfl | h1, e, h2, rfl⟩
      · rw [hd] at h2; cases h2; exact Or.inl rfl
      · exact Or.inr ⟨q, h1, e, h2, rfl⟩

/-- Definitions that are not generated any more are not counted. -/
def unseen (env : Env) (key : PDef → Name) (done : List Name) : Nat :=
  env.defs.countP fun d => !d.kind.isChar && !done.contains (key d)

theorem unseen_mono {done done' : List Name} (h : ∀ x ∈ done, x ∈ done') : unseen env key done' ≤ unseen env key done := by
  unfold unseen
  apply List.countP_mono_left
  intro d _ hd
  simp only [Bool.and_eq_true, Bool.not_eq_true', ← Bool.not_eq_true, List.contains_iff_mem] at hd ⊢
  exact ⟨hd.1, fun hc => hd.2 (h _ hc)⟩

theorem unseen_lt {done : List Name} {p : Ptr} {d : PDef} (hd : env.defs[p]? = some d) (hk : d.kind.isChar = false)
    (hf : key d ∉ done) : unseen env key (key d :: done) < unseen env key done := by
  unfold unseen
  obtain ⟨a, b, hab⟩ := List.append_of_mem (List.mem_of_getElem? hd)
  rw [hab]
  simp only [List.countP_append, List.countP_cons]
  have h1 : ∀ l : List PDef, l.countP (fun e => !e.kind.isChar && !(key d :: done).contains (key e)) ≤
      l.countP (fun e => !e.kind.isChar && !done.contains (key e)) := by
    intro l
    apply List.countP_mono_left
    intro e _ he
    simp only [Bool.and_eq_true, Bool.not_eq_true', ← Bool.not_eq_true, List.contains_iff_mem] at he ⊢
    exact ⟨he.1, fun hc => he.2 (by simp [hc])⟩
  have h2 : (!d.kind.isChar && !(key d :: done).contains (key d)) = false := by simp
  have h3 : (!d.kind.isChar && !done.contains (key d)) = true := by simp [hk, hf]
  rw [h2, h3]
  have := h1 a
  have := h1 b
  simp only [Bool.false_eq_true, if_false, if_true]
  omega

/-- The characters in `ps` belong to a definition that is being generated. -/
def Owned (env : Env) (Q : Ptr → Prop) (key : PDef → Name) (done : List Name) (ps : List Ptr) : Prop :=
  ∀ c ∈ ps, ∀ e, CharAt env c e → ∃ r d, Q r ∧ env.defs[r]? = some d ∧ d.kind.isChar = false ∧ key d ∈ done ∧
    c ∈ d.kind.children

/-- The characters are not repeated. -/
def CharsOnce (env : Env) (ps : List Ptr) : Prop :=
  ps.Pairwise fun p q => p = q → ∀ e, ¬ CharAt env p e

theorem Generated.append (hD : Distinct env Q key) {a b c : List Name} {ss ss' : List Stmt} {ps ps' : List Ptr}
    (hQ : ∀ p ∈ ps ++ ps', Q p) (hown : Owned env Q key a (ps ++ ps')) (hone : CharsOnce env (ps ++ ps'))
    (h : Generated env Q key lit a b ss ps) (h' : Generated env Q key lit b c ss' ps') :
    Generated env Q key lit a c (ss ++ ss') (ps ++ ps') := by
  have hsplit : ∀ r d, New env Q key a c r d → New env Q key a b r d ∨ New env Q key b c r d := by
    intro r d hn
    by_cases hb : key d ∈ b
    · exact Or.inl ⟨hn.1, hn.2, hn.3, hn.4, hb⟩
    · exact Or.inr ⟨hn.1, hn.2, hn.3, hb, hn.5⟩
  have hl : ∀ {r d}, New env Q key a b r d → New env Q key a c r d := fun hn => hn.mono (fun _ h => h) h'.sub
  have hr : ∀ {r d}, New env Q key b c r d → New env Q key a c r d := fun hn => hn.mono h.sub fun _ h => h
  refine ⟨fun x hx => h'.sub x (h.sub x hx), ?_, ?_, ?_, ?_, ?_, ?_, ?_⟩
  · intro p hp d hd hk
    rcases List.mem_append.1 hp with hp | hp
    · exact h'.sub _ (h.visited p hp d hd hk)
    · exact h'.visited p hp d hd hk
  · intro p hp e he
    rcases List.mem_append.1 hp with hp | hp
    · exact List.mem_append.2 (Or.inl (h.hasChar p hp e he))
    · exact List.mem_append.2 (Or.inr (h'.hasChar p hp e he))
  · rw [List.flatMap_append, List.nodup_append]
    refine ⟨h.once, h'.once, ?_⟩
    rintro x hx y hy rfl
    obtain ⟨l, hx⟩ := declared_mem.1 hx
    obtain ⟨l', hy⟩ := declared_mem.1 hy
    obtain ⟨r, d, g1, g2, g3, -, g5⟩ := h.declares _ _ hx
    obtain ⟨r', d', g1', g2', g3', -, g5'⟩ := h'.declares _ _ hy
    have hrr := hD.ids g1 g1' g2 g2' (g3 ▸ g3')
    subst hrr
    rw [g2] at g2'
    cases g2'
    rcases g5 with hn | ⟨hc, g5⟩
    · rcases g5' with hn' | ⟨hc', -⟩
      · exact hn'.fresh hn.gone
      · exact absurd hn.notChar (by simp [hc'.2])
    · rcases g5' with hn' | ⟨-, g5'⟩
      · exact absurd hn'.notChar (by simp [hc.2])
      · rcases g5 with hp | ⟨q, e, hn, hq⟩
        · rcases g5' with hp' | ⟨q', e', hn', hq'⟩
          · exact (List.pairwise_append.1 hone).2.2 r hp r hp' rfl d hc
          · obtain ⟨o, od, o1, o2, o3, o4, o5⟩ := hown r (by simp [hp]) d hc
            obtain ⟨i, hi⟩ := List.getElem?_of_mem o5
            obtain ⟨j, hj⟩ := List.getElem?_of_mem hq'
            have := (hD.once o1 hn'.reached o2 hn'.at_ hi hj hc.1 hc.2).1
            subst this
            have hh := hn'.at_
            rw [o2] at hh
            cases hh
            exact hn'.fresh (h.sub _ o4)
        · rcases g5' with hp' | ⟨q', e', hn', hq'⟩
          · obtain ⟨o, od, o1, o2, o3, o4, o5⟩ := hown r (by simp [hp']) d hc
            obtain ⟨i, hi⟩ := List.getElem?_of_mem o5
            obtain ⟨j, hj⟩ := List.getElem?_of_mem hq
            have := (hD.once o1 hn.reached o2 hn.at_ hi hj hc.1 hc.2).1
            subst this
            have hh := hn.at_
            rw [o2] at hh
            cases hh
            exact hn.fresh o4
          · obtain ⟨i, hi⟩ := List.getElem?_of_mem hq
            obtain ⟨j, hj⟩ := List.getElem?_of_mem hq'
            have := (hD.once hn.reached hn'.reached hn.at_ hn'.at_ hi hj hc.1 hc.2).1
            subst this
            have hh := hn.at_
            rw [hn'.at_] at hh
            cases hh
            exact hn'.fresh hn.gone
  · intro x l hx
    rcases List.mem_append.1 hx with hx | hx
    · obtain ⟨r, d, g1, g2, g3, g4, g5⟩ := h.declares x l hx
      refine ⟨r, d, g1, g2, g3, g4, ?_⟩
      rcases g5 with hn | ⟨hc, hp | ⟨q, e, hn, hq⟩⟩
      · exact Or.inl (hl hn)
      · exact Or.inr ⟨hc, Or.inl (by simp [hp])⟩
      · exact Or.inr ⟨hc, Or.inr ⟨q, e, hl hn, hq⟩⟩
    · obtain ⟨r, d, g1, g2, g3, g4, g5⟩ := h'.declares x l hx
      refine ⟨r, d, g1, g2, g3, g4, ?_⟩
      rcases g5 with hn | ⟨hc, hp | ⟨q, e, hn, hq⟩⟩
      · exact Or.inl (hr hn)
      · exact Or.inr ⟨hc, Or.inl (by simp [hp])⟩
      · exact Or.inr ⟨hc, Or.inr ⟨q, e, hr hn, hq⟩⟩
  · intro r d hn
    rcases hsplit r d hn with hn | hn
    · obtain ⟨g1, g2, g3⟩ := h.hasNew r d hn
      refine ⟨List.mem_append.2 (Or.inl g1), fun hc => ?_, fun c hc e he => ?_⟩
      · obtain ⟨ids, k1, k2⟩ := g2 hc
        exact ⟨ids, k1, List.mem_append.2 (Or.inl k2)⟩
      · exact ⟨fun hk => List.mem_append.2 (Or.inl ((g3 c hc e he).1 hk)), fun hk => h'.sub _ ((g3 c hc e he).2 hk)⟩
    · obtain ⟨g1, g2, g3⟩ := h'.hasNew r d hn
      refine ⟨List.mem_append.2 (Or.inr g1), fun hc => ?_, fun c hc e he => ?_⟩
      · obtain ⟨ids, k1, k2⟩ := g2 hc
        exact ⟨ids, k1, List.mem_append.2 (Or.inr k2)⟩
      · exact ⟨fun hk => List.mem_append.2 (Or.inr ((g3 c hc e he).1 hk)), (g3 c hc e he).2⟩
  · intro x f refs hx
    rcases List.mem_append.1 hx with hx | hx
    · obtain ⟨r, d, hn, g⟩ := h.assigns x f refs hx
      exact ⟨r, d, hl hn, g⟩
    · obtain ⟨r, d, hn, g⟩ := h'.assigns x f refs hx
      exact ⟨r, d, hr hn, g⟩
  · intro pre st post he x hx
    rcases List.append_eq_append_iff.1 he with ⟨m, h1, h2⟩ | ⟨m, h1, h2⟩
    · -- the statement is in the second part
      subst h1
      rcases h'.before m st post h2 x hx with hx | ⟨r, d, g1, g2, g3, g4, rfl⟩
      · exact Or.inl (by rw [List.flatMap_append]; exact List.mem_append.2 (Or.inr hx))
      · by_cases ha : key d ∈ a
        · exact Or.inr ⟨r, d, g1, g2, g3, ha, rfl⟩
        · left
          have := (h.hasNew r d ⟨g1, g2, g3, ha, g4⟩).1
          rw [List.flatMap_append]
          exact List.mem_append.2 (Or.inl (declared_mem.2 ⟨_, this⟩))
    · cases m with
      | nil =>
        simp only [List.append_nil] at h1
        simp only [List.nil_append] at h2
        subst h1
        rcases h'.before [] st post h2.symm x hx with hx | ⟨r, d, g1, g2, g3, g4, rfl⟩
        · simp at hx
        · by_cases ha : key d ∈ a
          · exact Or.inr ⟨r, d, g1, g2, g3, ha, rfl⟩
          · left
            exact declared_mem.2 ⟨_, (h.hasNew r d ⟨g1, g2, g3, ha, g4⟩).1⟩
      | cons st' m =>
        simp only [List.cons_append, List.cons.injEq] at h2
        obtain ⟨rfl, h2⟩ := h2
        exact h.before pre st m h1 x hx

theorem Generated.nil (done : List Name) : Generated env Q key lit done done [] [] := by
  refine ⟨fun _ h => h, by simp, by simp, by simp, by simp, fun r d hn => absurd hn.gone hn.fresh, by simp, ?_⟩
  intro pre st post he
  cases pre <;> cases he

/-- The loop over the options or items. -/
theorem generateAll_spec (hD : Distinct env Q key) {rec : Ptr → List Name → Res (List Stmt × List Name)} {n : Nat}
    (hrec : ∀ p done, Q p → unseen env key done < n → Owned env Q key done [p] →
      (rec p done).Spec False False fun x => Generated env Q key lit done x.2 x.1 [p]) :
    ∀ (ps : List Ptr) (done : List Name), (∀ p ∈ ps, Q p) → unseen env key done < n → Owned env Q key done ps →
      CharsOnce env ps →
      (generateAll rec ps done).Spec False False fun x => Generated env Q key lit done x.2 x.1 ps
  | [], done, _, _, _, _ => Generated.nil done
  | p :: ps, done, hQ, hn, hown, hone => by
    unfold generateAll
    refine Res.Spec.bind (hrec p done (hQ p (by simp)) hn fun c hc => hown c (by
      simp only [List.mem_singleton] at hc; simp [hc])) ?_
    rintro ⟨ss, done1⟩ h1
    simp only at h1 ⊢
    refine Res.Spec.bind (generateAll_spec hD hrec ps done1 (fun q hq => hQ q (by simp [hq]))
      (Nat.lt_of_le_of_lt (unseen_mono h1.sub) hn) (fun c hc e he => ?_) (List.pairwise_cons.1 hone).2) ?_
    · obtain ⟨r, d, g1, g2, g3, g4, g5⟩ := hown c (by simp [hc]) e he
      exact ⟨r, d, g1, g2, g3, h1.sub _ g4, g5⟩
    · rintro ⟨ss', done2⟩ h2
      simp only at h2
      exact Generated.append hD (ps := [p]) (fun q hq => hQ q hq) hown hone h1 h2

/-- One definition with its options or items. -/
theorem Generated.node (hD : Distinct env Q key) {p : Ptr} {d : PDef} (hQ : Q p) (hd : env.defs[p]? = some d)
    (hk : d.kind.isChar = false) {done done' : List Name} (hf : key d ∉ done) {ss tail : List Stmt}
    (h : Generated env Q key lit (key d :: done) done' ss d.kind.children)
    (ht : d.kind.children = [] ∧ tail = [] ∨
      d.kind.children ≠ [] ∧ ∃ ids, nodeIDs env d.kind.children = .ok ids ∧ tail = [.assign d.id d.kind.field ids]) :
    Generated env Q key lit done done' (.declare d.id (lit d) :: ss ++ tail) [p] := by
  have hself : New env Q key done done' p d := ⟨hQ, hd, hk, hf, h.sub _ (by simp)⟩
  have hsplit : ∀ r e, New env Q key done done' r e → (r = p ∧ e = d) ∨ New env Q key (key d :: done) done' r e := by
    intro r e hn
    by_cases hc : key e = key d
    · have := hD.keys hn.reached hQ hn.at_ hd hn.notChar hk hc
      subst this
      have hh := hn.at_
      rw [hd] at hh
      cases hh
      exact Or.inl ⟨rfl, rfl⟩
    · refine Or.inr ⟨hn.1, hn.2, hn.3, ?_, hn.5⟩
      intro hm
      rcases List.mem_cons.1 hm with hm | hm
      · exact hc hm
      · exact hn.fresh hm
  have hup : ∀ {r e}, New env Q key (key d :: done) done' r e → New env Q key done done' r e :=
    fun hn => hn.mono (fun x hx => by simp [hx]) fun _ h => h
  have htail : tail.flatMap declared = [] := by
    rcases ht with ⟨-, rfl⟩ | ⟨-, ids, -, rfl⟩ <;> simp [declared]
  have hmt : ∀ x l, Stmt.declare x l ∉ tail := by
    intro x l hx
    have := declared_mem.2 ⟨l, hx⟩
    rw [htail] at this
    cases this
  have hids : ∀ ids, nodeIDs env d.kind.children = .ok ids → ∀ x ∈ ids,
      x ∈ ss.flatMap declared ∨ x = d.id ∨
      ∃ r e, Q r ∧ env.defs[r]? = some e ∧ e.kind.isChar = false ∧ key e ∈ done ∧ x = e.id := by
    intro ids hi x hx
    have hspec := (nodeIDs_spec hD.def_ d.kind.children fun q hq => hD.child hQ hd hq).of_eq hi
    obtain ⟨q, hq, e, he, rfl⟩ := (hspec x).1 hx
    cases hc : e.kind.isChar with
    | true => exact Or.inl (declared_mem.2 ⟨_, h.hasChar q hq e ⟨he, hc⟩⟩)
    | false =>
      have hv := h.visited q hq e he hc
      by_cases hdn : key e ∈ done
      · exact Or.inr (Or.inr ⟨q, e, hD.child hQ hd hq, he, hc, hdn, rfl⟩)
      · rcases hsplit q e ⟨hD.child hQ hd hq, he, hc, hdn, hv⟩ with ⟨-, rfl⟩ | hn
        · exact Or.inr (Or.inl rfl)
        · exact Or.inl (declared_mem.2 ⟨_, (h.hasNew q e hn).1⟩)
  refine ⟨fun x hx => h.sub x (by simp [hx]), ?_, ?_, ?_, ?_, ?_, ?_, ?_⟩
  · intro q hq e he _
    simp only [List.mem_singleton] at hq
    subst hq
    rw [hd] at he
    cases he
    exact hself.gone
  · intro q hq e he
    simp only [List.mem_singleton] at hq
    subst hq
    have := he.1
    rw [hd] at this
    cases this
    exact absurd he.2 (by simp [hk])
  · rw [List.cons_append, List.flatMap_cons, List.flatMap_append, htail, List.append_nil]
    simp only [declared, List.cons_append, List.nil_append, List.nodup_cons]
    refine ⟨fun hc => ?_, h.once⟩
    obtain ⟨l, hc⟩ := declared_mem.1 hc
    obtain ⟨r, e, g1, g2, g3, -, g5⟩ := h.declares _ _ hc
    have := hD.ids hQ g1 hd g2 g3
    subst this
    rw [hd] at g2
    cases g2
    rcases g5 with hn | ⟨hc, -⟩
    · exact hn.fresh (by simp)
    · exact absurd hc.2 (by simp [hk])
  · intro x l hx
    rw [List.cons_append] at hx
    rcases List.mem_cons.1 hx with hx | hx
    · cases hx
      exact ⟨p, d, hQ, hd, rfl, rfl, Or.inl hself⟩
    · rcases List.mem_append.1 hx with hx | hx
      · obtain ⟨r, e, g1, g2, g3, g4, g5⟩ := h.declares x l hx
        refine ⟨r, e, g1, g2, g3, g4, ?_⟩
        rcases g5 with hn | ⟨hc, hp | ⟨q, f, hn, hq⟩⟩
        · exact Or.inl (hup hn)
        · exact Or.inr ⟨hc, Or.inr ⟨p, d, hself, hp⟩⟩
        · exact Or.inr ⟨hc, Or.inr ⟨q, f, hup hn, hq⟩⟩
      · exact absurd hx (hmt _ _)
  · intro r e hn
    rcases hsplit r e hn with ⟨rfl, rfl⟩ | hn
    · refine ⟨by simp, fun hc => ?_, fun c hc f hf' => ⟨fun hcf => ?_, fun hcf => h.visited c hc f hf' hcf⟩⟩
      · rcases ht with ⟨h0, -⟩ | ⟨-, ids, hi, rfl⟩
        · exact absurd h0 hc
        · exact ⟨ids, hi, by simp⟩
      · rw [List.cons_append]
        exact List.mem_cons_of_mem _ (List.mem_append.2 (Or.inl (h.hasChar c hc f ⟨hf', hcf⟩)))
    · obtain ⟨g1, g2, g3⟩ := h.hasNew r e hn
      rw [List.cons_append]
      refine ⟨List.mem_cons_of_mem _ (List.mem_append.2 (Or.inl g1)), fun hc => ?_, fun c hc f hf' => ?_⟩
      · obtain ⟨ids, k1, k2⟩ := g2 hc
        exact ⟨ids, k1, List.mem_cons_of_mem _ (List.mem_append.2 (Or.inl k2))⟩
      · exact ⟨fun hcf => List.mem_cons_of_mem _ (List.mem_append.2 (Or.inl ((g3 c hc f hf').1 hcf))), (g3 c hc f hf').2⟩
  · intro x f refs hx
    rw [List.cons_append] at hx
    rcases List.mem_cons.1 hx with hx | hx
    · cases hx
    · rcases List.mem_append.1 hx with hx | hx
      · obtain ⟨r, e, hn, g⟩ := h.assigns x f refs hx
        exact ⟨r, e, hup hn, g⟩
      · rcases ht with ⟨-, rfl⟩ | ⟨hne, ids, hi, rfl⟩
        · cases hx
        · simp only [List.mem_singleton, Stmt.assign.injEq] at hx
          obtain ⟨rfl, rfl, rfl⟩ := hx
          exact ⟨p, d, hself, rfl, rfl, hi, hne⟩
  · intro pre st post he x hx
    rw [List.cons_append] at he
    cases pre with
    | nil =>
      simp only [List.nil_append, List.cons.injEq] at he
      rw [← he.1] at hx
      simp [used] at hx
    | cons s0 pre =>
      simp only [List.cons_append, List.cons.injEq] at he
      obtain ⟨rfl, he⟩ := he
      simp only [List.flatMap_cons, declared, List.cons_append, List.nil_append, List.mem_cons]
      have hin : ∀ m, ss = pre ++ st :: m → x = d.id ∨ x ∈ pre.flatMap declared ∨
          ∃ r e, Q r ∧ env.defs[r]? = some e ∧ e.kind.isChar = false ∧ key e ∈ done ∧ x = e.id := by
        intro m hm
        rcases h.before pre st m hm x hx with hx | ⟨r, e, g1, g2, g3, g4, rfl⟩
        · exact Or.inr (Or.inl hx)
        · rcases List.mem_cons.1 g4 with g4 | g4
          · have := hD.keys g1 hQ g2 hd g3 hk g4
            subst this
            rw [hd] at g2
            cases g2
            exact Or.inl rfl
          · exact Or.inr (Or.inr ⟨r, e, g1, g2, g3, g4, rfl⟩)
      have hout : ∀ ids, nodeIDs env d.kind.children = .ok ids → pre = ss → st = .assign d.id d.kind.field ids →
          x = d.id ∨ x ∈ pre.flatMap declared ∨
          ∃ r e, Q r ∧ env.defs[r]? = some e ∧ e.kind.isChar = false ∧ key e ∈ done ∧ x = e.id := by
        rintro ids hi rfl rfl
        simp only [used, List.mem_cons] at hx
        rcases hx with hx | hx
        · exact Or.inl hx
        · rcases hids ids hi x hx with h1 | h1 | h1
          · exact Or.inr (Or.inl h1)
          · exact Or.inl h1
          · exact Or.inr (Or.inr h1)
      have hgoal : x = d.id ∨ x ∈ pre.flatMap declared ∨
          ∃ r e, Q r ∧ env.defs[r]? = some e ∧ e.kind.isChar = false ∧ key e ∈ done ∧ x = e.id := by
        rcases ht with ⟨-, rfl⟩ | ⟨-, ids, hi, rfl⟩
        · rw [List.append_nil] at he
          exact hin post he
        · rcases List.append_eq_append_iff.1 he with ⟨m, h1, h2⟩ | ⟨m, h1, h2⟩
          · cases m with
            | nil =>
              simp only [List.nil_append, List.cons.injEq] at h2
              exact hout ids hi (by simpa using h1) h2.1.symm
            | cons y m =>
              simp only [List.cons_append, List.cons.injEq] at h2
              have := h2.2
              cases m <;> cases this
          · cases m with
            | nil =>
              simp only [List.nil_append, List.cons.injEq] at h2
              exact hout ids hi (by simpa using h1.symm) h2.1
            | cons y m =>
              simp only [List.cons_append, List.cons.injEq] at h2
              obtain ⟨rfl, -⟩ := h2
              exact hin m h1
      rcases hgoal with h1 | h1 | h1
      · exact Or.inl (Or.inl h1)
      · exact Or.inl (Or.inr h1)
      · exact Or.inr h1

theorem charsOnce_children (hD : Distinct env Q key) {p : Ptr} {d : PDef} (hQ : Q p) (hd : env.defs[p]? = some d) :
    CharsOnce env d.kind.children := by
  rw [CharsOnce, List.pairwise_iff_getElem]
  intro i j hi hj hij he e hc
  have := (hD.once (i := i) (j := j) hQ hQ hd hd (List.getElem?_eq_getElem hi)
    (by rw [List.getElem?_eq_getElem hj, he]) hc.1 hc.2).2
  omega

theorem generate_spec (hD : Distinct env Q key) : ∀ (n : Nat) (p : Ptr) (done : List Name), Q p →
    unseen env key done < n → Owned env Q key done [p] →
    (generate env key lit n p done).Spec False False fun x => Generated env Q key lit done x.2 x.1 [p]
  | 0, _, _, _, h, _ => absurd h (Nat.not_lt_zero _)
  | n + 1, p, done, hQ, hn, hown => by
    obtain ⟨d, hd⟩ := hD.def_ hQ
    unfold generate
    rw [hd]
    simp only
    have hgo : ∀ children, d.kind.children = children → d.kind.isChar = false →
        Res.Spec (if done.contains (key d) = true then .ok ([], done)
          else (generateAll (generate env key lit n) children (key d :: done)).bind fun x =>
            if children.isEmpty = true then .ok (.declare d.id (lit d) :: x.1, x.2)
            else (nodeIDs env children).bind fun ids =>
              .ok (.declare d.id (lit d) :: x.1 ++ [.assign d.id d.kind.field ids], x.2)) False False
          fun x => Generated env Q key lit done x.2 x.1 [p] := by
      rintro children rfl hk
      split
      · rename_i hc
        rw [List.contains_iff_mem] at hc
        refine ⟨fun _ h => h, ?_, ?_, by simp, by simp, fun r e hn => absurd hn.gone hn.fresh, by simp, ?_⟩
        · intro q hq e he _
          simp only [List.mem_singleton] at hq
          subst hq
          rw [hd] at he
          cases he
          exact hc
        · intro q hq e he
          simp only [List.mem_singleton] at hq
          subst hq
          have := he.1
          rw [hd] at this
          cases this
          exact absurd he.2 (by simp [hk])
        · intro pre st post he
          cases pre <;> cases he
      · rename_i hc
        have hf : key d ∉ done := fun hm => hc (List.contains_iff_mem.2 hm)
        have hlt := unseen_lt hd hk hf
        refine Res.Spec.bind (generateAll_spec hD (n := n) (fun q dn h1 h2 h3 => generate_spec hD n q dn h1 h2 h3)
          d.kind.children (key d :: done) (fun q hq => hD.child hQ hd hq) (by omega)
          (fun c hc' e he => ⟨p, d, hQ, hd, hk, by simp, hc'⟩) (charsOnce_children hD hQ hd)) ?_
        rintro ⟨ss, done'⟩ h
        simp only at h ⊢
        by_cases hemp : d.kind.children = []
        · rw [hemp]
          simp only [List.isEmpty_nil, if_true, Res.Spec.ok_iff]
          have := Generated.node hD hQ hd hk hf h (tail := []) (Or.inl ⟨hemp, rfl⟩)
          simpa using this
        · rw [if_neg (by simpa using hemp)]
          have hsp := nodeIDs_spec hD.def_ d.kind.children fun q hq => hD.child hQ hd hq
          cases hi : nodeIDs env d.kind.children with
          | panic => rw [hi] at hsp; exact hsp.elim
          | oof => rw [hi] at hsp; exact hsp.elim
          | ok ids =>
            simp only [Res.bind_ok, Res.Spec.ok_iff]
            exact Generated.node hD hQ hd hk hf h (Or.inr ⟨hemp, ids, hi, rfl⟩)
    cases hkind : d.kind with
    | choice os =>
      have := hgo os (by simp [hkind, PKind.children]) (by simp [hkind, PKind.isChar])
      rw [hkind] at this
      exact this
    | seq is rs ac =>
      have := hgo is (by simp [hkind, PKind.children]) (by simp [hkind, PKind.isChar])
      rw [hkind] at this
      exact this
    | char neg cs rs =>
      have hc : CharAt env p d := ⟨hd, by simp [hkind, PKind.isChar]⟩
      simp only [Res.Spec.ok_iff]
      refine ⟨fun _ h => h, ?_, ?_, by simp [declared], ?_, fun r e hn => absurd hn.gone hn.fresh, by simp, ?_⟩
      · intro q hq e he hk
        simp only [List.mem_singleton] at hq
        subst hq
        rw [hd] at he
        cases he
        exact absurd hc.2 (by simp [hk])
      · intro q hq e he
        simp only [List.mem_singleton] at hq
        subst hq
        have := he.1
        rw [hd] at this
        cases this
        simp
      · intro x l hx
        simp only [List.mem_singleton, Stmt.declare.injEq] at hx
        obtain ⟨rfl, rfl⟩ := hx
        exact ⟨p, d, hQ, hd, rfl, rfl, Or.inr ⟨hc, Or.inl (by simp)⟩⟩
      · intro pre st post he x hx
        cases pre with
        | nil =>
          simp only [List.nil_append, List.cons.injEq] at he
          rw [← he.1] at hx
          simp [used] at hx
        | cons a pre => cases pre <;> simp at he

end

end Treerack
