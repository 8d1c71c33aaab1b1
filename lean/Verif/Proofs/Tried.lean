import Verif.Proofs.Extend
import Verif.Proofs.Definitions

/-
Rejected steps.
-/

namespace Treerack
open Spec

theorem rejected_orphan {s s' : Syntax} {d : Def} {e : SynErr} (hi : s.initialized = false)
    (h : s.register d = (s', some e))
    (hh : (s.explicitRoot = true ∧ d.commitType.keyword = false) ∨ e ≠ .duplicateDefinition d.name) :
    s' = { s with heap := s.heap ++ [d] } := by
  unfold Syntax.register at h
  rw [if_neg (by simp [hi])] at h
  simp only at h
  cases hc : d.commitType.incompatible with
  | true => rw [if_pos hc] at h; cases h; rfl
  | false =>
    rw [if_neg (by simp [hc])] at h
    have ha := applyRoot_any (s := { s with heap := s.heap ++ [d] }) (p := s.heap.length) (d := d) (by simp)
    split at ha
    · rw [ha] at h; cases h; rfl
    · rename_i hh'
      obtain ⟨s1, d1, h1, h2, h3, h4, h5⟩ := ha
      rcases hh with ⟨he, hk⟩ | he
      · -- nothing is changed by `applyRoot`
        have hr : d.commitType.root = false := by
          cases hr : d.commitType.root with
          | false => rfl
          | true => exact absurd ⟨hr, he⟩ hh'
        have hs1 : s1 = { s with heap := s.heap ++ [d] } := by
          unfold Syntax.applyRoot at h1
          simp only [commitOf_append, hr, he] at h1
          cases hsr : s.root <;> rw [hsr] at h1 <;> simp at h1 <;> rw [← h1] <;> simp [he]
        rw [h1] at h
        simp only [hs1, commitOf_append, hk, Bool.false_eq_true, if_false] at h
        unfold Registry.setDefinition at h
        simp only [List.getElem?_append_right, Nat.le_refl, Nat.sub_self, List.getElem?_cons_zero] at h
        cases hl : s.registry.lookup d.name with
        | none => rw [hl] at h; cases h
        | some q => rw [hl] at h; cases h; rfl
      · rw [h1] at h
        simp only at h h2
        generalize hs2 : (if (Syntax.commitOf s1.heap s.heap.length).keyword = true then
          { s1 with keywords := s1.keywords ++ [s.heap.length] } else s1) = s2 at h
        have b1 : s2.heap = s1.heap := by rw [← hs2]; split <;> rfl
        have b2 : s2.registry = s.registry := by rw [← hs2, ← h2]; split <;> rfl
        unfold Registry.setDefinition at h
        rw [b1, b2, h3] at h
        simp only [h4] at h
        cases hl : s.registry.lookup d.name with
        | none => rw [hl] at h; cases h
        | some q => rw [hl] at h; cases h; exact absurd rfl he

theorem Ext.orphanR {X : Name → Prop} {s t : Syntax} (h : Ext X s t) {d : Def} (hd : RawDef d) :
    Ext X s { t with heap := t.heap ++ [d] } := by
  have ho := Ext.orphan h.invT d (h.invT.garbage hd)
  have hroot : t.rootN = ({ t with heap := t.heap ++ [d] } : Syntax).rootN := by
    rcases ho.root with ⟨_, h, -⟩ | h
    · exact h.elim
    · exact h
  refine ⟨h.invS, ho.invT, fun n hn => (h.body n hn).trans (ho.body n id), h.fresh,
    fun n hn => by rw [← ho.body n id]; exact h.there n hn, ?_, h.keywords.trans ho.keywords,
    h.explicit.trans ho.explicit, h.ws.trans ho.ws⟩
  rw [← hroot]; exact h.root

/-- A registration that is accepted with more definitions is accepted with less definitions. -/
theorem Ext.accepts {X : Name → Prop} {s t : Syntax} (h : Ext X s t) {d : Def} {t' : Syntax}
    (ht : t.register d = (t', none)) : ∃ s', s.register d = (s', none) := by
  have h1 := register_none.1 (show (t.register d).2 = none by rw [ht])
  refine ⟨_, Prod.ext rfl (register_none.2 ⟨h.invS.initialized, h1.2.1, ?_, ?_⟩)⟩
  · rw [h.explicit]; exact h1.2.2.1
  · by_cases hx : X d.name
    · exact h.invS.body_none.1 (h.fresh _ hx)
    · exact h.invS.body_none.1 ((h.body _ hx).trans (h.invT.body_none.2 h1.2.2.2))

theorem Ext.acceptsAll {X : Name → Prop} {s t : Syntax} (h : Ext X s t) : ∀ {ds : List Def}, (∀ d ∈ ds, RawDef d) →
    ∀ {t' : Syntax}, t.registers ds = (t', none) → ∃ s', s.registers ds = (s', none) := by
  intro ds
  induction ds generalizing s t with
  | nil => intro _ t' _; exact ⟨s, rfl⟩
  | cons d ds ih =>
    intro hd t' ht
    simp only [Syntax.registers] at ht ⊢
    cases h2 : t.register d with
    | mk t1 e2 =>
      rw [h2] at ht
      cases e2 with
      | some e => simp at ht
      | none =>
        obtain ⟨s1, h1⟩ := h.accepts h2
        rw [h1]
        exact ih (h.both (hd d (by simp)) h1 h2) (fun d' h' => hd d' (by simp [h'])) ht

theorem act_accepts {X : Name → Prop} {s t : Syntax} (h : Ext X s t) {a : Act} {t' : Syntax}
    (ht : t.act a = (t', none)) : ∃ s', s.act a = (s', none) := by
  obtain ⟨s', hs⟩ := h.acceptsAll (act_raw a) (act_ok ht)
  refine ⟨s', ?_⟩
  rw [act_registers] at ht ⊢
  cases a with
  | api c =>
    simp only at ht ⊢
    split at ht
    · simp at ht
    · rename_i hv; rw [if_neg hv]; exact hs
  | document c => exact hs

theorem acts_snoc {s s' s'' : Syntax} : ∀ {as : List Act} {a : Act}, s.acts as = some s' → s'.act a = (s'', none) →
    s.acts (as ++ [a]) = some s'' := by
  intro as
  induction as generalizing s with
  | nil =>
    intro a h h'
    cases h
    simp only [List.nil_append, Syntax.acts]
    rw [h']
  | cons b as ih =>
    intro a h h'
    simp only [List.cons_append, Syntax.acts] at h ⊢
    cases hb : s.act b with
    | mk s1 e =>
      rw [hb] at h
      cases e with
      | some e => cases h
      | none => exact ih h h'

theorem acts_made_from {s s' : Syntax} {pre : List Call} (h : Made pre s) : ∀ {as : List Act}, s.acts as = some s' →
    Made (pre ++ as.map Act.call) s' := by
  intro as
  induction as generalizing s pre with
  | nil => intro h'; cases h'; simpa using h
  | cons a as ih =>
    intro h'
    simp only [Syntax.acts] at h'
    cases ha : s.act a with
    | mk s1 e =>
      rw [ha] at h'
      cases e with
      | some e => cases h'
      | none =>
        have h1 : Made (pre ++ [a.call]) s1 := by
          cases a with
          | api c => exact .call h ha
          | document c => exact .document h ha
        have := ih h1 h'
        simpa using this

theorem acts_made {s : Syntax} {as : List Act} (h : Syntax.acts {} as = some s) : Made (as.map Act.call) s := by
  have := acts_made_from .empty h
  simpa using this

theorem acts_append {s t : Syntax} : ∀ {as bs : List Act}, s.acts (as ++ bs) = some t →
    ∃ u, s.acts as = some u ∧ u.acts bs = some t := by
  intro as
  induction as generalizing s with
  | nil => intro bs h; exact ⟨s, rfl, h⟩
  | cons a as ih =>
    intro bs h
    simp only [List.cons_append, Syntax.acts] at h ⊢
    cases ha : s.act a with
    | mk s1 e =>
      rw [ha] at h
      cases e with
      | some e => cases h
      | none => exact ih h

/-- The flags of the objects of a definition. -/
theorem objects_flags {c : Call} {ct : Commit} {d : Def} (hd : d ∈ c.objects ct) (hr : ct.root = false)
    (hk : ct.keyword = false) (hw : ct.whitespace = false) :
    d.commitType.root = false ∧ d.commitType.keyword = false ∧ d.commitType.whitespace = false := by
  cases c with
  | anyChar n _ =>
    simp only [Call.objects, List.mem_cons, List.not_mem_nil, or_false] at hd
    rcases hd with rfl | rfl
    · exact ⟨rfl, rfl, rfl⟩
    · exact ⟨hr, hk, hw⟩
  | class_ n _ neg cs rs =>
    simp only [Call.objects, List.mem_cons, List.not_mem_nil, or_false] at hd
    rcases hd with rfl | rfl
    · exact ⟨rfl, rfl, rfl⟩
    · exact ⟨hr, hk, hw⟩
  | charSequence n _ cs =>
    simp only [Call.objects, List.mem_append, List.mem_map, List.mem_cons, List.not_mem_nil, or_false] at hd
    rcases hd with ⟨x, -, rfl⟩ | rfl
    · exact ⟨rfl, rfl, rfl⟩
    · exact ⟨hr, hk, hw⟩
  | sequence n _ items =>
    simp only [Call.objects, List.mem_cons, List.not_mem_nil, or_false] at hd
    subst hd; exact ⟨hr, hk, hw⟩
  | choice n _ os =>
    simp only [Call.objects, List.mem_cons, List.not_mem_nil, or_false] at hd
    subst hd; exact ⟨hr, hk, hw⟩

theorem objects_names (c : Call) (ct : Commit) : (c.objects ct).map Def.name = c.defs.map Prod.fst := by
  cases c <;>
    simp [Call.objects, Call.defs, newChar, newSequence, newChoice, charDef, charName_eq, Function.comp_def]

theorem act_names (a : Act) : a.objects.map Def.name = a.call.defs.map Prod.fst := by
  cases a <;> exact objects_names _ _

theorem act_flags {a : Act} {d : Def} (hd : d ∈ a.objects) (hr : a.call.commit.root = false)
    (hk : a.call.commit.keyword = false) (hw : a.call.commit.whitespace = false) :
    d.commitType.root = false ∧ d.commitType.keyword = false ∧ d.commitType.whitespace = false := by
  cases a with
  | api c => exact objects_flags hd hr hk hw
  | document c => exact objects_flags hd hr hk hw

/-! ### rejected steps -/

theorem objects_chars {c : Call} {ct : Commit} {d : Def} (hd : d ∈ (c.objects ct).dropLast) : d.kind.isChar = true := by
  cases c with
  | anyChar n _ =>
    simp only [Call.objects, List.dropLast, List.mem_cons, List.not_mem_nil, or_false] at hd
    subst hd; rfl
  | class_ n _ neg cs rs =>
    simp only [Call.objects, List.dropLast, List.mem_cons, List.not_mem_nil, or_false] at hd
    subst hd; rfl
  | charSequence n _ cs =>
    simp only [Call.objects, List.dropLast_concat, List.mem_map] at hd
    obtain ⟨x, -, rfl⟩ := hd
    rfl
  | sequence n _ items => simp [Call.objects] at hd
  | choice n _ os => simp [Call.objects] at hd

theorem objects_keyword {c : Call} {ct : Commit} {d : Def} (hd : d ∈ c.objects ct) (hk : ct.keyword = false) :
    d.commitType.keyword = false := by
  cases c with
  | anyChar n _ =>
    simp only [Call.objects, List.mem_cons, List.not_mem_nil, or_false] at hd
    rcases hd with rfl | rfl
    · rfl
    · exact hk
  | class_ n _ neg cs rs =>
    simp only [Call.objects, List.mem_cons, List.not_mem_nil, or_false] at hd
    rcases hd with rfl | rfl
    · rfl
    · exact hk
  | charSequence n _ cs =>
    simp only [Call.objects, List.mem_append, List.mem_map, List.mem_cons, List.not_mem_nil, or_false] at hd
    rcases hd with ⟨x, -, rfl⟩ | rfl
    · rfl
    · exact hk
  | sequence n _ items =>
    simp only [Call.objects, List.mem_cons, List.not_mem_nil, or_false] at hd
    subst hd; exact hk
  | choice n _ os =>
    simp only [Call.objects, List.mem_cons, List.not_mem_nil, or_false] at hd
    subst hd; exact hk

theorem orphan_whitespace {s : Syntax} (hs : SInv s) (d : Def) :
    ({ s with heap := s.heap ++ [d] } : Syntax).HasWhitespace → s.HasWhitespace := by
  rintro ⟨p, hp, h⟩
  refine ⟨p, hp, ?_⟩
  unfold Syntax.commitOf at h ⊢
  simp only at h hp
  rwa [List.getElem?_append_left (hs.mem_lt hp)] at h

/-- The syntax `s` after some steps, some of which were rejected, and `t` after the accepted ones. -/
structure Leftover (X : Name → Prop) (t s : Syntax) : Prop where
  ext : Ext X t s
  root : t.rootN = s.rootN
  whitespace : s.HasWhitespace → t.HasWhitespace
  chars : ∀ n ct k, X n → s.body n = some (ct, k) → k.isChar = true

theorem Leftover.orphan {X : Name → Prop} {t s : Syntax} (h : Leftover X t s) {d : Def} (hd : RawDef d) :
    Leftover X t { s with heap := s.heap ++ [d] } := by
  have ho := Ext.orphan h.ext.invT d (h.ext.invT.garbage hd)
  refine ⟨h.ext.orphanR hd, ?_, fun hw => h.whitespace (orphan_whitespace h.ext.invT d hw),
    fun n ct k hn hb => h.chars n ct k hn (by rw [ho.body n id]; exact hb)⟩
  rcases ho.root with ⟨_, h, -⟩ | h'
  · exact h.elim
  · exact h.root.trans h'

theorem Leftover.rejected {X : Name → Prop} {t s : Syntax} (h : Leftover X t s) (he : s.explicitRoot = true) :
    ∀ {ds : List Def}, (∀ d ∈ ds, RawDef d) → (∀ d ∈ ds, d.commitType.keyword = false) →
    (∀ d ∈ ds.dropLast, d.kind.isChar = true) → ∀ {s' : Syntax} {e : SynErr}, s.registers ds = (s', some e) →
    ∃ X', Leftover X' t s' := by
  intro ds
  induction ds generalizing X s with
  | nil => intro _ _ _ s' e h'; cases h'
  | cons d ds ih =>
    intro hd hk hc s' e h'
    simp only [Syntax.registers] at h'
    cases h1 : s.register d with
    | mk s1 e1 =>
      rw [h1] at h'
      cases e1 with
      | some e1 =>
        simp only [Prod.mk.injEq, Option.some.injEq] at h'
        rw [← h'.1, rejected_orphan h.ext.invT.initialized h1 (.inl ⟨he, hk d (by simp)⟩)]
        exact ⟨X, h.orphan (hd d (by simp))⟩
      | none =>
        cases ds with
        | nil => cases h'
        | cons d' ds =>
          have hch := hc d (by simp)
          have hct := commitType_char hch
          have rt := register_spec h.ext.invT.root_lt h1
          refine ih (X := fun n => X n ∨ n = d.name) ⟨h.ext.one (hd d (by simp)) (by rw [hct]) (by rw [hct]) (by rw [hct]) h1, ?_, ?_, ?_⟩
            ?_ (fun x hx => hd x (by simp [hx])) (fun x hx => hk x (by simp [hx])) (fun x hx => hc x (by simp [hx])) h'
          · rw [rt.rootN h.ext.invT, h.root]
            simp [Syntax.takesRoot, hct, he]
          · intro hw
            rcases (rt.hasWhitespace h.ext.invT).1 hw with hw | hw
            · exact h.whitespace hw
            · rw [hct] at hw; cases hw
          · intro n ct k hn hb
            rw [rt.body h.ext.invT] at hb
            split at hb
            · cases hb; exact hch
            · rename_i hne
              rcases hn with hn | hn
              · exact h.chars n ct k hn hb
              · exact absurd hn hne
          · rw [rt.explicitRoot, he]; rfl

theorem Leftover.accepted {X : Name → Prop} {t s : Syntax} (h : Leftover X t s) :
    ∀ {ds : List Def}, (∀ d ∈ ds, RawDef d) → ∀ {t' s' : Syntax}, t.registers ds = (t', none) →
    s.registers ds = (s', none) → Leftover X t' s' := by
  intro ds
  induction ds generalizing t s with
  | nil => intro _ t' s' h1 h2; cases h1; cases h2; exact h
  | cons d ds ih =>
    intro hd t' s' ht hs
    simp only [Syntax.registers] at hs ht
    cases h1 : s.register d with
    | mk s1 e1 =>
      cases h2 : t.register d with
      | mk t1 e2 =>
        rw [h1] at hs
        rw [h2] at ht
        cases e1 with
        | some e => simp at hs
        | none =>
          cases e2 with
          | some e => simp at ht
          | none =>
            have rs := register_spec h.ext.invT.root_lt h1
            have rt := register_spec h.ext.invS.root_lt h2
            refine ih ⟨h.ext.both (hd d (by simp)) h2 h1, ?_, ?_, ?_⟩ (fun d' h' => hd d' (by simp [h'])) ht hs
            · rw [rs.rootN h.ext.invT, rt.rootN h.ext.invS, h.root, h.ext.takesRoot]
            · rw [rs.hasWhitespace h.ext.invT, rt.hasWhitespace h.ext.invS]
              exact Or.imp_left h.whitespace
            · intro n ct k hn hb
              rw [rs.body h.ext.invT, if_neg] at hb
              · exact h.chars n ct k hn hb
              · rintro rfl
                exact h.ext.there _ hn (h.ext.invT.body_none.2 rs.noDup)

theorem tried_leftover {as : List Act} {s : Syntax} (h : Tried as s) :
    ∃ X t, Syntax.acts {} as = some t ∧ Leftover X t s := by
  induction h with
  | empty => exact ⟨_, {}, rfl, .refl .empty, rfl, id, fun _ _ _ h => h.elim⟩
  | @accepted as s s' a _ ha ih =>
    obtain ⟨X, t, h1, h2⟩ := ih
    obtain ⟨t', ht⟩ := act_accepts h2.ext ha
    exact ⟨X, t', acts_snoc h1 ht, h2.accepted (act_raw a) (act_ok ht) (act_ok ha)⟩
  | @rejected as s s' a e _ ha hh ih =>
    obtain ⟨X, t, h1, h2⟩ := ih
    rcases hh with ⟨c, rfl, hn⟩ | ⟨⟨b, hb, hbr⟩, hk⟩ | ⟨hk, he⟩
    · have hv : isValidSymbol c.name = false := by
        cases hv : isValidSymbol c.name with
        | false => rfl
        | true => exact absurd ((valid_iff _).1 hv) hn
      rw [act_registers] at ha
      simp only [hv, Bool.not_false, if_true, Prod.mk.injEq] at ha
      exact ⟨X, t, h1, ha.1 ▸ h2⟩
    · have hex : s.explicitRoot = true := by
        rw [← h2.ext.explicit, (made_called (acts_made h1)).explicitRoot, List.any_eq_true]
        exact ⟨b.call, List.mem_map.2 ⟨b, hb, rfl⟩, hbr⟩
      rw [act_registers] at ha
      have hrej : ∀ {c : Call} {ct : Commit}, ct.keyword = false → s.registers (c.objects ct) = (s', some e) →
          ∃ X', Leftover X' t s' := fun hk hr =>
        h2.rejected hex (objects_raw _ _) (fun d hd => objects_keyword hd hk) (fun d hd => objects_chars hd) hr
      cases a with
      | api c =>
        simp only at ha
        split at ha
        · simp only [Prod.mk.injEq] at ha
          exact ⟨X, t, h1, ha.1 ▸ h2⟩
        · obtain ⟨X', h'⟩ := hrej (ct := { c.commit with userDefined := true }) hk ha
          exact ⟨X', t, h1, h'⟩
      | document c =>
        obtain ⟨X', h'⟩ := hrej (c := c) hk ha
        exact ⟨X', t, h1, h'⟩
    · rw [act_registers] at ha
      have hone : ∃ d, RawDef d ∧ a.objects = [d] ∧ d.name = a.call.name := by
        have key : ∀ (c : Call) (ct : Commit), ((∃ n ct items, c = .sequence n ct items) ∨ (∃ n ct os, c = .choice n ct os)) →
            ∃ d, RawDef d ∧ c.objects ct = [d] ∧ d.name = c.name := by
          rintro c ct (⟨n, ct', items, rfl⟩ | ⟨n, ct', os, rfl⟩)
          · exact ⟨_, .seq .., rfl, rfl⟩
          · exact ⟨_, .choice .., rfl, rfl⟩
        cases a with
        | api c => exact key _ _ hk
        | document c => exact key _ _ hk
      obtain ⟨d, hd, ho, hname⟩ := hone
      rw [ho] at ha
      simp only [registers_one] at ha
      have hfin : s.register d = (s', some e) → Leftover X t s' := by
        intro hr
        rw [rejected_orphan h2.ext.invT.initialized hr (.inr (by rw [hname]; exact he))]
        exact h2.orphan hd
      cases a with
      | api c =>
        simp only at ha
        split at ha
        · simp only [Prod.mk.injEq] at ha
          exact ⟨X, t, h1, ha.1 ▸ h2⟩
        · exact ⟨X, t, h1, hfin ha⟩
      | document c => exact ⟨X, t, h1, hfin ha⟩

/-! ### the needed names -/

theorem Made.kwNames {cs : List Call} {s : Syntax} (h : Made cs s) {n : Name} (hn : n ∈ s.kwNames) :
    PStart cs n := by
  unfold Syntax.kwNames at hn
  obtain ⟨k, hk, rfl⟩ := List.mem_map.1 hn
  obtain ⟨d, h1, h2⟩ := start_keyword h hk
  have hs := (made_called h).built.inv
  have hm := ((hs.keywords k).1 hk).1
  obtain ⟨d', g1, g2⟩ := hs.has hm
  obtain rfl := Option.some.inj (h1.2.symm.trans g2.2)
  simp only [Syntax.nameAt, g1, Option.map_some, Option.getD_some]
  rwa [initRanges_name] at h2

theorem Made.rootN {cs : List Call} {s : Syntax} (h : Made cs s) {n : Name} (hn : s.rootN = some n) :
    rootOf cs = some n := by
  unfold Syntax.rootN at hn
  cases hr : s.root with
  | none => rw [hr] at hn; cases hn
  | some r =>
    rw [hr] at hn
    obtain ⟨d, h1, h2⟩ := root_start h hr
    have hs := (made_called h).built.inv
    obtain ⟨d', g1, g2⟩ := hs.has (hs.rootIn r hr)
    obtain rfl := Option.some.inj (h1.2.symm.trans g2.2)
    simp only [Syntax.nameAt, g1, Option.map_some, Option.getD_some] at hn
    rwa [initRanges_name, Option.some.inj hn] at h2

theorem Made.closed {cs : List Call} {s : Syntax} (h : Made cs s) {n : Name} {ct : Commit} {k : DKind}
    (hn : PNeeded cs n) (ho : s.object n = some (ct, k)) : ∀ m ∈ k.refs, PNeeded cs m := by
  intro m hm
  obtain ⟨a, h1, h2⟩ := hn
  unfold Syntax.object at ho
  obtain ⟨p, h3, h4⟩ := Option.bind_eq_some_iff.1 ho
  obtain ⟨d, h5, h6⟩ := Option.map_eq_some_iff.1 h4
  cases h6
  refine ⟨a, h1, .step h2 (d := d.gdef) ?_ (by rw [gdef_refs]; exact hm)⟩
  rw [← (made_called h).grammar]
  simp [Syntax.grammar, h3, h5]

theorem needed_of_noWs {cs : List Call} (hws : ∀ c ∈ cs, c.commit.whitespace = false) {n : Name} :
    PNeeded cs n ↔ Needed cs n := by
  have : ∀ a, PStart cs a ↔ Start cs a := by
    intro a
    refine or_congr Iff.rfl ⟨?_, ?_⟩
    · rintro ⟨c, h1, h2, h3⟩; exact ⟨c, h1, .inl h2, h3⟩
    · rintro ⟨c, h1, h2 | h2, h3⟩
      · exact ⟨c, h1, h2, h3⟩
      · rw [hws c h1] at h2; cases h2
  exact ⟨fun ⟨a, h1, h2⟩ => ⟨a, (this a).1 h1, h2⟩, fun ⟨a, h1, h2⟩ => ⟨a, (this a).2 h1, h2⟩⟩

/-- The root is the definition itself, not one of its characters. -/
theorem made_rootN_char {cs : List Call} {s : Syntax} (h : Made cs s) {c : Call} (hc : c ∈ cs) {n : Name}
    (hn : n ∈ c.defs.map Prod.fst) (hr : s.rootN = some n) : n = c.name := by
  have C := made_called h
  have hs := C.built.inv
  rw [call_defs, List.map_map] at hn
  obtain ⟨r, hr', rfl⟩ := List.mem_map.1 hn
  simp only [Function.comp_apply] at hr ⊢
  rcases raw_cases hr' with ⟨i, neg, chars, ranges, g⟩ | ⟨g, -⟩
  · exfalso
    obtain ⟨p, e, k1, k2, k3⟩ := raw_has h hc hr'
    unfold Syntax.rootN at hr
    cases hroot : s.root with
    | none => rw [hroot] at hr; cases hr
    | some q =>
      rw [hroot] at hr
      simp only [Option.map_some, Option.some.injEq] at hr
      obtain ⟨d, g1, -⟩ := hs.has (hs.rootIn q hroot)
      have hd : d.name = r.name := by rw [← hr]; simp [Syntax.nameAt, g1]
      have l1 := (hs.lookup r.name q).2 ⟨hs.rootIn q hroot, d, g1, hd⟩
      have l2 := (hs.lookup r.name p).2 ⟨k2.1, e, k1, by rw [← plain_name, k3]⟩
      obtain rfl := Option.some.inj (l1.symm.trans l2)
      have := C.rootNotChar q e hroot k1
      rw [← plain_kind, k3, g] at this
      cases this
  · exact g

end Treerack
