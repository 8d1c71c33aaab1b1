import Verif.Proofs.Tried
import Verif.Proofs.WsInit

/-
Two syntaxes with whitespace definitions that agree about the definitions that are used parse alike.
-/

namespace Treerack
open Spec Whitespace

/-- The syntaxes have the same definitions for the names in `N`, which are all those that are used, and the same whitespace
definitions. -/
structure AgreeWs (N : Name → Prop) (s t : Syntax) : Prop extends AgreeOn N s t where
  wsS : s.HasWhitespace
  wsT : t.HasWhitespace
  ncS : s.RootNotChar
  ncT : t.RootNotChar
  namesS : s.wsNames.Nodup
  namesT : t.wsNames.Nodup
  keptS : s.KeywordsKept
  keptT : t.KeywordsKept
  ws : s.wsList = t.wsList
  wsIn : ∀ n ∈ s.wsList, N n
  numbered : ∀ n, N n → Numbered n

/-- The names that are used after the whitespace was applied. -/
inductive WsIn (N : Name → Prop) (s : Syntax) : Name → Prop
  | orig {n : Name} : N n → WsIn N s n
  | ws : WsIn N s whitespaceName
  | body {r : Ptr} {d : Def} : s.root = some r → s.Has r d → WsIn N s (patchName [d.name, runes "wsroot"])
  | gen {p : Ptr} {d e : Def} : N d.name → s.Has p d → d.commitType.whitespace = false → e ∈ d.wsGen → WsIn N s e.name

/-! ### ids -/

theorem withId_commitType (d : Def) (i : Nat) : ({ d with id := i } : Def).commitType = d.commitType := rfl

theorem withId_wsGen (d : Def) (i : Nat) : ({ d with id := i } : Def).wsGen = d.wsGen := rfl

theorem withId_wsRepl (d : Def) (i : Nat) : ({ d with id := i } : Def).wsRepl.noId = d.wsRepl.noId := by
  unfold Def.wsRepl
  rw [show ({ d with id := i } : Def).replaced = d.replaced from rfl]
  split <;> rfl

theorem noId_wsBody {d e : Def} (h : d.noId = e.noId) (n : Name) : (d.wsBody n).noId = (e.wsBody n).noId := by
  obtain ⟨dn, di, dc, dg, dv, dt, dk⟩ := d
  obtain ⟨en, ei, ec, eg, ev, et, ek⟩ := e
  simp only [Def.noId, Def.mk.injEq, true_and] at h
  obtain ⟨rfl, rfl, rfl, rfl, rfl, rfl⟩ := h
  unfold Def.wsBody Def.setCommitType Def.commitType Def.noId
  cases dk <;> rfl

theorem withId_withAlias (d : Def) (i : Nat) : ({ d with id := i } : Def).withAlias.noId = d.withAlias.noId := by
  unfold Def.withAlias Def.setCommitType Def.commitType Def.noId
  obtain ⟨dn, di, dc, dg, dv, dt, dk⟩ := d
  cases dk <;> rfl

theorem withAlias_refs (d : Def) : d.withAlias.kind.refs = d.kind.refs := by
  unfold Def.withAlias Def.setCommitType
  obtain ⟨dn, di, dc, dg, dv, dt, dk⟩ := d
  cases dk <;> rfl

theorem SInv.merged_eq {s : Syntax} (hs : SInv s) :
    mergeDefs s.preHeap (wsPart s.preHeap s.registry.definitions) = newChoice whitespaceName { alias := true } s.wsList := by
  unfold mergeDefs
  congr 1
  unfold wsPart Syntax.wsList
  apply wsList_congr
  · intro p hp
    rw [hs.preHeap_get, if_pos hp]
    cases s.heap[p]? with
    | none => rfl
    | some e => simp [initRanges_name]
  · intro p _
    rw [commitOf_pre hs]

theorem Fresh.noDefs {R : Ptr → Ptr → Prop} {k : DKind} (h : k.Fresh) : DKindRel R k k := by
  cases k with
  | char => exact .char ..
  | choice os ds => cases h; exact .choice _ .nil
  | seq o i ds r a =>
    obtain ⟨rfl, -⟩ := h
    exact .seq _ _ _ _ _ .nil

theorem Pairs.imp_mem {α β : Type} {R S : α → β → Prop} {as : List α} {bs : List β} (h : Pairs R as bs)
    (hi : ∀ a ∈ as, ∀ b ∈ bs, R a b → S a b) : Pairs S as bs := by
  induction h with
  | nil => exact .nil
  | cons h _ ih =>
    exact .cons (hi _ (by simp) _ (by simp) h) (ih fun a ha b hb => hi a (by simp [ha]) b (by simp [hb]))

namespace AgreeWs

variable {N : Name → Prop} {s t : Syntax} (h : AgreeWs N s t)

include h

/-- A used definition in both of the syntaxes. -/
theorem has_same {p : Ptr} {d : Def} (hN : N d.name) (hp : s.Has p d) :
    ∃ q i, t.Has q { d with id := i } ∧ SamePtr N s t p q := by
  have hl := h.invS.has_lookup hp
  have ho := h.toAgreeOn.lookups hN
  rw [hl] at ho
  cases ht : t.registry.lookup d.name with
  | none => rw [ht] at ho; cases ho
  | some q =>
    have hpq : SamePtr N s t p q := ⟨_, hN, hl, ht⟩
    obtain ⟨d1, e1, hd1, he1, -⟩ := h.toAgreeOn.obj hpq
    obtain ⟨d0, hd0, rfl⟩ := h.invS.has_heap hp
    obtain ⟨e0, he0, hb⟩ := h.invT.has ((h.invT.lookup _ q).1 ht).1
    refine ⟨q, e0.id, ?_, hpq⟩
    have : e0.initRanges = { d0.initRanges with id := e0.id } := by
      obtain ⟨x, hx, hxn, hxo⟩ := h.invS.object_some hl
      obtain ⟨y, hy, hyn, hyo⟩ := h.invT.object_some ht
      rw [hd0] at hx; cases hx
      rw [he0] at hy; cases hy
      have hs := h.same _ hN
      rw [hxo, hyo] at hs
      have hc : d0.commit = e0.commit := congrArg Prod.fst (Option.some.inj hs)
      have hk : d0.kind = e0.kind := congrArg Prod.snd (Option.some.inj hs)
      obtain ⟨r1, r2, r3, r4⟩ := h.invS.raw p d0 hd0
      obtain ⟨r5, r6, r7, r8⟩ := h.invT.raw q e0 he0
      have hn : d0.name = e0.name := hxn.trans hyn.symm
      obtain ⟨dn, di, dc, dg, dv, dt, dk⟩ := d0
      obtain ⟨en, ei, ec, eg, ev, et, ek⟩ := e0
      simp only at hc hk r1 r2 r3 r5 r6 r7 hn
      subst hc hk r1 r2 r3 r5 r6 r7 hn
      unfold Def.initRanges
      cases dk <;> rfl
    rw [← this]
    exact hb

theorem refs_in {p : Ptr} {d : Def} (hN : N d.name) (hp : s.Has p d) {m : Name} (hm : m ∈ d.kind.refs) : N m := by
  obtain ⟨x, hx, hxn, hxo⟩ := h.invS.object_some (h.invS.has_lookup hp)
  obtain ⟨d0, hd0, rfl⟩ := h.invS.has_heap hp
  rw [hd0] at hx; cases hx
  rw [initRanges_refs] at hm
  exact h.closed _ _ _ hN hxo m hm

theorem not_ws {n : Name} (hn : N n) (ho : s.object n = none) {u : Syntax} (hu : SInv u) (hnone : u.registry.lookup n = none) :
    n ∉ u.wsNames := by
  have hnum := h.numbered n hn
  have horig : ∀ q e, u.Has q e → e.name ≠ n := by
    rintro q e hq rfl
    rw [hu.has_lookup hq] at hnone; cases hnone
  intro hm
  unfold Syntax.wsNames at hm
  rw [List.mem_append, List.mem_append, List.map_flatMap] at hm
  rcases hm with (hm | hm) | hm
  · obtain ⟨q, hq, ha⟩ := List.mem_flatMap.1 hm
    obtain ⟨e', h3, h4⟩ := hu.has (List.mem_filter.1 hq).1
    unfold wsBlock at ha
    rw [h4.2] at ha
    rcases block_names (P := fun _ => True) (fun _ _ _ _ => ⟨trivial, fun _ _ _ => trivial⟩) h4 ha with
      h5 | ⟨-, -, o1, k1, i1, -, -, h5⟩
    · exact horig _ _ h4 h5.symm
    · exact absurd h5 (orig_ne_gen hnum)
  · obtain ⟨q, hq, hb⟩ := List.mem_filterMap.1 hm
    obtain ⟨e', h3, h4⟩ := hu.has (List.mem_filter.1 hq).1
    rw [h4.2] at hb
    simp only [Option.map_some, Option.some.injEq] at hb
    exact horig _ _ h4 hb
  · simp only [List.mem_cons, List.not_mem_nil, or_false] at hm
    rcases hm with rfl | rfl
    · have e : whitespaceName = [] ++ colon :: runes "ws" := by decide
      exact absurd e (orig_ne_special hnum (by unfold NoColon; decide) (by decide))
    · rw [patchName2] at hnum
      exact absurd rfl (orig_ne_special hnum (by unfold NoColon; decide) (by decide))

section

variable {r0 r0' : Ptr} (hr : s.root = some r0) (hr' : t.root = some r0')
  {F G : Name → Option Def} (OS : WsObjects s r0 F) (OT : WsObjects t r0' G)
  (hcc : ∀ d, s.heap[r0]? = some d → d.commitType.incompatible = false)
  (nF : ∀ n d, F n = some d → n ∈ s.wsNames) (nG : ∀ n d, G n = some d → n ∈ t.wsNames)

include hr hr' OS OT hcc nF nG

/-- After the whitespace was applied, the objects of the used names are the same, and they refer to used names. -/
theorem shapes {n : Name} (hn : WsIn N s n) : F n = G n ∧ ∀ d, F n = some d → ∀ m ∈ d.kind.refs, WsIn N s m := by
  have hroot := h.root
  rw [hr, hr'] at hroot
  have hsame : SamePtr N s t r0 r0' := by cases hroot with | some h => exact h
  obtain ⟨n0, hn0, l1, l2⟩ := hsame
  obtain ⟨x0, hx0, hx1⟩ := h.invS.has ((h.invS.lookup _ _).1 l1).1
  have hx2 : x0.initRanges.name = n0 := by
    have := h.invS.has_lookup hx1
    obtain ⟨-, y, hy, hyn⟩ := (h.invS.lookup _ _).1 l1
    rw [hx0] at hy; cases hy
    rw [initRanges_name, hyn]
  have hrootPair : ∀ {p q : Ptr}, SamePtr N s t p q → (p = r0 ↔ q = r0') := by
    intro p q hpq
    have := h.toAgreeOn.onePtr _ _ _ _ ⟨n0, hn0, l1, l2⟩ hpq
    exact ⟨fun e => this.1 e, fun e => this.2 e⟩
  have hrepl : ∀ {p : Ptr} {d : Def}, N d.name → s.Has p d → d.commitType.whitespace = false →
      ∀ m ∈ d.wsRepl.kind.refs, WsIn N s m := by
    intro p d hN hp hw m hm
    rcases wsRepl_refs d hm with rfl | h1 | ⟨e, h1, rfl⟩
    · exact .ws
    · exact .orig (h.refs_in hN hp h1)
    · exact .gen hN hp hw h1
  cases hn with
  | orig hn =>
    cases hl : s.registry.lookup n with
    | none =>
      have ho := h.invS.object_none.2 hl
      have ht : t.registry.lookup n = none := h.invT.object_none.1 ((h.same n hn).symm.trans ho)
      have e1 : F n = none := by
        cases hF : F n with
        | none => rfl
        | some d => exact absurd (nF n d hF) (h.not_ws hn ho h.invS hl)
      have e2 : G n = none := by
        cases hG : G n with
        | none => rfl
        | some d => exact absurd (nG n d hG) (h.not_ws hn ho h.invT ht)
      rw [e1, e2]
      exact ⟨rfl, fun d hd => by cases hd⟩
    | some p =>
      obtain ⟨hpm, d0, hd0, rfl⟩ := (h.invS.lookup n p).1 hl
      obtain ⟨d1, hd1, hp⟩ := h.invS.has hpm
      rw [hd0] at hd1; cases hd1
      rw [← initRanges_name d0] at hn hl ⊢
      generalize d0.initRanges = d at hn hl hp ⊢
      obtain ⟨q, i, hq, hpq⟩ := h.has_same hn hp
      cases hw : d.commitType.whitespace with
      | true =>
        have e1 := OS.ws p d hp hw
        have e2 := OT.ws q _ hq hw
        rw [withId_withAlias] at e2
        simp only at e2
        rw [e1, e2]
        refine ⟨rfl, fun x hx m hm => ?_⟩
        cases hx
        have hm : m ∈ d.withAlias.kind.refs := hm
        rw [withAlias_refs] at hm
        exact .orig (h.refs_in hn hp hm)
      | false =>
        by_cases hpr : p = r0
        · have hqr := (hrootPair hpq).1 hpr
          subst hpr hqr
          have e1 := OS.root_ d hp
          have e2 := OT.root_ _ hq
          simp only at e2
          rw [e1, e2]
          refine ⟨rfl, fun x hx m hm => ?_⟩
          cases hx
          have hm : m ∈ (wsRootDef d.name).kind.refs := hm
          rw [wsRootDef_refs] at hm
          simp only [List.mem_cons, List.not_mem_nil, or_false] at hm
          rcases hm with rfl | rfl | rfl
          · exact .ws
          · exact .body hr hp
          · exact .ws
        · have hqr : q ≠ r0' := fun e => hpr ((hrootPair hpq).2 e)
          have e1 := OS.repl p d hp hw hpr
          have e2 := OT.repl q _ hq hw hqr
          rw [withId_wsRepl] at e2
          simp only at e2
          rw [e1, e2]
          refine ⟨rfl, fun x hx m hm => ?_⟩
          cases hx
          exact hrepl hn hp hw m hm
  | ws =>
    rw [OS.merged, OT.merged, h.invS.merged_eq, h.invT.merged_eq, ← h.ws]
    refine ⟨rfl, fun x hx m hm => ?_⟩
    cases hx
    exact .orig (h.wsIn m hm)
  | @body r d hrr hd =>
    rw [hr] at hrr; cases hrr
    obtain ⟨-, rfl⟩ : True ∧ d = x0.initRanges := ⟨trivial, Option.some.inj (hd.2.symm.trans hx1.2)⟩
    have hN : N x0.initRanges.name := hx2 ▸ hn0
    obtain ⟨q, i, hq, hpq⟩ := h.has_same hN hd
    have hqr := (hrootPair hpq).1 rfl
    subst hqr
    have e1 := OS.body _ hd
    have e2 := OT.body _ hq
    rw [noId_wsBody (withId_wsRepl _ i)] at e2
    simp only at e2
    rw [e1, e2]
    refine ⟨rfl, fun x hx m hm => ?_⟩
    cases hx
    have hm : m ∈ (x0.initRanges.wsRepl.wsBody x0.initRanges.name).kind.refs := hm
    rw [wsBody_kind] at hm
    rcases wsRepl_refs _ hm with rfl | h1 | ⟨e, h1, rfl⟩
    · exact .ws
    · exact .orig (h.refs_in hN hd h1)
    · refine .gen hN hd ?_ h1
      have hk0 := h.ncS r0 x0 hr hx0
      have hflag := (h.invS.rootFlag r0 x0 hx1.1 hx0 hk0).2 hr
      have hcm := hcc x0 hx0
      rw [commitType_notChar hk0] at hcm
      rw [initRanges_commitType, commitType_notChar hk0]
      cases hw : x0.commit.whitespace
      · rfl
      · simp [Commit.incompatible, hw, hflag] at hcm
  | @gen p d e hN hp hw he =>
    obtain ⟨q, i, hq, hpq⟩ := h.has_same hN hp
    have e1 := OS.gen p d hp hw e he
    have e2 := OT.gen q _ hq hw e he
    rw [e1, e2]
    refine ⟨rfl, fun x hx m hm => ?_⟩
    cases hx
    rcases wsGen_refs he hm with rfl | h1 | ⟨e', h1, rfl⟩
    · exact .ws
    · exact .orig (h.refs_in hN hp h1)
    · exact .gen hN hp hw h1

end

end AgreeWs

theorem shape_lookup {s1 : Syntax} {r1 : Ptr} (hp : PrepBase s1 r1) {n : Name} {p : Ptr}
    (hl : s1.registry.lookup n = some p) : ∃ d, s1.heap[p]? = some d ∧ s1.shape n = some d.noId := by
  obtain ⟨d, hd⟩ : ∃ d, s1.heap[p]? = some d := ⟨_, List.getElem?_eq_getElem (hp.lookup_lt n p hl)⟩
  exact ⟨d, hd, by simp [Syntax.shape, hl, hd]⟩

theorem shape_grammar {s1 : Syntax} {n : Name} {d : Def} (h : s1.shape n = some d) : ∃ gd, s1.grammar n = some gd := by
  unfold Syntax.shape at h
  obtain ⟨p, h1, h2⟩ := Option.bind_eq_some_iff.1 h
  obtain ⟨e, h3, -⟩ := Option.map_eq_some_iff.1 h2
  exact ⟨e.gdef, by simp [Syntax.grammar, h1, h3]⟩

/-- Prepared syntaxes with the same objects, up to the ids. -/
theorem shapes_rel {M : Name → Prop} {s1 t1 : Syntax} {r1 q1 : Ptr} (hs : Prepared s1 r1) (ht : Prepared t1 q1)
    (hM : ∀ n, M n → s1.shape n = t1.shape n ∧ ∀ d, s1.shape n = some d → ∀ m ∈ d.kind.refs, M m) :
    HeapRel (SamePtr M s1 t1) (SameId M s1 t1) s1.registry t1.registry s1.heap t1.heap := by
  have hlook : ∀ n, M n → OptRel (SamePtr M s1 t1) (s1.registry.lookup n) (t1.registry.lookup n) := by
    intro n hn
    have e := (hM n hn).1
    cases h1 : s1.registry.lookup n with
    | none =>
      cases h2 : t1.registry.lookup n with
      | none => exact .none
      | some q =>
        obtain ⟨x, -, hx⟩ := shape_lookup ht.toPrepBase h2
        rw [hx] at e
        simp [Syntax.shape, h1] at e
    | some p =>
      cases h2 : t1.registry.lookup n with
      | none =>
        obtain ⟨x, -, hx⟩ := shape_lookup hs.toPrepBase h1
        rw [hx] at e
        simp [Syntax.shape, h2] at e
      | some q => exact .some ⟨n, hn, h1, h2⟩
  have hone : OneToOne (SamePtr M s1 t1) := by
    rintro p q p' q' ⟨n, hn, h1, h2⟩ ⟨m, hm, h3, h4⟩
    obtain ⟨d, hd, -⟩ := shape_lookup hs.toPrepBase h1
    obtain ⟨e, he, -⟩ := shape_lookup ht.toPrepBase h2
    have hdn := hs.name_lookup _ _ _ h1 hd
    have hen := ht.name_lookup _ _ _ h2 he
    constructor
    · rintro rfl
      have : n = m := hdn.symm.trans (hs.name_lookup _ _ _ h3 hd)
      subst this
      rw [h2] at h4; exact (Option.some.inj h4).symm
    · rintro rfl
      have : n = m := hen.symm.trans (ht.name_lookup _ _ _ h4 he)
      subst this
      rw [h1] at h3; exact (Option.some.inj h3).symm
  refine ⟨hone, ?_, ?_⟩
  · rintro a b a' b' ⟨p, q, d, e, hpq, h1, h2, rfl, rfl⟩ ⟨p', q', d', e', hpq', h3, h4, rfl, rfl⟩
    have h1' := hone _ _ _ _ hpq hpq'
    have mem : ∀ {p q : Ptr}, SamePtr M s1 t1 p q → p ∈ s1.registry.definitions ∧ q ∈ t1.registry.definitions := by
      rintro p q ⟨n, -, g1, g2⟩
      exact ⟨hs.lookup_mem n p g1, ht.lookup_mem n q g2⟩
    constructor
    · intro hi
      have := hs.ids _ _ _ _ (mem hpq').1 (mem hpq).1 h3 h1 hi
      have := h1'.1 this
      subst this
      rw [h2] at h4; cases h4; rfl
    · intro hi
      have := ht.ids _ _ _ _ (mem hpq').2 (mem hpq).2 h4 h2 hi
      have := h1'.2 this
      subst this
      rw [h1] at h3; cases h3; rfl
  · rintro p q ⟨n, hn, h1, h2⟩
    obtain ⟨d, hd, hds⟩ := shape_lookup hs.toPrepBase h1
    obtain ⟨e, he, hes⟩ := shape_lookup ht.toPrepBase h2
    obtain ⟨hsh, hrefs⟩ := hM n hn
    rw [hds, hes] at hsh
    have hde := Option.some.inj hsh
    unfold Def.noId at hde
    simp only [Def.mk.injEq, true_and] at hde
    obtain ⟨g1, g2, g3, g4, g5, g6⟩ := hde
    obtain ⟨-, -, f3, f4⟩ := hs.fresh p d hd
    obtain ⟨-, -, f5, f6⟩ := ht.fresh q e he
    refine ⟨d, e, hd, he, g1, ⟨p, q, d, e, ⟨n, hn, h1, h2⟩, hd, he, rfl, rfl⟩, g2, g4, g5, ?_, ?_, ?_⟩
    · rw [f3, f5]; exact .nil
    · rw [← g6]; exact Fresh.noDefs f4
    · intro m hm
      exact hlook m (hrefs _ hds m hm)

/-- Syntaxes with whitespace definitions that agree return the same results. -/
theorem AgreeWs.result {N : Name → Prop} {s t : Syntax} (h : AgreeWs N s t) (fuel : Nat) (input : List Rune)
    (rend : Option Nat) : s.result fuel input rend = t.result fuel input rend := by
  have hS : s.Init = _ := s.Init_eq
  have hT : t.Init = _ := t.Init_eq
  rw [if_neg (by simp [h.invS.initFailed]), if_neg (by simp [h.invS.initialized])] at hS
  rw [if_neg (by simp [h.invT.initFailed]), if_neg (by simp [h.invT.initialized])] at hT
  have hroot := h.root
  unfold Syntax.result Syntax.Parse
  cases hrs : s.root with
  | none =>
    rw [hrs] at hroot hS
    cases hrt : t.root with
    | none => rw [hrt] at hT; rw [hS, hT]; rfl
    | some q => rw [hrt] at hroot; cases hroot
  | some p =>
    rw [hrs] at hroot hS
    cases hrt : t.root with
    | none => rw [hrt] at hroot; cases hroot
    | some q =>
      rw [hrt] at hroot hT
      cases hroot with
      | some hpq =>
        obtain ⟨d, e, hd, he, ho⟩ := h.toAgreeOn.obj hpq
        simp only at hS hT
        rw [hd] at hS
        rw [he] at hT
        have hk : d.kind.isChar = e.kind.isChar := ho.kind.isChar
        have hct : d.commitType = e.commitType := by
          cases hc : d.kind.isChar with
          | true => rw [commitType_char hc, commitType_char (hk ▸ hc)]
          | false => rw [commitType_notChar hc, commitType_notChar (hk ▸ hc), ho.commit]
        simp only [hct, ho.name] at hS
        simp only at hT
        cases hcc : e.commitType.incompatible with
        | true =>
          simp only [hcc, if_true] at hS hT
          rw [hS, hT]; rfl
        | false =>
          clear hS hT
          obtain ⟨s1, r1, i1, w1, g1, n1, k1, o1, p1⟩ :=
            Init_ws_all h.invS h.wsS h.ncS h.namesS hrs hd (by rw [hct]; exact hcc)
          obtain ⟨t1, q1, i2, w2, g2, n2, k2, o2, p2⟩ := Init_ws_all h.invT h.wsT h.ncT h.namesT hrt he hcc
          have p1 := p1 h.keptS
          have p2 := p2 h.keptT
          have hM : ∀ n, WsIn N s n → s1.shape n = t1.shape n ∧
              ∀ d, s1.shape n = some d → ∀ m ∈ d.kind.refs, WsIn N s m := fun n hn =>
            h.shapes hrs hrt (w1.objects p hrs) (w2.objects q hrt)
              (fun x hx => by rw [hd] at hx; cases hx; rw [hct]; exact hcc)
              (fun n d hd => by obtain ⟨gd, hg⟩ := shape_grammar hd; exact g1.names n gd hg)
              (fun n d hd => by obtain ⟨gd, hg⟩ := shape_grammar hd; exact g2.names n gd hg) hn
          have hrel := shapes_rel p1 p2 hM
          have hname : ∀ {u : Syntax} {r : Ptr} (_ : Prepared u r) {k : Ptr}, k ∈ u.registry.definitions →
              k < u.heap.length → u.registry.lookup (u.nameAt k) = some k := by
            intro u r hu k hk hlt
            obtain ⟨x, hx⟩ : ∃ x, u.heap[k]? = some x := ⟨_, List.getElem?_eq_getElem hlt⟩
            have := hu.lookup_name k x hk hx
            simpa [Syntax.nameAt, hx] using this
          have hrr : SamePtr (WsIn N s) s1 t1 r1 q1 := by
            obtain ⟨n, hn, l1, l2⟩ := hpq
            have a1 := hname p1 p1.root_mem p1.root_lt
            have a2 := hname p2 p2.root_mem p2.root_lt
            rw [n1] at a1
            rw [n2] at a2
            have b1 : s.rootName = n := by
              obtain ⟨-, y, hy, hyn⟩ := (h.invS.lookup _ _).1 l1
              simp [Syntax.rootName, hrs, Syntax.nameAt, hy, hyn]
            have b2 : t.rootName = n := by
              obtain ⟨-, y, hy, hyn⟩ := (h.invT.lookup _ _).1 l2
              simp [Syntax.rootName, hrt, Syntax.nameAt, hy, hyn]
            rw [b1] at a1
            rw [b2] at a2
            exact ⟨n, .orig hn, a1, a2⟩
          have hkw : Pairs (SamePtr (WsIn N s) s1 t1) s1.keywords t1.keywords := by
            have key : ∀ {u u1 : Syntax} {r : Ptr} (_ : SInv u) (_ : WsPrepared u u1 r) (_ : Prepared u1 r) {k : Ptr} {n : Name},
                k ∈ u1.keywords → u.registry.lookup n = some k → u1.registry.lookup n = some k := by
              intro u u1 r hu hw hp k n hk hl
              obtain ⟨x, hx⟩ : ∃ x, u1.heap[k]? = some x := ⟨_, List.getElem?_eq_getElem (hp.keywords_lt k hk)⟩
              obtain ⟨y, hy, -, hyn⟩ := hw.stale k hk x hx
              have l1 := hp.lookup_name k x (hp.keywords k hk) hx
              obtain ⟨z, hz, rfl⟩ := hu.has_heap hy
              obtain ⟨-, z', hz', hzn⟩ := (hu.lookup _ _).1 hl
              rw [hz] at hz'; cases hz'
              rw [hyn, initRanges_name, hzn] at l1
              exact l1
            have hkk := h.keywords
            rw [← k1, ← k2] at hkk
            refine hkk.imp_mem ?_
            rintro a ha b hb ⟨n, hn, l1, l2⟩
            exact ⟨n, .orig hn, key h.invS w1 p1 ha l1, key h.invT w2 p2 hb l2⟩
          obtain ⟨t₁, t₂, er, e1, e2, e3, e4, e5⟩ := finishInit_rel p1.toPrepBase p2.toPrepBase hrr hkw hrel
          rw [i1, i2, e1, e2]
          cases er with
          | some er => rfl
          | none =>
            simp only [Res.bind]
            rw [e3, e4, o1, o2]
            obtain ⟨g1, _, _, g2, g3, g4, g5⟩ := e5 rfl
            simp only
            rw [parseInput_rel g1 hrr g2 g3 g4 g5]
            cases parseInput t₂.env fuel q1 input rend with
            | ok y => cases y <;> rfl
            | panic => rfl
            | oof => rfl

end Treerack
