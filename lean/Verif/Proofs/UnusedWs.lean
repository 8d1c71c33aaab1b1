import Verif.Proofs.AgreeWs

/-
Further definitions in syntaxes with whitespace definitions.
-/

namespace Treerack
open Spec Whitespace

theorem isWs_commit (c : Call) : c.isWs = c.commit.whitespace := by cases c <;> rfl

theorem PlainNames.sub {cs ds : List Call} (h : PlainNames cs) (hsub : ∀ c ∈ ds, c ∈ cs) : PlainNames ds :=
  h.imp (fun h c hc => h c (hsub c hc)) (fun h c hc => h c (hsub c hc))

theorem TightKeywords.sub {cs ds : List Call} (h : TightKeywords cs) (hsub : ∀ c ∈ ds, c ∈ cs) : TightKeywords ds :=
  fun c hc hk => h c (hsub c hc) hk

/-! ### what is needed -/

section

variable {cs : List Call} {s : Syntax} (h : Made cs s)

include h

theorem Made.closedWs {n : Name} {ct : Commit} {k : DKind} (hn : Needed cs n) (ho : s.object n = some (ct, k)) :
    ∀ m ∈ k.refs, Needed cs m := by
  intro m hm
  obtain ⟨a, h1, h2⟩ := hn
  unfold Syntax.object at ho
  obtain ⟨p, h3, h4⟩ := Option.bind_eq_some_iff.1 ho
  obtain ⟨d, h5, h6⟩ := Option.map_eq_some_iff.1 h4
  cases h6
  refine ⟨a, h1, .step h2 (d := d.gdef) ?_ (by rw [gdef_refs]; exact hm)⟩
  rw [← (made_called h).grammar]
  simp [Syntax.grammar, h3, h5]

theorem Made.kwNamesWs {n : Name} (hn : n ∈ s.kwNames) : Needed cs n := by
  rcases h.kwNames hn with h1 | ⟨c, h1, h2, h3⟩
  · exact ⟨n, .inl h1, .refl⟩
  · exact ⟨n, .inr ⟨c, h1, .inl h2, h3⟩, .refl⟩

theorem Made.wsListWs {n : Name} (hn : n ∈ s.wsList) : Needed cs n := by
  have hn : n ∈ s.wgrammar.ws := hn
  obtain ⟨p, d, h1, rfl, h2⟩ := (made_called h).built.inv.has_ws.1 hn
  obtain ⟨c, h3, h4, h5⟩ := has_start_ws h h1 h2
  exact ⟨_, .inr ⟨c, h3, .inr h4, h5⟩, .refl⟩

theorem Made.numbered (hpl : PlainNames cs) {n : Name} (hn : Needed cs n) : Numbered n := by
  obtain ⟨P, hP, hpl⟩ := hpl.scheme
  obtain ⟨a, ha, hr⟩ := hn
  have C := made_called h
  have hs := C.built.inv
  cases hr with
  | refl =>
    rcases ha with ha | ⟨c, hc, -, rfl⟩
    · obtain ⟨c, hc, rfl⟩ : ∃ c ∈ cs, c.name = n := by
        unfold rootOf at ha
        split at ha
        · rename_i c hc
          exact ⟨c, (List.mem_filter.1 (List.mem_of_head? hc)).1, Option.some.inj ha⟩
        · obtain ⟨c, hc, rfl⟩ := Option.map_eq_some_iff.1 ha
          exact ⟨c, List.mem_of_getLast? hc, rfl⟩
      exact hP.numbered _ (hpl c hc).1
    · exact hP.numbered _ (hpl c hc).1
  | step _ hg hm =>
    rw [← C.grammar] at hg
    obtain ⟨q, e, g3, g4, rfl⟩ := hs.grammar_has hg
    rw [gdef_refs] at hm
    obtain ⟨e0, h1, rfl, c, hc, hraw⟩ := g3.raw h
    rcases raw_cases hraw with ⟨i, neg, chars, ranges, h2⟩ | ⟨h2, -, -, -, -, h3⟩
    · have hk : e0.kind = .char neg chars ranges := by rw [← plain_kind, h2]; rfl
      rw [initRanges_refs, hk] at hm
      simp [DKind.refs] at hm
    · rw [plain_kind] at h3
      rw [initRanges_refs] at hm
      rcases h3 with ⟨os, -, hk, n', ct, rfl⟩ | ⟨items, hk, h3⟩
      · rw [hk] at hm
        exact hP.numbered _ ((hpl _ hc).2 _ hm)
      · rw [hk] at hm
        simp only [DKind.refs, List.mem_map] at hm
        obtain ⟨it0, hit0, rfl⟩ := hm
        rcases h3 with ⟨n', ct, rfl⟩ | h3
        · exact hP.numbered _ ((hpl _ hc).2 _ (List.mem_map.2 ⟨it0, hit0, rfl⟩))
        · obtain ⟨-, -, i, e', g1, -⟩ := h3 it0 hit0
          rw [g1]
          exact numbered_child (hP.numbered _ (hpl c hc).1) i

end

theorem SInv.wsList_ne {s : Syntax} (hs : SInv s) : s.HasWhitespace ↔ ∃ n, n ∈ s.wsList := by
  constructor
  · rintro ⟨p, hp, hw⟩
    obtain ⟨d, h1, h2⟩ := hs.has hp
    refine ⟨d.name, (show d.name ∈ s.wgrammar.ws from hs.has_ws.2 ⟨p, _, h2, initRanges_name d, ?_⟩)⟩
    rw [initRanges_commitType]
    simpa [Syntax.commitOf, h1] using hw
  · rintro ⟨n, hn⟩
    obtain ⟨p, d, h1, -, h2⟩ := hs.has_ws.1 (show n ∈ s.wgrammar.ws from hn)
    obtain ⟨e, h3, rfl⟩ := hs.has_heap h1
    rw [initRanges_commitType] at h2
    exact ⟨p, h1.1, by simpa [Syntax.commitOf, h3] using h2⟩

/-! ### leftovers -/

section

variable {X : Name → Prop} {s t : Syntax}

/-- Definitions with the same body. -/
theorem body_same (hs : SInv s) (ht : SInv t) {p : Ptr} {d : Def} (hp : s.heap[p]? = some d) (hm : p ∈ s.registry.definitions)
    (hb : t.body d.name = s.body d.name) :
    ∃ q e, t.heap[q]? = some e ∧ q ∈ t.registry.definitions ∧ e.name = d.name ∧ e.kind = d.kind ∧
      ({ e.commit with root := false } : Commit) = { d.commit with root := false } := by
  have hl : s.registry.lookup d.name = some p := (hs.lookup _ _).2 ⟨hm, d, hp, rfl⟩
  have hsb : s.body d.name = some ({ d.commit with root := false }, d.kind) := by
    simp [Syntax.body, Syntax.object, hl, hp]
  rw [hsb] at hb
  unfold Syntax.body Syntax.object at hb
  cases htl : t.registry.lookup d.name with
  | none => rw [htl] at hb; cases hb
  | some q =>
    obtain ⟨h1, e, h2, h3⟩ := (ht.lookup _ _).1 htl
    rw [htl] at hb
    simp only [Option.bind_some, h2, Option.map_some, Option.some.injEq, Prod.mk.injEq] at hb
    exact ⟨q, e, h2, h1, h3, hb.2, hb.1⟩

theorem replaced_same {d e : Def} (hk : e.kind = d.kind)
    (hc : ({ e.commit with root := false } : Commit) = { d.commit with root := false }) : e.replaced = d.replaced := by
  unfold Def.replaced Def.commitType
  have : e.commit.noWhitespace = d.commit.noWhitespace := by
    have := congrArg Commit.noWhitespace hc
    exact this
  rw [hk]
  cases d.kind <;> simp [this]

/-- A syntax with leftovers fits for applying the whitespace when the one without them does. -/
theorem Leftover.agreeWs {cs : List Call} (hm : Made cs t) (h : Leftover X t s) (hne : cs ≠ []) (hw : t.HasWhitespace)
    (hpl : PlainNames cs) (htk : TightKeywords cs)
    (hreg : ∀ n p, s.registry.lookup n = some p → Numbered n)
    (hdef : ∀ n, Needed cs n → grammarOf cs n ≠ none) : AgreeWs (Needed cs) t s := by
  have hs := h.ext.invT
  have ht := h.ext.invS
  have C := made_called hm
  have hX : ∀ n, t.registry.lookup n ≠ none → ¬ X n := fun n hn hx => hn (ht.body_none.1 (h.ext.fresh n hx))
  have hN : ∀ n, Needed cs n → ¬ X n := by
    intro n hn hx
    have hg := hdef n hn
    rw [← C.grammar] at hg
    have := ht.body_none.1 (h.ext.fresh n hx)
    simp [Syntax.grammar, this] at hg
  have hkeep : ∀ k ∈ s.keywords, ∀ d, s.heap[k]? = some d → ∃ q e, t.heap[q]? = some e ∧ q ∈ t.keywords ∧
      e.name = d.name := by
    intro k hk d hd
    have : d.name ∈ t.kwNames := by
      rw [h.ext.keywords]
      exact List.mem_map.2 ⟨k, hk, by simp [Syntax.nameAt, hd]⟩
    obtain ⟨q, hq, hqn⟩ := List.mem_map.1 this
    obtain ⟨e, he, -⟩ := ht.has ((ht.keywords q).1 hq).1
    exact ⟨q, e, he, hq, by rw [← hqn]; simp [Syntax.nameAt, he]⟩
  refine { toAgreeOn := h.ext.agreeOn hN ?_ (fun n hn => hm.kwNamesWs hn) (fun n ct k hn ho => hm.closedWs hn ho),
           wsS := hw, wsT := ?_, ncS := C.rootNotChar, ncT := ?_, namesS := wsNames_nodup hm hne hpl, namesT := ?_,
           keptS := keywordsKept hm htk, keptT := ?_, ws := h.ext.ws, wsIn := fun n hn => hm.wsListWs hn,
           numbered := fun n hn => hm.numbered hpl hn }
  · intro n hn
    rw [← h.root] at hn
    exact ⟨n, .inl (hm.rootN hn), .refl⟩
  · rw [hs.wsList_ne, ← h.ext.ws, ← ht.wsList_ne]
    exact hw
  · intro r d hr hd
    have hrn := h.root
    unfold Syntax.rootN at hrn
    rw [hr] at hrn
    cases htr : t.root with
    | none => rw [htr] at hrn; cases hrn
    | some q =>
      rw [htr] at hrn
      simp only [Option.map_some, Option.some.injEq] at hrn
      obtain ⟨e, he, -⟩ := ht.has (ht.rootIn q htr)
      have hname : e.name = d.name := by simpa [Syntax.nameAt, he, hd] using hrn
      have hl : t.registry.lookup d.name = some q := (ht.lookup _ _).2 ⟨ht.rootIn q htr, e, he, hname⟩
      obtain ⟨q', e', h1, h2, h3, h4, -⟩ := body_same hs ht hd (hs.rootIn r hr)
        (h.ext.body d.name (hX _ (by rw [hl]; simp)))
      have hl' : t.registry.lookup d.name = some q' := (ht.lookup _ _).2 ⟨h2, e', h1, h3⟩
      rw [hl] at hl'
      obtain rfl := Option.some.inj hl'
      rw [← h4]
      exact C.rootNotChar q e' htr h1
  · obtain ⟨P, hP, hpl⟩ := hpl.scheme
    refine hs.wsNames_nodup hP (fun p d hp => hreg _ p (hs.has_lookup hp)) ?_
    intro p d hp hr
    obtain ⟨d0, hd0, rfl⟩ := hs.has_heap hp
    have hx : ¬ X d0.name := by
      intro hx
      have hl : s.registry.lookup d0.name = some p := (hs.lookup _ _).2 ⟨hp.1, d0, hd0, rfl⟩
      have := h.chars d0.name { d0.commit with root := false } d0.kind hx (by
        simp [Syntax.body, Syntax.object, hl, hd0])
      unfold Def.replaced at hr
      cases hk : d0.kind with
      | char => simp [Def.initRanges, hk] at hr
      | choice => rw [hk] at this; cases this
      | seq => rw [hk] at this; cases this
    obtain ⟨q, e, h1, h2, h3, h4, h5⟩ := body_same hs ht hd0 hp.1 (h.ext.body _ hx)
    obtain ⟨e', h6, h7⟩ := ht.has h2
    rw [h1] at h6; cases h6
    have hkind : e.initRanges.kind = d0.initRanges.kind := by
      unfold Def.initRanges
      rw [h4]
      cases d0.kind <;> simp_all
    have hrep : e.initRanges.replaced = true := by
      rw [← hr]
      refine replaced_same hkind ?_
      have hc : ∀ x : Def, x.initRanges.commit = x.commit := by
        intro x; unfold Def.initRanges; split <;> rfl
      rw [hc, hc]; exact h5
    obtain ⟨g1, g2⟩ := has_gen hm hpl h7 hrep
    rw [initRanges_name, h3] at g1
    refine ⟨by rw [initRanges_name]; exact g1, ?_⟩
    have hit : e.initRanges.items = d0.initRanges.items := by unfold Def.items; rw [hkind]
    rwa [hit] at g2
  · intro k hk d hd
    obtain ⟨q, e, he, hq, hname⟩ := hkeep k hk d hd
    have hqm := ((ht.keywords q).1 hq).1
    have hl : t.registry.lookup d.name = some q := (ht.lookup _ _).2 ⟨hqm, e, he, hname⟩
    obtain ⟨q', e', h1, h2, h3, h4, h5⟩ := body_same hs ht hd ((hs.keywords k).1 hk).1
      (h.ext.body d.name (hX _ (by rw [hl]; simp)))
    have hl' : t.registry.lookup d.name = some q' := (ht.lookup _ _).2 ⟨h2, e', h1, h3⟩
    rw [hl] at hl'
    obtain rfl := Option.some.inj hl'
    rw [← replaced_same h4 h5]
    exact keywordsKept hm htk q hq e' h1

/-- A further definition, in syntaxes that were made by calls. -/
theorem Ext.agreeWs {cs ds : List Call} (hms : Made cs s) (hmt : Made ds t) (h : Ext X s t) (hne : cs ≠ []) (hne' : ds ≠ [])
    (hw : s.HasWhitespace) (hpl : PlainNames cs) (hpl' : PlainNames ds) (htk : TightKeywords cs) (htk' : TightKeywords ds)
    (hN : ∀ n, Needed cs n → ¬ X n) (hroot : ∀ n, t.rootN = some n → Needed cs n) : AgreeWs (Needed cs) s t :=
  { toAgreeOn := h.agreeOn hN hroot (fun n hn => hms.kwNamesWs hn) (fun n ct k hn ho => hms.closedWs hn ho),
    wsS := hw, wsT := by rw [h.invT.wsList_ne, ← h.ws, ← h.invS.wsList_ne]; exact hw,
    ncS := (made_called hms).rootNotChar, ncT := (made_called hmt).rootNotChar, namesS := wsNames_nodup hms hne hpl,
    namesT := wsNames_nodup hmt hne' hpl', keptS := keywordsKept hms htk, keptT := keywordsKept hmt htk', ws := h.ws,
    wsIn := fun n hn => hms.wsListWs hn, numbered := fun n hn => hms.numbered hpl hn }

end

end Treerack
