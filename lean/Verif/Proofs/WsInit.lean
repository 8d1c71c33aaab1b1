import Verif.Proofs.Definitions

/-
Initialization with whitespace definitions: it returns, and it fails exactly when a needed definition is missing.
-/

namespace Treerack
open Spec Whitespace

variable {cs : List Call} {s : Syntax}

/-- Applying the whitespace finds the root. -/
theorem Init_ws_all (hs : SInv s) (hw : s.HasWhitespace) (hnc : s.RootNotChar) (hnames : s.wsNames.Nodup)
    {root : Ptr} {d0 : Def} (hroot : s.root = some root) (hd0 : s.heap[root]? = some d0)
    (hc : d0.commitType.incompatible = false) :
    ∃ s1 r1, s.Init = s1.finishInit r1 ∧ WsPrepared s s1 r1 ∧ WsGrammar s root s1.grammar ∧
      s1.nameAt r1 = s.rootName ∧ s1.keywords = s.keywords ∧ s1.root = some r1 ∧
      (s.KeywordsKept → Prepared s1 r1) := by
  have hlen : s.preHeap.length = s.heap.length := foldl_update_length ..
  have hspec := apply_spec (h := s.preHeap) hs.nodup (fun p hp => by rw [hlen]; exact hs.mem_lt hp)
  have hI : s.Init = (s.prepare root).bind fun x => x.1.finishInit x.2 := by
    rw [Syntax.Init_eq, if_neg (by simp [hs.initFailed]), if_neg (by simp [hs.initialized]), hroot]
    simp only [hd0]
    rw [if_neg (by simp [hc])]
  have hprep : s.prepare root = (apply s.preHeap s.registry.definitions).bind fun x =>
      .ok ({ s with heap := (Registry.newRegistry x.1 x.2.1).2, registry := (Registry.newRegistry x.1 x.2.1).1,
                    root := some x.2.2 }, x.2.2) := by
    unfold Syntax.prepare
    simp only
    rw [show s.registry.definitions.foldl (fun h p => h.update p Def.initRanges) s.heap = s.preHeap from rfl,
      if_pos ((hasWhitespace_iff hs).2 hw)]
  have hweak := prepare_weak hs.weak hroot
  cases hx : apply s.preHeap s.registry.definitions with
  | oof => rw [hx] at hspec; exact hspec.elim
  | panic =>
    exfalso
    rw [hx] at hspec
    have hspec : ∀ q ∈ _, _ := hspec
    -- the replacement of the root has the flag
    have hrm := hs.rootIn root hroot
    have hk0 := hnc root d0 hroot hd0
    have hflag := (hs.rootFlag root d0 hrm hd0 hk0).2 hroot
    have hpre0 : s.preHeap[root]? = some d0.initRanges := by
      rw [hs.preHeap_get, if_pos hrm, hd0]; rfl
    have hct0 : d0.initRanges.commitType = d0.commit := by
      rw [initRanges_commitType, commitType_notChar hk0]
    have hws0 : d0.commit.whitespace = false := by
      rw [commitType_notChar hk0] at hc
      cases hw : d0.commit.whitespace
      · rfl
      · simp [Commit.incompatible, hw, hflag] at hc
    have hnon : root ∈ nonWsPart s.preHeap s.registry.definitions := by
      unfold nonWsPart
      rw [List.mem_filter]
      refine ⟨hrm, ?_⟩
      simp [Syntax.commitOf, hpre0, hct0, hws0]
    have hsl : (splitDefs s.preHeap s.registry.definitions).2.2.length = s.preHeap.length := splitHeap_length _ _
    have happ := applyToDefs_spec (nonWsPart s.preHeap s.registry.definitions)
      ((splitDefs s.preHeap s.registry.definitions).2.2 ++
        [mergeDefs (splitDefs s.preHeap s.registry.definitions).2.2 (wsPart s.preHeap s.registry.definitions)]) (by
        intro p hp
        rw [List.length_append, hsl, hlen]
        exact Nat.lt_of_lt_of_le (hs.mem_lt (List.mem_filter.1 hp).1) (Nat.le_add_right _ _))
    have hget : ((splitDefs s.preHeap s.registry.definitions).2.2 ++
        [mergeDefs (splitDefs s.preHeap s.registry.definitions).2.2 (wsPart s.preHeap s.registry.definitions)])[root]? =
        some d0.initRanges := by
      rw [List.getElem?_append_left (by rw [hsl, hlen]; exact hs.mem_lt hrm)]
      have := splitHeap_get s.registry.definitions s.preHeap hs.nodup root
      rw [show (splitDefs s.preHeap s.registry.definitions).2.2[root]? = _ from this, if_neg, hpre0]
      rintro ⟨-, h2⟩
      simp [Syntax.commitOf, hpre0, hct0, hws0] at h2
    have hin : some d0.initRanges.wsRepl ∈ ((nonWsPart s.preHeap s.registry.definitions).flatMap
        (wsBlock ((splitDefs s.preHeap s.registry.definitions).2.2 ++
        [mergeDefs (splitDefs s.preHeap s.registry.definitions).2.2 (wsPart s.preHeap s.registry.definitions)]))).map some := by
      refine List.mem_map.2 ⟨_, List.mem_flatMap.2 ⟨root, hnon, ?_⟩, rfl⟩
      unfold wsBlock
      rw [hget]
      simp
    rw [← happ.get] at hin
    obtain ⟨q, h1, h2⟩ := List.mem_map.1 hin
    have := hspec q h1
    unfold Syntax.commitOf at this
    rw [h2] at this
    simp only [wsRepl_commitType, hct0, hflag] at this
    cases this
  | ok x =>
    rw [hx] at hspec hprep
    simp only [Res.bind_ok] at hprep
    rw [hprep] at hweak hI
    obtain ⟨hpb, -, -, -, hkf⟩ := hweak
    obtain ⟨h1, defs2, h3, r, d', A⟩ := hspec
    obtain ⟨hP, hK, hG, hn⟩ := A.strong hs hroot hnc hd0 hc hnames hpb hkf
    exact ⟨_, _, hI, hP, hG, hn, rfl, rfl, hK⟩

theorem Init_ws_prepared (hs : SInv s) (hw : s.HasWhitespace) (hnc : s.RootNotChar) (hnames : s.wsNames.Nodup)
    {root : Ptr} {d0 : Def} (hroot : s.root = some root) (hd0 : s.heap[root]? = some d0)
    (hc : d0.commitType.incompatible = false) :
    ∃ s1 r1, s.Init = s1.finishInit r1 ∧ WsPrepared s s1 r1 ∧ WsGrammar s root s1.grammar ∧
      s1.nameAt r1 = s.rootName ∧ s1.keywords = s.keywords := by
  obtain ⟨s1, r1, h1, h2, h3, h4, h5, -, -⟩ := Init_ws_all hs hw hnc hnames hroot hd0 hc
  exact ⟨s1, r1, h1, h2, h3, h4, h5⟩

/-! ### The references -/

/-- The references of the rewritten items, and of the generated definitions. -/
theorem applyToItems_refs (sn : Name) : ∀ (items : List SeqItem) (i : Nat),
    (∀ it ∈ (applyToItems sn i items).2, it.name = whitespaceName ∨ (∃ x ∈ items, it.name = x.name) ∨
      ∃ e ∈ (applyToItems sn i items).1, it.name = e.name) ∧
    (∀ e ∈ (applyToItems sn i items).1, ∀ n ∈ e.kind.refs, n = whitespaceName ∨ (∃ x ∈ items, n = x.name) ∨
      ∃ e' ∈ (applyToItems sn i items).1, n = e'.name) ∧
    (∀ x ∈ items, (∃ it ∈ (applyToItems sn i items).2, it.name = x.name) ∨
      ∃ e ∈ (applyToItems sn i items).1, (∃ it ∈ (applyToItems sn i items).2, it.name = e.name) ∧ x.name ∈ e.kind.refs)
  | [], i => by simp [applyToItems]
  | x :: items, i => by
    obtain ⟨ih1, ih2, ih3⟩ := applyToItems_refs sn items (i + 1)
    have hone : (∀ it ∈ (applyToItem sn i x).2, it.name = whitespaceName ∨ it.name = x.name ∨
          ∃ e ∈ (applyToItem sn i x).1, it.name = e.name) ∧
        (∀ e ∈ (applyToItem sn i x).1, ∀ n ∈ e.kind.refs, n = whitespaceName ∨ n = x.name ∨
          ∃ e' ∈ (applyToItem sn i x).1, n = e'.name) ∧
        ((∃ it ∈ (applyToItem sn i x).2, it.name = x.name) ∨
          ∃ e ∈ (applyToItem sn i x).1, (∃ it ∈ (applyToItem sn i x).2, it.name = e.name) ∧ x.name ∈ e.kind.refs) := by
      have hlead : ∀ it ∈ (if i > 0 then [wsItem] else []), it.name = whitespaceName := by
        intro it hit
        split at hit
        · simp only [List.mem_singleton] at hit; subst hit; rfl
        · simp at hit
      unfold applyToItem
      simp only
      split
      · refine ⟨?_, by simp, Or.inl ⟨x, by simp, rfl⟩⟩
        intro it hit
        rcases List.mem_append.1 hit with h | h
        · exact Or.inl (hlead it h)
        · simp only [List.mem_singleton] at h; subst h; exact Or.inr (Or.inl rfl)
      · split
        · refine ⟨?_, ?_, Or.inl ⟨{ name := x.name, min := 1, max := 1 }, by simp, rfl⟩⟩
          · intro it hit
            rcases List.mem_append.1 hit with h | h
            · exact Or.inl (hlead it h)
            · simp only [List.mem_cons, List.not_mem_nil, or_false] at h
              rcases h with rfl | rfl
              · exact Or.inr (Or.inl rfl)
              · exact Or.inr (Or.inr ⟨_, List.mem_singleton_self _, rfl⟩)
          · intro e he n hn
            simp only [List.mem_singleton] at he
            subst he
            simp only [newSequence, DKind.refs, List.map_cons, List.map_nil, List.mem_cons, List.not_mem_nil, or_false] at hn
            rcases hn with rfl | rfl
            · exact Or.inl rfl
            · exact Or.inr (Or.inl rfl)
        · refine ⟨?_, ?_, Or.inr ⟨_, List.mem_cons_of_mem _ (List.mem_singleton_self _),
            ⟨_, List.mem_singleton_self _, rfl⟩, ?_⟩⟩
          · intro it hit
            simp only [List.mem_singleton] at hit
            subst hit
            exact Or.inr (Or.inr ⟨_, List.mem_cons_of_mem _ (List.mem_singleton_self _), rfl⟩)
          · intro e he n hn
            simp only [List.mem_cons, List.not_mem_nil, or_false] at he
            rcases he with rfl | rfl
            · simp only [newSequence, DKind.refs, List.map_cons, List.map_nil, List.mem_cons, List.not_mem_nil,
                or_false] at hn
              rcases hn with rfl | rfl
              · exact Or.inl rfl
              · exact Or.inr (Or.inl rfl)
            · simp only [newSequence, DKind.refs, List.mem_map] at hn
              obtain ⟨it, hit, rfl⟩ := hn
              rcases List.mem_append.1 hit with h | h
              · exact Or.inl (hlead it h)
              · simp only [List.mem_cons, List.not_mem_nil, or_false] at h
                rcases h with rfl | rfl
                · exact Or.inr (Or.inl rfl)
                · exact Or.inr (Or.inr ⟨_, List.mem_cons_self, rfl⟩)
          · simp [newSequence, DKind.refs]
    obtain ⟨o1, o2, o3⟩ := hone
    have e1 : (applyToItems sn i (x :: items)).1 = (applyToItem sn i x).1 ++ (applyToItems sn (i + 1) items).1 := rfl
    have e2 : (applyToItems sn i (x :: items)).2 = (applyToItem sn i x).2 ++ (applyToItems sn (i + 1) items).2 := rfl
    rw [e1, e2]
    refine ⟨?_, ?_, ?_⟩
    · intro it hit
      rcases List.mem_append.1 hit with h | h
      · rcases o1 it h with h | h | ⟨e, he, h⟩
        · exact Or.inl h
        · exact Or.inr (Or.inl ⟨x, by simp, h⟩)
        · exact Or.inr (Or.inr ⟨e, List.mem_append_left _ he, h⟩)
      · rcases ih1 it h with h | ⟨y, hy, h⟩ | ⟨e, he, h⟩
        · exact Or.inl h
        · exact Or.inr (Or.inl ⟨y, by simp [hy], h⟩)
        · exact Or.inr (Or.inr ⟨e, List.mem_append_right _ he, h⟩)
    · intro e he n hn
      rcases List.mem_append.1 he with h | h
      · rcases o2 e h n hn with h | h | ⟨e, he, h⟩
        · exact Or.inl h
        · exact Or.inr (Or.inl ⟨x, by simp, h⟩)
        · exact Or.inr (Or.inr ⟨e, List.mem_append_left _ he, h⟩)
      · rcases ih2 e h n hn with h | ⟨y, hy, h⟩ | ⟨e, he, h⟩
        · exact Or.inl h
        · exact Or.inr (Or.inl ⟨y, by simp [hy], h⟩)
        · exact Or.inr (Or.inr ⟨e, List.mem_append_right _ he, h⟩)
    · intro y hy
      rcases List.mem_cons.1 hy with rfl | hy
      · rcases o3 with ⟨it, h1, h2⟩ | ⟨e, h1, ⟨it, h2, h3⟩, h4⟩
        · exact Or.inl ⟨it, List.mem_append_left _ h1, h2⟩
        · exact Or.inr ⟨e, List.mem_append_left _ h1, ⟨it, List.mem_append_left _ h2, h3⟩, h4⟩
      · rcases ih3 y hy with ⟨it, h1, h2⟩ | ⟨e, h1, ⟨it, h2, h3⟩, h4⟩
        · exact Or.inl ⟨it, List.mem_append_right _ h1, h2⟩
        · exact Or.inr ⟨e, List.mem_append_right _ h1, ⟨it, List.mem_append_right _ h2, h3⟩, h4⟩

theorem items_refs {d : Def} (h : d.replaced = true) : d.kind.refs = d.items.map SeqItem.name := by
  unfold Def.replaced at h
  unfold Def.items DKind.refs
  cases hk : d.kind <;> rw [hk] at h <;> simp at h ⊢

/-- The same for a definition and its replacement. -/
theorem wsRepl_refs (d : Def) {n : Name} (hn : n ∈ d.wsRepl.kind.refs) :
    n = whitespaceName ∨ n ∈ d.kind.refs ∨ ∃ e ∈ d.wsGen, n = e.name := by
  unfold Def.wsRepl at hn
  unfold Def.wsGen
  split at hn
  · rename_i hr
    rw [if_pos hr, items_refs hr]
    simp only [newSequence, DKind.refs, List.mem_map] at hn
    obtain ⟨it, hit, rfl⟩ := hn
    rcases (applyToItems_refs d.name d.items 0).1 it hit with h | ⟨x, hx, h⟩ | h
    · exact Or.inl h
    · exact Or.inr (Or.inl (List.mem_map.2 ⟨x, hx, h.symm⟩))
    · exact Or.inr (Or.inr h)
  · exact Or.inr (Or.inl hn)

theorem wsGen_refs {d e : Def} (he : e ∈ d.wsGen) {n : Name} (hn : n ∈ e.kind.refs) :
    n = whitespaceName ∨ n ∈ d.kind.refs ∨ ∃ e ∈ d.wsGen, n = e.name := by
  unfold Def.wsGen at he ⊢
  split at he
  · rename_i hr
    rw [if_pos hr, items_refs hr]
    rcases (applyToItems_refs d.name d.items 0).2.1 e he n hn with h | ⟨x, hx, h⟩ | h
    · exact Or.inl h
    · exact Or.inr (Or.inl (List.mem_map.2 ⟨x, hx, h.symm⟩))
    · exact Or.inr (Or.inr h)
  · simp at he

theorem refs_wsRepl (d : Def) {n : Name} (hn : n ∈ d.kind.refs) :
    n ∈ d.wsRepl.kind.refs ∨ ∃ e ∈ d.wsGen, e.name ∈ d.wsRepl.kind.refs ∧ n ∈ e.kind.refs := by
  unfold Def.wsRepl Def.wsGen
  by_cases hr : d.replaced = true
  · rw [if_pos hr, if_pos hr]
    rw [items_refs hr] at hn
    obtain ⟨x, hx, rfl⟩ := List.mem_map.1 hn
    simp only [newSequence, DKind.refs, List.mem_map]
    rcases (applyToItems_refs d.name d.items 0).2.2 x hx with h | ⟨e, h1, ⟨it, h2, h3⟩, h4⟩
    · exact Or.inl h
    · exact Or.inr ⟨e, h1, ⟨it, h2, h3⟩, h4⟩
  · rw [if_neg hr]; exact Or.inl hn

/-! ### The needed names -/

/-- The whitespace definitions of the calls, too. -/
def WsStart (cs : List Call) (n : Name) : Prop := PStart cs n ∨ ∃ c ∈ cs, c.commit.whitespace = true ∧ c.name = n

theorem has_start_ws (h : Made cs s) {p : Ptr} {d : Def} (hp : s.Has p d)
    (hw : d.commitType.whitespace = true) : ∃ c ∈ cs, c.commit.whitespace = true ∧ c.name = d.name := by
  obtain ⟨e, e1, rfl, c, hcm, hraw⟩ := hp.raw h
  rw [initRanges_commitType] at hw
  rw [initRanges_name]
  rcases raw_cases hraw with ⟨i, neg, chars, ranges, g⟩ | ⟨g1, g2, -⟩
  · have hk : e.kind.isChar = true := by rw [← plain_kind, g]; rfl
    rw [commitType_char hk] at hw
    cases hw
  · refine ⟨c, hcm, ?_, by rw [← g1, plain_name]⟩
    rw [← g2, plain_commitType]
    exact hw

theorem ws_start_has (h : Made cs s) {c : Call} (hc : c ∈ cs) (hw : c.commit.whitespace = true) :
    ∃ p d, s.Has p d ∧ d.name = c.name ∧ d.commitType.whitespace = true := by
  obtain ⟨r, hr, h1, h2, -⟩ := call_main c
  obtain ⟨p, e, k1, k2, k3⟩ := raw_has h hc hr
  refine ⟨p, _, k2, by rw [initRanges_name, ← plain_name, k3, h1], ?_⟩
  rw [initRanges_commitType]
  rcases raw_cases hr with ⟨i, neg, chars, ranges, g⟩ | ⟨-, g2, -⟩
  · rw [g] at h2; cases h2
  · rw [← k3, plain_commitType] at g2
    exact g2.trans hw

/-- The names that occur in the syntax with the whitespace applied. -/
inductive WsName (cs : List Call) (s : Syntax) : Name → Prop
  | needed {a n : Name} : WsStart cs a → Refers (grammarOf cs) a n → WsName cs s n
  | ws : WsName cs s whitespaceName
  | body : WsName cs s (patchName [s.rootName, runes "wsroot"])
  | gen {p : Ptr} {d e : Def} {a : Name} : s.Has p d → d.commitType.whitespace = false → WsStart cs a →
      Refers (grammarOf cs) a d.name → e ∈ d.wsGen → WsName cs s e.name

theorem wsRootDef_refs (n : Name) : (wsRootDef n).kind.refs = [whitespaceName, patchName [n, runes "wsroot"], whitespaceName] := rfl

section

variable (h : Made cs s) {r0 : Ptr} {G : Grammar Name}
include h

theorem needed_has (hpl : PlainNames cs) (WG : WsGrammar s r0 G) {a n : Name} (ha : WsStart cs a)
    (hr : Refers (grammarOf cs) a n) (hroot : s.root = some r0) (hG : (G n).isSome = true) :
    ∃ p d, s.Has p d ∧ d.name = n := by
  have C := made_called h
  have hs := C.built.inv
  cases hr with
  | refl =>
    rcases ha with (ha | ⟨c, hc, hk, rfl⟩) | ⟨c, hc, hk, rfl⟩
    · obtain ⟨d, h1, h2⟩ := root_start h hroot
      rw [ha] at h2
      exact ⟨r0, d, h1, (Option.some.inj h2).symm⟩
    · obtain ⟨k, d, -, h2, h3⟩ := keyword_start h hc hk
      exact ⟨k, d, h2, h3⟩
    · obtain ⟨p, d, h1, h2, -⟩ := ws_start_has h hc hk
      exact ⟨p, d, h1, h2⟩
  | step _ hg hm =>
    rw [← C.grammar] at hg
    obtain ⟨q, e, g3, g4, rfl⟩ := hs.grammar_has hg
    refine refsIn h hpl WG q e g3 n ?_ hG
    unfold GDef.refs at hm
    unfold Expr.refs
    exact hm

/-- The references in the syntax with the whitespace applied stay among these names. -/
theorem wsName_refs (hpl : PlainNames cs) (WG : WsGrammar s r0 G) (hroot : s.root = some r0) {n m : Name} {gd : GDef Name}
    (hn : WsName cs s n) (hg : G n = some gd) (hm : m ∈ gd.refs) : WsName cs s m := by
  have C := made_called h
  have hs := C.built.inv
  obtain ⟨dr, hdr, hrn⟩ := hs.has_root hroot
  have hstep : ∀ {p : Ptr} {d : Def} {a : Name}, s.Has p d → WsStart cs a → Refers (grammarOf cs) a d.name →
      ∀ {m}, m ∈ d.kind.refs → WsName cs s m := by
    intro p d a hp ha hr m hm
    exact .needed ha (.step hr (by rw [← C.grammar]; exact hs.has_grammar hp) (by rw [gdef_refs]; exact hm))
  have hrepl : ∀ {p : Ptr} {d : Def} {a : Name}, s.Has p d → d.commitType.whitespace = false → WsStart cs a →
      Refers (grammarOf cs) a d.name → ∀ {m}, m ∈ d.wsRepl.kind.refs → WsName cs s m := by
    intro p d a hp hw ha hr m hm
    rcases wsRepl_refs d hm with rfl | h1 | ⟨e, h1, rfl⟩
    · exact .ws
    · exact hstep hp ha hr h1
    · exact .gen hp hw ha hr h1
  have hstartRoot : WsStart cs dr.name := by
    obtain ⟨d, h1, h2⟩ := root_start h hroot
    obtain rfl := Option.some.inj (hdr.2.symm.trans h1.2)
    exact Or.inl (Or.inl h2)
  have hrootws : dr.commitType.whitespace = false := by
    cases hww : dr.commitType.whitespace with
    | false => rfl
    | true =>
      exfalso
      obtain ⟨e0, k1, rfl⟩ := hs.has_heap hdr
      have hk := C.rootNotChar r0 e0 hroot k1
      have hfl := (hs.rootFlag r0 e0 hdr.1 k1 hk).2 hroot
      rw [initRanges_commitType, commitType_notChar hk] at hww
      have h1 := WG.root_ _ hdr
      have h2 := WG.ws r0 _ hdr (by rw [initRanges_commitType, commitType_notChar hk]; exact hww)
      rw [h1] at h2
      have := congrArg GDef.alias (Option.some.inj h2)
      simp [wsRootDef, Def.gdef, newSequence, Def.commitType] at this
  cases hn with
  | @needed a n ha hr =>
    obtain ⟨p, d, hp, rfl⟩ := needed_has h hpl WG ha hr hroot (by rw [hg]; rfl)
    cases hw : d.commitType.whitespace with
    | true =>
      rw [WG.ws p d hp hw] at hg
      obtain rfl := Option.some.inj hg
      refine hstep hp ha hr ?_
      rw [← gdef_refs]
      exact hm
    | false =>
      by_cases hpr : p = r0
      · subst hpr
        obtain rfl := Option.some.inj (hdr.2.symm.trans hp.2)
        rw [WG.root_ _ hp] at hg
        obtain rfl := Option.some.inj hg
        rw [gdef_refs, wsRootDef_refs] at hm
        simp only [List.mem_cons, List.not_mem_nil, or_false] at hm
        rcases hm with rfl | rfl | rfl
        · exact .ws
        · rw [hrn]; exact .body
        · exact .ws
      · rw [WG.repl p d hp hw hpr] at hg
        obtain rfl := Option.some.inj hg
        rw [gdef_refs] at hm
        exact hrepl hp hw ha hr hm
  | ws =>
    rw [WG.merged] at hg
    obtain rfl := Option.some.inj hg
    simp only [GDef.refs, List.mem_filterMap] at hm
    obtain ⟨p, hp, hm⟩ := hm
    obtain ⟨d, hd, rfl⟩ := Option.map_eq_some_iff.1 hm
    have hp' := List.mem_filter.1 hp
    have hw : d.commitType.whitespace = true := by simpa [Syntax.commitOf, hd] using hp'.2
    exact .needed (Or.inr (has_start_ws h ⟨hp'.1, hd⟩ hw)) .refl
  | body =>
    rw [← hrn] at hg
    rw [WG.body _ hdr] at hg
    obtain rfl := Option.some.inj hg
    exact hrepl hdr hrootws hstartRoot .refl (by rw [← gdef_refs]; exact hm)
  | @gen p d e a hp hw ha hr he =>
    rw [WG.gen p d hp hw e he] at hg
    obtain rfl := Option.some.inj hg
    rw [gdef_refs] at hm
    rcases wsGen_refs he hm with rfl | h1 | ⟨e, h1, rfl⟩
    · exact .ws
    · exact hstep hp ha hr h1
    · exact .gen hp hw ha hr h1

theorem wsName_undefined (WG : WsGrammar s r0 G) (hroot : s.root = some r0) {n : Name}
    (hn : WsName cs s n) (hg : G n = none) : ∃ a, WsStart cs a ∧ Refers (grammarOf cs) a n ∧ grammarOf cs n = none := by
  have C := made_called h
  have hs := C.built.inv
  obtain ⟨dr, hdr, hrn⟩ := hs.has_root hroot
  cases hn with
  | @needed a n ha hr =>
    refine ⟨a, ha, hr, ?_⟩
    cases hgn : grammarOf cs n with
    | none => rfl
    | some gd =>
      exfalso
      rw [← C.grammar] at hgn
      obtain ⟨p, d, hp, rfl, -⟩ := hs.grammar_has hgn
      cases hw : d.commitType.whitespace with
      | true => rw [WG.ws p d hp hw] at hg; cases hg
      | false =>
        by_cases hpr : p = r0
        · subst hpr; rw [WG.root_ _ hp] at hg; cases hg
        · rw [WG.repl p d hp hw hpr] at hg; cases hg
  | ws => rw [WG.merged] at hg; cases hg
  | body => rw [← hrn, WG.body _ hdr] at hg; cases hg
  | gen hp hw ha hr he => rw [WG.gen _ _ hp hw _ he] at hg; cases hg

end

/-- `Init` with whitespace definitions. -/
theorem Init_refs_ws (h : Made cs s) (hw : ∃ c ∈ cs, c.commit.whitespace = true) (hpl : PlainNames cs)
    (hR : RootCompatible cs) :
    ∃ s' e, s.Init = .ok (s', e) ∧
      (e = none ↔ ∀ a n, WsStart cs a → Refers (grammarOf cs) a n → grammarOf cs n ≠ none) ∧
      ∀ x, e = some x → ∃ a n, WsStart cs a ∧ Refers (grammarOf cs) a n ∧ grammarOf cs n = none ∧ x = .parserNotFound n := by
  have C := made_called h
  have hs := C.built.inv
  have hne : cs ≠ [] := by rintro rfl; obtain ⟨c, hc, -⟩ := hw; cases hc
  have hws : s.HasWhitespace := by
    rw [C.whitespace]
    obtain ⟨c, hc, hcw⟩ := hw
    exact ⟨c, hc, hcw⟩
  obtain ⟨root, hroot⟩ := Option.ne_none_iff_exists'.1 (C.rootSome hne)
  obtain ⟨d, hd⟩ : ∃ d, s.heap[root]? = some d := ⟨_, List.getElem?_eq_getElem (hs.root_lt root hroot)⟩
  have hinc := (root_flags h hroot hd).2 hR
  obtain ⟨s1, r1, hI, P, WG, hname, hkw⟩ := Init_ws_prepared hs hws C.rootNotChar (wsNames_nodup h hne hpl) hroot hd hinc
  have hfin := finishInit_spec P.base
  rw [← hI] at hfin
  obtain ⟨dr, hdr, hrn⟩ := hs.has_root hroot
  have hr0 : WsStart cs dr.name := by
    obtain ⟨d, h1, h2⟩ := root_start h hroot
    obtain rfl := Option.some.inj (hdr.2.symm.trans h1.2)
    exact Or.inl (Or.inl h2)
  obtain ⟨dr1, hdr1⟩ : ∃ e, s1.heap[r1]? = some e := ⟨_, List.getElem?_eq_getElem P.base.root_lt⟩
  have hroot1 : s1.registry.lookup dr.name = some r1 := by
    rw [hrn, ← hname]
    have : s1.nameAt r1 = dr1.name := by simp [Syntax.nameAt, hdr1]
    rw [this]
    exact P.lookup_name r1 dr1 P.root_mem hdr1
  have hlookG : ∀ {n : Name} {p : Ptr} {e : Def}, s1.registry.lookup n = some p → s1.heap[p]? = some e →
      s1.grammar n = some e.gdef := by
    intro n p e h1 h2
    unfold Syntax.grammar
    rw [h1]
    simp [h2]
  have hGlook : ∀ {n : Name}, s1.grammar n = none ↔ s1.registry.lookup n = none := by
    intro n
    unfold Syntax.grammar
    cases hl : s1.registry.lookup n with
    | none => simp
    | some p =>
      have := P.base.lookup_lt n p hl
      simp [List.getElem?_eq_getElem this]
  -- the references of the used definitions
  have hrefs : ∀ {p : Ptr}, ((∃ m, s1.registry.lookup m = some p ∧ WsName cs s m) ∨ p ∈ s1.keywords) →
      ∀ {e n}, s1.heap[p]? = some e → n ∈ e.kind.refs → WsName cs s n := by
    rintro p (⟨m, h1, h2⟩ | hk) e n he hn
    · exact wsName_refs h hpl WG hroot h2 (hlookG h1 he) (by rw [gdef_refs]; exact hn)
    · obtain ⟨d, k1, k2, -⟩ := P.stale p hk e he
      obtain ⟨d', k3, k4⟩ := start_keyword h (hkw ▸ hk)
      obtain rfl := Option.some.inj (k1.2.symm.trans k3.2)
      refine .needed (Or.inl k4) (.step .refl (by rw [← C.grammar]; exact hs.has_grammar k1) ?_)
      rw [gdef_refs, ← k2]; exact hn
  have hused : ∀ {p : Ptr}, Used s1 r1 p → ((∃ m, s1.registry.lookup m = some p ∧ WsName cs s m) ∨ p ∈ s1.keywords) := by
    rintro p ⟨a, ha, hr⟩
    have hb : (∃ m, s1.registry.lookup m = some a ∧ WsName cs s m) ∨ a ∈ s1.keywords := by
      rcases ha with ha | rfl
      · exact Or.inr ha
      · exact Or.inl ⟨_, hroot1, .needed hr0 .refl⟩
    clear ha
    induction hr with
    | refl => exact hb
    | step g1 g2 g3 _ ih => exact ih (Or.inl ⟨_, g3, hrefs hb g1 g2⟩)
  generalize s.Init = x at hfin
  cases x with
  | panic => exact hfin.elim
  | oof => exact hfin.elim
  | ok x =>
    obtain ⟨s', e⟩ := x
    refine ⟨s', e, rfl, ?_⟩
    cases e with
    | some x =>
      obtain ⟨p, d, n, h1, h2, h3, h4, h5⟩ := hfin
      have hn := hrefs (hused h1) h2 h3
      obtain ⟨a, k1, k2, k3⟩ := wsName_undefined h WG hroot hn (hGlook.2 h4)
      refine ⟨⟨fun h => (by cases h), fun hall => absurd k3 (hall a n k1 k2)⟩, ?_⟩
      intro y hy
      cases hy
      exact ⟨a, n, k1, k2, k3, h5⟩
    | none =>
      have hok : InitOK s1 r1 s' := hfin
      simp only [true_iff, reduceCtorEq, false_implies, implies_true, and_true]
      -- following a reference
      have hfol : ∀ {p : Ptr} {e : Def} {n : Name}, Used s1 r1 p → s1.heap[p]? = some e → n ∈ e.kind.refs →
          ∃ q, s1.registry.lookup n = some q ∧ Used s1 r1 q := by
        intro p e n hu he hn
        obtain ⟨q, hq⟩ := hok.defined p e n hu he hn
        obtain ⟨a, ha, hr⟩ := hu
        exact ⟨q, hq, a, ha, hr.snoc he hn hq⟩
      have hfolG : ∀ {m n : Name} {gd : GDef Name}, (∃ p, s1.registry.lookup m = some p ∧ Used s1 r1 p) →
          s1.grammar m = some gd → n ∈ gd.refs → ∃ q, s1.registry.lookup n = some q ∧ Used s1 r1 q := by
        rintro m n gd ⟨p, h1, h2⟩ hg hn
        have := P.base.lookup_lt m p h1
        have hg2 := hlookG h1 (List.getElem?_eq_getElem this)
        rw [hg] at hg2
        obtain rfl := Option.some.inj hg2
        rw [gdef_refs] at hn
        exact hfol h2 (List.getElem?_eq_getElem this) hn
      have hur : Used s1 r1 r1 := ⟨r1, Or.inr rfl, .refl⟩
      have hwsn : ∃ q, s1.registry.lookup whitespaceName = some q ∧ Used s1 r1 q :=
        hfolG ⟨r1, hroot1, hur⟩ (WG.root_ _ hdr) (by rw [gdef_refs, wsRootDef_refs]; simp)
      have hbody : ∃ q, s1.registry.lookup (patchName [dr.name, runes "wsroot"]) = some q ∧ Used s1 r1 q :=
        hfolG ⟨r1, hroot1, hur⟩ (WG.root_ _ hdr) (by rw [gdef_refs, wsRootDef_refs]; simp)
      have hthrough : ∀ {p : Ptr} {d : Def} {m n : Name} {gd : GDef Name}, s.Has p d → d.commitType.whitespace = false →
          (∃ q, s1.registry.lookup m = some q ∧ Used s1 r1 q) → s1.grammar m = some gd →
          gd.refs = d.wsRepl.gdef.refs → n ∈ d.kind.refs → ∃ q, s1.registry.lookup n = some q ∧ Used s1 r1 q := by
        intro p d m n gd hp hw hm hg hgd hn
        rw [gdef_refs] at hgd
        rcases refs_wsRepl d hn with h1 | ⟨e, h1, h2, h3⟩
        · exact hfolG hm hg (by rw [hgd]; exact h1)
        · have := hfolG hm hg (by rw [hgd]; exact h2)
          exact hfolG this (WG.gen p d hp hw e h1) (by rw [gdef_refs]; exact h3)
      intro a n ha hr
      have key : (∃ q, s1.registry.lookup n = some q ∧ Used s1 r1 q) ∨ ∃ k ∈ s1.keywords, ∃ d, s.Has k d ∧ d.name = n := by
        induction hr with
        | refl =>
          rcases ha with (ha | ⟨c, hc, hk, rfl⟩) | ⟨c, hc, hk, rfl⟩
          · obtain ⟨d, h1, h2⟩ := root_start h hroot
            obtain rfl := Option.some.inj (hdr.2.symm.trans h1.2)
            rw [ha] at h2
            obtain rfl := Option.some.inj h2
            exact Or.inl ⟨r1, hroot1, hur⟩
          · obtain ⟨k, d, h1, h2, h3⟩ := keyword_start h hc hk
            exact Or.inr ⟨k, hkw.symm ▸ h1, d, h2, h3⟩
          · obtain ⟨p, d, h1, h2, h3⟩ := ws_start_has h hc hk
            refine Or.inl (hfolG hwsn WG.merged ?_)
            simp only [GDef.refs, List.mem_filterMap]
            refine ⟨p, List.mem_filter.2 ⟨h1.1, ?_⟩, by rw [h1.2]; simp [h2]⟩
            simpa [Syntax.commitOf, h1.2] using h3
        | @step b gd m hr hg hm ih =>
          rw [← C.grammar] at hg
          obtain ⟨p, d, hp, rfl, rfl⟩ := hs.grammar_has hg
          rw [gdef_refs] at hm
          rcases ih with ih | ⟨k, hk, d', hd', hdn⟩
          · left
            cases hww : d.commitType.whitespace with
            | true => exact hfolG ih (WG.ws p d hp hww) (by rw [← gdef_refs] at hm; exact hm)
            | false =>
              by_cases hpr : p = root
              · subst hpr
                obtain rfl := Option.some.inj (hdr.2.symm.trans hp.2)
                exact hthrough hp hww hbody (WG.body _ hp) rfl hm
              · exact hthrough hp hww ih (WG.repl p d hp hww hpr) rfl hm
          · left
            obtain ⟨rfl, rfl⟩ := hs.has_inj hd' hp hdn
            have hlt := P.base.keywords_lt k hk
            obtain ⟨e0, k1, k2, -⟩ := P.stale k hk _ (List.getElem?_eq_getElem hlt)
            obtain rfl := Option.some.inj (hp.2.symm.trans k1.2)
            exact hfol ⟨k, Or.inl hk, .refl⟩ (List.getElem?_eq_getElem hlt) (by rw [k2]; exact hm)
      rcases key with ⟨q, hq, -⟩ | ⟨k, -, d, hd, rfl⟩
      · obtain ⟨p, d, hp, rfl⟩ := needed_has h hpl WG ha hr hroot (by
          cases hg : s1.grammar n with
          | none => rw [hGlook.1 hg] at hq; cases hq
          | some _ => rfl)
        rw [← C.grammar, hs.has_grammar hp]; simp
      · rw [← C.grammar, hs.has_grammar hd]; simp

theorem wsStart_iff {n : Name} : WsStart cs n ↔ Start cs n := by
  constructor
  · rintro ((h | ⟨c, h1, h2, h3⟩) | ⟨c, h1, h2, h3⟩)
    · exact Or.inl h
    · exact Or.inr ⟨c, h1, Or.inl h2, h3⟩
    · exact Or.inr ⟨c, h1, Or.inr h2, h3⟩
  · rintro (h | ⟨c, h1, h2 | h2, h3⟩)
    · exact Or.inl (Or.inl h)
    · exact Or.inl (Or.inr ⟨c, h1, h2, h3⟩)
    · exact Or.inr ⟨c, h1, h2, h3⟩

/-- `Init`, with or without whitespace definitions. -/
theorem Init_needed (h : Made cs s) (hne : cs ≠ [])
    (hpl : (∃ c ∈ cs, c.commit.whitespace = true) → PlainNames cs) (hR : RootCompatible cs) :
    ∃ s' e, s.Init = .ok (s', e) ∧ (e = none ↔ ∀ n, Needed cs n → grammarOf cs n ≠ none) ∧
      ∀ x, e = some x → ∃ n, Needed cs n ∧ grammarOf cs n = none ∧ x = .parserNotFound n := by
  by_cases hw : ∃ c ∈ cs, c.commit.whitespace = true
  · obtain ⟨s', e, h1, h2, h3⟩ := Init_refs_ws h hw (hpl hw) hR
    refine ⟨s', e, h1, h2.trans ⟨?_, ?_⟩, ?_⟩
    · rintro ha n ⟨a, h4, h5⟩
      exact ha a n (wsStart_iff.2 h4) h5
    · intro ha a n h4 h5
      exact ha n ⟨a, wsStart_iff.1 h4, h5⟩
    · intro x hx
      obtain ⟨a, n, h4, h5, h6, h7⟩ := h3 x hx
      exact ⟨n, ⟨a, wsStart_iff.1 h4, h5⟩, h6, h7⟩
  · have hw' : ∀ c ∈ cs, c.commit.whitespace = false := by
      intro c hc
      cases hcw : c.commit.whitespace with
      | false => rfl
      | true => exact absurd ⟨c, hc, hcw⟩ hw
    obtain ⟨s', e, h1, h2, h3⟩ := Init_refs h hne hw' hR
    have hst : ∀ n, PNeeded cs n ↔ Needed cs n := by
      intro n
      constructor
      · rintro ⟨a, h4, h5⟩
        exact ⟨a, wsStart_iff.1 (Or.inl h4), h5⟩
      · rintro ⟨a, h4, h5⟩
        rcases wsStart_iff.2 h4 with h4 | ⟨c, hc, hcw, -⟩
        · exact ⟨a, h4, h5⟩
        · rw [hw' c hc] at hcw; cases hcw
    refine ⟨s', e, h1, h2.trans ⟨fun ha n hn => ha n ((hst n).2 hn), fun ha n hn => ha n ((hst n).1 hn)⟩, ?_⟩
    intro x hx
    obtain ⟨n, h4, h5⟩ := h3 x hx
    exact ⟨n, (hst n).1 h4, h5⟩

end Treerack
