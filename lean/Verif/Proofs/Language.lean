import Verif.Proofs.WsCalls
import Verif.Proofs.Linked
import Verif.Proofs.Weak

/-
What the parsers of an initialized syntax derive, in terms of the definition calls.
-/

namespace Treerack
open Spec

/-! ### Without whitespace definitions -/

section NoWs

variable {N : Type} {W : WGrammar N} {input : List Rune}

mutual

theorem wderives_noWs (hws : W.ws = []) : ∀ {n i j}, WDerives W input n i j → Derives W.G input n i j
  | _, _, _, .def_ _ h => wbody_noWs hws h
  | _, _, _, .root h1 h2 h3 => by
    have ih := wbody_noWs hws h2
    obtain rfl := gap_noWs hws h1
    obtain rfl := gap_noWs hws h3
    exact ih

theorem wbody_noWs (hws : W.ws = []) : ∀ {n i j}, WBody W input n i j → Derives W.G input n i j
  | _, _, _, .char h1 h2 h3 h4 => .char h1 h2 h3 h4
  | _, _, _, .choice h1 h2 h3 h4 => .choice h1 h2 h3 (wderives_noWs hws h4)
  | _, _, _, .tight h1 h2 _ h4 => .seq h1 h2 (wtight_noWs hws h4)
  | _, _, _, .loose h1 h2 _ h4 => .seq h1 h2 (wloose_noWs hws h4)

theorem gap_noWs (hws : W.ws = []) : ∀ {i j}, Gap W input i j → i = j
  | _, _, .nil => rfl
  | _, _, .cons _ h2 _ => by rw [hws] at h2; simp at h2

theorem wtight_noWs (hws : W.ws = []) : ∀ {items i j}, WTight W input items i j → DerivesItems W.G input items i j
  | _, _, _, .nil => .nil
  | _, _, _, .cons h1 h2 h3 => .cons (wtimes_noWs hws h1) h2 (wtight_noWs hws h3)

theorem wtimes_noWs (hws : W.ws = []) : ∀ {n k i j}, WTimes W input n k i j → DerivesTimes W.G input n k i j
  | _, _, _, _, .zero => .zero
  | _, _, _, _, .succ h1 h2 => .succ (wtimes_noWs hws h1) (wderives_noWs hws h2)

theorem wloose_noWs (hws : W.ws = []) : ∀ {f items i j}, WLoose W input f items i j → DerivesItems W.G input items i j
  | _, _, _, _, .nil => .nil
  | _, _, _, _, .cons h1 h2 h3 => .cons (wocc_noWs hws h1) h2 (wloose_noWs hws h3)
  | _, _, _, _, .absent h1 h2 h3 => by
    have ih := wloose_noWs hws h3
    obtain rfl := gap_noWs hws h2
    exact .cons .zero (Or.inl ⟨by omega, by omega⟩) ih

theorem wocc_noWs (hws : W.ws = []) : ∀ {f n k i j}, WOcc W input f n k i j → DerivesTimes W.G input n k i j
  | _, _, _, _, _, .zero => .zero
  | _, _, _, _, _, .first h => .succ .zero (wderives_noWs hws h)
  | _, _, _, _, _, .succ h1 _ h3 h4 => by
    have ih1 := wocc_noWs hws h1
    have ih2 := wderives_noWs hws h4
    obtain rfl := gap_noWs hws h3
    exact .succ ih1 ih2

end

theorem wderives_body {n : N} {i j : Nat} (h : WBody W input n i j) : WDerives W input n i j := by
  rcases Classical.em (n = W.root) with rfl | hn
  · exact .root .nil h .nil
  · exact .def_ hn h

mutual

theorem derives_noWs : ∀ {n i j}, Derives W.G input n i j → WDerives W input n i j
  | _, _, _, .char h1 h2 h3 h4 => wderives_body (.char h1 h2 h3 h4)
  | _, _, _, .choice h1 h2 h3 h4 => wderives_body (.choice h1 h2 h3 (derives_noWs h4))
  | n, _, _, .seq h1 h2 h3 => by
    cases ht : W.tight n with
    | true => exact wderives_body (.tight h1 h2 ht (derivesItems_noWs h3).1)
    | false => exact wderives_body (.loose h1 h2 ht ((derivesItems_noWs h3).2 true))

theorem derivesItems_noWs : ∀ {items i j}, DerivesItems W.G input items i j →
    WTight W input items i j ∧ ∀ f, WLoose W input f items i j
  | _, _, _, .nil => ⟨.nil, fun _ => .nil⟩
  | _, _, _, .cons h1 h2 h3 =>
    ⟨.cons (derivesTimes_noWs h1).1 h2 (derivesItems_noWs h3).1,
      fun f => .cons ((derivesTimes_noWs h1).2 f) h2 ((derivesItems_noWs h3).2 false)⟩

theorem derivesTimes_noWs : ∀ {n k i j}, DerivesTimes W.G input n k i j →
    WTimes W input n k i j ∧ ∀ f, WOcc W input f n k i j
  | _, _, _, _, .zero => ⟨.zero, fun _ => .zero⟩
  | _, _, _, _, .succ (k := k) h1 h2 => by
    obtain ⟨ih1, ih2⟩ := derivesTimes_noWs h1
    have ih := derives_noWs h2
    refine ⟨.succ ih1 ih, fun f => ?_⟩
    cases k with
    | zero =>
      cases ih1
      cases f with
      | true => exact .first ih
      | false => exact .succ .zero (by simp) .nil ih
    | succ k => exact .succ (ih2 f) (fun _ => by omega) .nil ih

end

/-- Every derivation of the grammar is one with (empty) whitespace; without whitespace definitions there
are no others. -/
theorem wderives_iff_noWs (hws : W.ws = []) {n : N} {i j : Nat} :
    WDerives W input n i j ↔ Derives W.G input n i j := ⟨wderives_noWs hws, derives_noWs⟩

end NoWs

/-! ### The parsers and the calls -/

/-- A call made a definition visible in the trees. -/
def Visible (cs : List Call) (n : Name) : Prop :=
  ∃ c ∈ cs, c.name = n ∧ c.commit.alias = false ∧ c.commit.whitespace = false

structure Understood (cs : List Call) (s' : Syntax) (root : Ptr) : Prop where
  initialized : s'.initialized = true
  initFailed : s'.initFailed = false
  rootEq : s'.root = some root
  linked : Linked s'.env root
  rootDef : ∃ d, s'.env.defs[root]? = some d ∧ rootOf cs = some d.name
  visible : ∀ p d, Reach s'.env root p → s'.env.defs[p]? = some d → d.kind.isChar = false →
    d.commit.alias = false → Visible cs d.name
  derives : ∀ p d input i j, Reach s'.env root p → s'.env.defs[p]? = some d → (∃ c ∈ cs, c.name = d.name) →
    (Derives s'.env.grammar input p i j ↔ WDerives (wgrammarOf cs) input d.name i j)

theorem raw_alias {c : Call} {r : Def} (hr : r ∈ c.raw) (hk : r.kind.isChar = false) :
    r.commitType.alias = c.commit.alias := by
  cases c with
  | anyChar n ct =>
    simp only [Call.raw, List.mem_cons, List.not_mem_nil, or_false] at hr
    rcases hr with rfl | rfl
    · simp [newChar, DKind.isChar] at hk
    · rfl
  | class_ n ct neg cs rs =>
    simp only [Call.raw, List.mem_cons, List.not_mem_nil, or_false] at hr
    rcases hr with rfl | rfl
    · simp [newChar, DKind.isChar] at hk
    · rfl
  | charSequence n ct cs =>
    simp only [Call.raw, List.mem_append, List.mem_singleton] at hr
    rcases hr with hr | rfl
    · obtain ⟨x, -, rfl⟩ := List.mem_map.1 hr
      simp [newChar, DKind.isChar] at hk
    · rfl
  | sequence n ct items =>
    simp only [Call.raw, List.mem_singleton] at hr
    subst hr; rfl
  | choice n ct os =>
    simp only [Call.raw, List.mem_singleton] at hr
    subst hr; rfl

section
variable {cs : List Call} {s : Syntax}

/-- The main definition of a call. -/
theorem call_main (c : Call) : ∃ r ∈ c.raw, r.name = c.name ∧ r.kind.isChar = false ∧
    r.commitType.whitespace = c.commit.whitespace ∧ (r.commitType.noWhitespace || r.commitType.whitespace) = c.isTight := by
  cases c with
  | anyChar n ct => exact ⟨_, by simp only [Call.raw]; exact List.mem_cons_of_mem _ (List.mem_cons_self ..), rfl, rfl, rfl, by
      simp [newSequence, Def.commitType, Call.flags, Call.isTight]⟩
  | class_ n ct neg cs rs => exact ⟨_, by simp only [Call.raw]; exact List.mem_cons_of_mem _ (List.mem_cons_self ..), rfl, rfl, rfl, by
      simp [newSequence, Def.commitType, Call.flags, Call.isTight]⟩
  | charSequence n ct cs => exact ⟨_, by simp only [Call.raw]; exact List.mem_append_right _ (List.mem_cons_self ..), rfl, rfl, rfl, by
      simp [newSequence, Def.commitType, Call.flags, Call.isTight]⟩
  | sequence n ct items => exact ⟨_, by simp only [Call.raw]; exact List.mem_cons_self .., rfl, rfl, rfl, by
      simp [newSequence, Def.commitType, Call.flags, Call.isTight]⟩
  | choice n ct os => exact ⟨_, by simp only [Call.raw]; exact List.mem_cons_self .., rfl, rfl, rfl, by
      simp [newChoice, Def.commitType, Call.flags, Call.isTight]⟩

theorem call_has (h : Made cs s) {c : Call} (hc : c ∈ cs) : ∃ q e, s.Has q e ∧ e.name = c.name := by
  obtain ⟨r, hr, hrn, -⟩ := call_main c
  obtain ⟨p, e, k1, k2, k3⟩ := raw_has h hc hr
  exact ⟨p, _, k2, by rw [initRanges_name, ← plain_name, k3, hrn]⟩

/-- Calls with the same name have the same flags (they are the same call). -/
theorem call_unique (h : Made cs s) {c c' : Call} (hc : c ∈ cs) (hc' : c' ∈ cs)
    (hn : c.name = c'.name) : c.commit.alias = c'.commit.alias ∧ c.commit.whitespace = c'.commit.whitespace ∧
      c.isTight = c'.isTight := by
  have hs := (made_called h).built.inv
  obtain ⟨r, hr, hrn, hrk, hrw, hrt⟩ := call_main c
  obtain ⟨r', hr', hrn', hrk', hrw', hrt'⟩ := call_main c'
  obtain ⟨p, e, k1, k2, k3⟩ := raw_has h hc hr
  obtain ⟨p', e', k1', k2', k3'⟩ := raw_has h hc' hr'
  obtain ⟨rfl, -⟩ := hs.has_inj k2 k2' (by
    rw [initRanges_name, initRanges_name, ← plain_name, k3, hrn, hn, ← hrn', ← k3', plain_name])
  rw [k1] at k1'
  obtain rfl := Option.some.inj k1'
  rw [k3] at k3'
  subst k3'
  have h1 := raw_alias hr hrk
  have h2 := raw_alias hr' hrk
  exact ⟨h1.symm.trans h2, hrw.symm.trans hrw', hrt.symm.trans hrt'⟩

theorem has_visible (h : Made cs s) {p : Ptr} {d : Def} (hp : s.Has p d)
    (ha : d.commitType.alias = false) (hw : d.commitType.whitespace = false) : Visible cs d.name := by
  obtain ⟨e, h1, rfl, c, hc, hraw⟩ := hp.raw h
  rw [initRanges_commitType] at ha hw
  rw [initRanges_name]
  rcases raw_cases hraw with ⟨i, neg, chars, ranges, h2⟩ | ⟨hn, hws, -, -, hk, -⟩
  · have hk : e.kind = .char neg chars ranges := by rw [← plain_kind, h2]; rfl
    rw [commitType_char (by rw [hk]; rfl)] at ha
    simp at ha
  · have hal := raw_alias hraw hk
    rw [plain_commitType] at hal hws
    rw [plain_name] at hn
    refine ⟨c, hc, hn.symm, ?_, ?_⟩
    · rw [← hal]; exact ha
    · rw [← hws]; exact hw

theorem nameAt_env {s' : Syntax} {p : Ptr} {d : PDef} (h : s'.env.defs[p]? = some d) : s'.nameAt p = d.name := by
  simp only [Syntax.env, List.getElem?_map, Option.map_eq_some_iff] at h
  obtain ⟨e, h1, rfl⟩ := h
  simp [Syntax.nameAt, h1, Def.toPDef]

theorem rootOf_some {cs : List Call} (hne : cs ≠ []) : ∃ n, rootOf cs = some n := by
  unfold rootOf
  split
  · exact ⟨_, rfl⟩
  · obtain ⟨c, hc⟩ : ∃ c, cs.getLast? = some c := ⟨_, List.getLast?_eq_some_getLast hne⟩
    exact ⟨c.name, by rw [hc]; rfl⟩

theorem made_ne {s' : Syntax} (h : Made cs s) (hi : s.Init = .ok (s', none)) : cs ≠ [] := by
  cases h with
  | empty => simp [Syntax.Init] at hi
  | call => simp
  | document => simp

/-- What a successful `Init` makes of the calls. -/
theorem understood (h : Made cs s) (hsafe : WsSafe cs) {s' : Syntax}
    (hi : s.Init = .ok (s', none)) : ∃ root, Understood cs s' root := by
  have C := made_called h
  have hs := C.built.inv
  have hne : cs ≠ [] := made_ne h hi
  obtain ⟨rn, hrn⟩ := rootOf_some hne
  have hWG := calls_wgrammar h hne
  by_cases hw : s.HasWhitespace
  · obtain ⟨hpl, hkw⟩ := hsafe (by
      obtain ⟨c, h1, h2⟩ := C.whitespace.1 hw
      exact ⟨c, h1, h2⟩)
    obtain ⟨r0, root, G, hr0, WG, R⟩ := Init_ws hs hw C.rootNotChar (wsNames_nodup h hne hpl) (keywordsKept h hkw) hi
    have hrf := refsIn h hpl WG
    have key : ∀ p d, Reach s'.env root p → s'.env.defs[p]? = some d → d.kind.isChar = false →
        d.commit.alias = false → ∃ q e, s.Has q e ∧ e.name = d.name ∧ e.commitType.whitespace = false ∧
          e.commitType.alias = false := by
      intro p d hp hd hk hal
      obtain ⟨gd, g1, g2⟩ := R.morphism.def_ p hp
      rw [Env.grammar_some hd] at g1
      obtain rfl := Option.some.inj g1
      rw [nameAt_env hd] at g2
      exact WG.visible _ _ g2 (by simpa [GDef.map] using hal)
    obtain ⟨dr, hdr, -⟩ := R.linked.rootDef
    refine ⟨root, R.initialized, R.initFailed, R.rootEq, R.linked, ⟨dr, hdr, ?_⟩, ?_, ?_⟩
    · rw [hrn, ← C.root _ hrn, ← R.nameEq, nameAt_env hdr]
    · intro p d hp hd hk hal
      obtain ⟨q, e, g1, g2, g3, g4⟩ := key p d hp hd hk hal
      rw [← g2]
      exact has_visible h g1 g4 g3
    · rintro p d input i j hp hd ⟨c, hc, hcn⟩
      obtain ⟨q, e, g1, g2⟩ := call_has h hc
      rw [hcn] at g2
      rw [← R.morphism.derives_iff hp, nameAt_env hd, ← g2, ← hWG]
      exact WG.derives_iff hs hr0 hrf g1
  · obtain ⟨root, hr, R⟩ := Init_noWs hs hw C.rootNotChar hi
    have hws : (wgrammarOf cs).ws = [] := by
      simp only [wgrammarOf, List.map_eq_nil_iff, List.filter_eq_nil_iff]
      intro c hc hcw
      exact hw (C.whitespace.2 ⟨c, hc, hcw⟩)
    obtain ⟨dr, hdr, -⟩ := R.linked.rootDef
    refine ⟨root, R.initialized, R.initFailed, R.rootEq, R.linked, ⟨dr, hdr, ?_⟩, ?_, ?_⟩
    · rw [hrn, ← C.root _ hrn, ← R.nameEq, nameAt_env hdr]
    · intro p d hp hd hk hal
      obtain ⟨gd, g1, g2⟩ := R.morphism.def_ p hp
      rw [Env.grammar_some hd] at g1
      obtain rfl := Option.some.inj g1
      rw [nameAt_env hd] at g2
      obtain ⟨q, e, g3, g4, g5⟩ := hs.grammar_has g2
      have ha : e.commitType.alias = false := by
        have := congrArg GDef.alias g5
        simp only [GDef.map, Def.gdef] at this
        rw [this]; exact hal
      rw [← g4]
      refine has_visible h g3 ha ?_
      cases hww : e.commitType.whitespace with
      | false => rfl
      | true =>
        exfalso
        apply hw
        obtain ⟨e0, k1, rfl⟩ := hs.has_heap g3
        exact ⟨q, g3.1, by rw [initRanges_commitType] at hww; simpa [Syntax.commitOf, k1] using hww⟩
    · intro p d input i j hp hd _
      rw [← R.morphism.derives_iff hp, nameAt_env hd, wderives_iff_noWs hws, C.grammar]
      rfl

theorem call_defs (c : Call) : c.defs = c.raw.map fun r => (r.name, r.gdef) := by
  cases c with
  | anyChar n ct => simp [Call.defs, Call.raw, newChar, newSequence, Def.gdef, Def.commitType, charDef, charName_eq, once, bounds, Call.flags, Call.commit]
  | class_ n ct neg cs rs => simp [Call.defs, Call.raw, newChar, newSequence, Def.gdef, Def.commitType, charDef, charName_eq, once, bounds, Call.flags, Call.commit]
  | charSequence n ct cs =>
    simp only [Call.defs, Call.raw, List.map_append, List.map_map, List.map_cons, List.map_nil]
    congr 1
    · apply List.map_congr_left
      intro x hx
      simp [newChar, Def.gdef, Def.commitType, charDef, charName_eq]
    · simp [newSequence, Def.gdef, Def.commitType, Call.flags, Call.commit, once, bounds, charName_eq]
  | sequence n ct items => simp [Call.defs, Call.raw, newSequence, Def.gdef, Def.commitType, Call.flags, Call.commit]
  | choice n ct os => simp [Call.defs, Call.raw, newChoice, Def.gdef, Def.commitType, Call.flags, Call.commit]

/-- Every definition of a call is in the grammar. -/
theorem call_grammar (h : Made cs s) {c : Call} (hc : c ∈ cs) {x : Name × GDef Name}
    (hx : x ∈ c.defs) : grammarOf cs x.1 = some x.2 := by
  have C := made_called h
  have hs := C.built.inv
  rw [call_defs] at hx
  obtain ⟨r, hr, rfl⟩ := List.mem_map.1 hx
  obtain ⟨p, e, k1, k2, k3⟩ := raw_has h hc hr
  rw [← C.grammar]
  have hl := (hs.lookup e.name p).2 ⟨k2.1, e, k1, rfl⟩
  have hn : r.name = e.name := by rw [← k3, plain_name]
  simp only [Syntax.grammar, hn, hl, Option.bind_some, k1, Option.map_some, Option.some.injEq]
  rw [← k3]
  unfold Def.gdef
  rw [plain_name, plain_kind, plain_commitType]

theorem rootOf_call {n : Name} (hn : rootOf cs = some n) : ∃ c ∈ cs, c.name = n := by
  unfold rootOf at hn
  split at hn
  · rename_i c hc
    obtain rfl := Option.some.inj hn
    exact ⟨c, (List.mem_filter.1 (List.mem_of_mem_head? hc)).1, rfl⟩
  · obtain ⟨c, hc, rfl⟩ := Option.map_eq_some_iff.1 hn
    exact ⟨c, List.mem_of_getLast? hc, rfl⟩

/-- A definition call does not make a character by its own name. -/
theorem call_notChar (h : Made cs s) {c : Call} (hc : c ∈ cs) {d : GDef Name} (hd : grammarOf cs c.name = some d) :
    ∀ neg chars ranges, d.expr ≠ .char neg chars ranges := by
  have key : ∃ d', (c.name, d') ∈ c.defs ∧ ∀ neg chars ranges, d'.expr ≠ .char neg chars ranges := by
    cases c with
    | anyChar n ct => exact ⟨_, List.mem_cons_of_mem _ (List.mem_cons_self ..), by intros; simp⟩
    | class_ n ct neg cs rs => exact ⟨_, List.mem_cons_of_mem _ (List.mem_cons_self ..), by intros; simp⟩
    | charSequence n ct cs => exact ⟨_, List.mem_append_right _ (List.mem_cons_self ..), by intros; simp⟩
    | sequence n ct items => exact ⟨_, List.mem_cons_self .., by intros; simp⟩
    | choice n ct os => exact ⟨_, List.mem_cons_self .., by intros; simp⟩
  obtain ⟨d', h1, h2⟩ := key
  have := call_grammar h hc h1
  rw [hd] at this
  obtain rfl := Option.some.inj this
  exact h2

theorem charName_colon (n : Name) (i : Nat) : ¬ NoColon (charName n i) := by
  rw [charName_eq]
  intro h
  exact h (by simp [childName])

theorem wderives_nonroot {W : WGrammar Name} {input : List Rune} {n : Name} (hn : n ≠ W.root) {i j : Nat} :
    WDerives W input n i j ↔ WBody W input n i j :=
  ⟨fun h => by cases h with | root => exact absurd rfl hn | def_ _ hb => exact hb, fun h => .def_ hn h⟩

theorem wbody_tight {W : WGrammar Name} {input : List Rune} {n nm : Name} {al : Bool} {items : List (Name × Int × Int)}
    (hG : W.G n = some { name := nm, alias := al, expr := .seq items }) (ht : W.tight n = true) {i j : Nat} :
    WBody W input n i j ↔ WTight W input items i j := by
  constructor
  · intro hb
    cases hb with
    | char h1 h2 => rw [hG] at h1; cases h1; simp at h2
    | choice h1 h2 => rw [hG] at h1; cases h1; simp at h2
    | tight h1 h2 h3 h4 => rw [hG] at h1; cases h1; simp only [Expr.seq.injEq] at h2; subst h2; exact h4
    | loose h1 h2 h3 h4 => rw [ht] at h3; cases h3
  · intro hi
    exact .tight hG rfl ht hi

/-- A concatenation of characters. -/
theorem wtight_chars {W : WGrammar Name} {input : List Rune} : ∀ (l : List (Name × Rune)),
    (∀ x ∈ l, x.1 ≠ W.root ∧ ∃ nm al, W.G x.1 = some { name := nm, alias := al, expr := .char false [x.2] [] }) →
    ∀ i j, WTight W input (l.map fun x => once x.1) i j ↔
      j = i + l.length ∧ (input.drop i).take l.length = l.map Prod.snd
  | [], _, i, j => by
    simp only [List.map_nil, List.length_nil, Nat.add_zero, List.take_zero, and_true]
    exact ⟨fun h => by cases h; rfl, fun h => by subst h; exact .nil⟩
  | x :: l, hl, i, j => by
    obtain ⟨hnr, nm, al, hG⟩ := hl x (List.mem_cons_self ..)
    have ih := wtight_chars (input := input) l (fun y hy => hl y (List.mem_cons_of_mem _ hy))
    have hx : ∀ a b, WDerives W input x.1 a b ↔ input[a]? = some x.2 ∧ b = a + 1 := by
      intro a b
      rw [wderives_nonroot hnr]
      constructor
      · intro hb
        cases hb with
        | char h1 h2 h3 h4 =>
          rw [hG] at h1
          obtain rfl := Option.some.inj h1
          simp only [Expr.char.injEq] at h2
          obtain ⟨rfl, rfl, rfl⟩ := h2
          simp only [InClass, List.mem_singleton, List.not_mem_nil, false_and, exists_false, or_false, iff_true] at h4
          exact ⟨by rw [h3, h4], rfl⟩
        | choice h1 h2 => rw [hG] at h1; cases h1; simp at h2
        | tight h1 h2 => rw [hG] at h1; cases h1; simp at h2
        | loose h1 h2 => rw [hG] at h1; cases h1; simp at h2
      · rintro ⟨h1, rfl⟩
        exact .char hG rfl h1 (by simp [InClass])
    have htake : (input.drop i).take (l.length + 1) = x.2 :: l.map Prod.snd ↔
        input[i]? = some x.2 ∧ (input.drop (i + 1)).take l.length = l.map Prod.snd := by
      rw [← List.drop_drop]
      cases hd : input.drop i with
      | nil =>
        have : input[i]? = none := by
          rw [List.getElem?_eq_none_iff]
          exact List.drop_eq_nil_iff.1 hd
        simp [this]
      | cons y ys =>
        have : input[i]? = some y := by
          have := congrArg (·[0]?) hd
          simpa using this
        simp [this]
    constructor
    · intro h
      simp only [List.map_cons] at h
      cases h with
      | cons h1 h2 h3 =>
        rename_i k m
        have hk : k = 1 := by
          unfold InRange at h2
          have : (k : Int) = 1 := by omega
          omega
        subst hk
        obtain ⟨e1, e2⟩ := (ih _ _).1 h3
        cases h1 with
        | succ h4 h5 =>
          cases h4
          obtain ⟨h6, rfl⟩ := (hx _ _).1 h5
          refine ⟨by simp only [List.length_cons]; omega, ?_⟩
          simp only [List.length_cons, List.map_cons]
          exact htake.2 ⟨h6, e2⟩
    · rintro ⟨rfl, h2⟩
      simp only [List.length_cons, List.map_cons] at h2 ⊢
      obtain ⟨h3, h4⟩ := htake.1 h2
      exact .cons (.succ .zero ((hx _ _).2 ⟨h3, rfl⟩)) (Or.inl ⟨by omega, by omega⟩)
        ((ih _ _).2 ⟨by omega, h4⟩)

theorem Visible.call {n : Name} (h : Visible cs n) : ∃ c ∈ cs, c.name = n := by
  obtain ⟨c, h1, h2, -⟩ := h
  exact ⟨c, h1, h2⟩

end

/-! ### Parse -/

theorem Parse_init {s s' : Syntax} {fuel : Nat} {input : List Rune} {rend : Option Nat}
    {x : Syntax.ParseResult} (h : s.Parse fuel input rend = .ok (s', x)) (hx : ∀ e, x ≠ .syntaxError e) :
    s.Init = .ok (s', none) ∧ ∃ root y, s'.root = some root ∧ parseInput s'.env fuel root input rend = .ok y ∧
      (match y with | .error e => x = .error e | .ok t => x = .node t) := by
  unfold Syntax.Parse at h
  obtain ⟨⟨s1, e⟩, h1, h⟩ := Res.bind_eq_ok h
  cases e with
  | some e =>
    simp only [Res.ok.injEq, Prod.mk.injEq] at h
    exact absurd h.2.symm (hx e)
  | none =>
    simp only at h
    cases hr : s1.root with
    | none => rw [hr] at h; cases h
    | some root =>
      rw [hr] at h
      simp only at h
      obtain ⟨y, h2, h⟩ := Res.bind_eq_ok h
      cases y with
      | error e =>
        simp only [Res.ok.injEq, Prod.mk.injEq] at h
        obtain ⟨rfl, rfl⟩ := h
        exact ⟨h1, root, _, hr, h2, rfl⟩
      | ok t =>
        simp only [Res.ok.injEq, Prod.mk.injEq] at h
        obtain ⟨rfl, rfl⟩ := h
        exact ⟨h1, root, _, hr, h2, rfl⟩

/-- A returned tree. -/
theorem Parse_node {cs : List Call} {s s' : Syntax} {fuel : Nat} {input : List Rune} {rend : Option Nat}
    {t : Node} (h : Made cs s) (hsafe : WsSafe cs)
    (hp : s.Parse fuel input rend = .ok (s', .node t)) : ∃ root, Understood cs s' root ∧
      TreeOK s'.env (Reach s'.env root) (Derives s'.env.grammar input) root input rend t := by
  obtain ⟨hi, root, y, hr, hy, hxy⟩ := Parse_init hp (by simp)
  obtain ⟨root', U⟩ := understood h hsafe hi
  have : root = root' := by
    have := U.rootEq
    rw [hr] at this
    exact Option.some.inj this
  subst this
  refine ⟨root, U, ?_⟩
  have := parseInput_spec U.linked.closed (U.linked.interp input) (let ⟨d, h1, _, h3⟩ := U.linked.rootDef; ⟨d, h1, fun _ => h3⟩) hy
  cases y with
  | error e => simp at hxy
  | ok t' =>
    simp only [Syntax.ParseResult.node.injEq] at hxy
    subst hxy
    exact this

end Treerack
