import Verif.Proofs.GenSyntax
import Verif.Proofs.SimInit
import Verif.Proofs.WsInit

/-
The characters of the definitions made by calls are used in a single place, without and with whitespace.
-/

namespace Treerack

open Spec Whitespace

section

variable {cs : List Call} {s : Syntax}

/-- The name of a registered character. -/
def CharOf (s : Syntax) (x : Name) : Prop := ∃ q e, s.Has q e ∧ e.name = x ∧ e.kind.isChar = true

theorem expr_isChar {N : Type} {e : Expr N} (h : e.isChar = true) : ∃ neg chars ranges, e = .char neg chars ranges := by
  cases e with
  | char neg chars ranges => exact ⟨_, _, _, rfl⟩
  | choice => cases h
  | seq => cases h

theorem charRef_class {e : Def} {n : Name} (hn : e.name = n) {fl : Commit} (hr : e.plain = newSequence n fl [{ name := childName n 0 }])
    {x : Name} {i : Nat} (hx : e.initRanges.kind.refs[i]? = some x) :
    x = charName e.initRanges.name i ∧ (∃ os, e.initRanges.items = [os] ∧ os.max = 1) := by
  have hk : e.kind = (newSequence n fl [{ name := childName n 0 }]).kind := by rw [← hr, plain_kind]
  rw [initRanges_refs, hk] at hx
  simp only [newSequence, DKind.refs, List.map_cons, List.map_nil] at hx
  have hi : i = 0 := by
    rcases i with _ | i
    · rfl
    · simp at hx
  subst hi
  simp only [List.getElem?_cons_zero, Option.some.injEq] at hx
  refine ⟨by rw [initRanges_name, hn, ← hx, charName_eq], ?_⟩
  simp only [newSequence] at hk
  simp only [Def.initRanges, hk, Def.items, List.map_cons, List.map_nil]
  exact ⟨_, rfl, by rw [normalizeItemRange_eq]; rfl⟩

theorem wsGen_seq {sn : Name} : ∀ {items : List SeqItem} {i : Nat} {e : Def}, e ∈ (applyToItems sn i items).1 →
    e.kind.isChar = false
  | [], _, _, h => by simp [applyToItems] at h
  | x :: xs, i, e, h => by
    rw [applyToItems_cons] at h
    rcases List.mem_append.1 h with h | h
    · by_cases h1 : x.max = 1
      · rw [applyToItem_once h1] at h; simp at h
      · by_cases h2 : 0 < x.min
        · rw [applyToItem_many h1 h2] at h
          simp only [List.mem_singleton] at h
          subst h; rfl
        · rw [applyToItem_opt h1 (by omega)] at h
          simp only [List.mem_cons, List.not_mem_nil, or_false] at h
          rcases h with rfl | rfl <;> rfl
    · exact wsGen_seq h

variable (h : Made cs s)
include h

/-- A reference to a character is its own number. -/
theorem charRef (hpl : PlainRefs cs) {p : Ptr} {d : Def} (hp : s.Has p d) {x : Name} {i : Nat}
    (hx : d.kind.refs[i]? = some x) (hc : CharOf s x) :
    x = charName d.name i ∧ (∀ os ds, d.kind ≠ .choice os ds) ∧
    (d.replaced = true → ∃ it, d.items = [it] ∧ it.max = 1) := by
  have C := made_called h
  have hs := C.built.inv
  obtain ⟨q, ex, hq, rfl, hqc⟩ := hc
  obtain ⟨e, h1, rfl, c, hcm, hraw⟩ := hp.raw h
  have hnot : ∀ n ∈ c.refs, n ≠ ex.name := by
    rintro n hn rfl
    have hg := hs.has_grammar hq
    rw [C.grammar] at hg
    obtain ⟨neg, chars, ranges, hce⟩ := expr_isChar (e := ex.gdef.expr) (by rw [gdef_isChar]; exact hqc)
    exact hpl c hcm _ hn _ hg neg chars ranges hce
  have hkind : e.plain.kind = e.kind := plain_kind e
  have hname : e.plain.name = e.name := plain_name e
  have hcls : ∀ n fl, e.plain = newSequence n fl [{ name := childName n 0 }] → ex.name = charName e.initRanges.name i ∧
      (∀ os ds, e.initRanges.kind ≠ .choice os ds) ∧
      (e.initRanges.replaced = true → ∃ it, e.initRanges.items = [it] ∧ it.max = 1) := by
    intro n fl hr
    obtain ⟨g1, g2⟩ := charRef_class (by rw [← hname, hr]; rfl) hr hx
    refine ⟨g1, ?_, fun _ => g2⟩
    obtain ⟨os, g2, -⟩ := g2
    intro os' ds' hk
    rw [Def.items, hk] at g2
    cases g2
  have hchr : ∀ n neg chars ranges, e.plain = newChar n neg chars ranges → False := by
    intro n neg chars ranges hr
    rw [hr] at hkind
    rw [initRanges_refs, ← hkind] at hx
    simp [newChar, DKind.refs] at hx
  cases c with
  | anyChar n ct =>
    simp only [Call.raw, List.mem_cons, List.not_mem_nil, or_false] at hraw
    rcases hraw with hr | hr
    · exact (hchr _ _ _ _ hr).elim
    · exact hcls _ _ hr
  | class_ n ct neg chars ranges =>
    simp only [Call.raw, List.mem_cons, List.not_mem_nil, or_false] at hraw
    rcases hraw with hr | hr
    · exact (hchr _ _ _ _ hr).elim
    · exact hcls _ _ hr
  | charSequence n ct chars =>
    simp only [Call.raw, List.mem_append, List.mem_singleton] at hraw
    rcases hraw with hr | hr
    · obtain ⟨y, -, hr⟩ := List.mem_map.1 hr
      exact (hchr _ _ _ _ hr.symm).elim
    · have hk := hkind
      rw [hr] at hk
      have hn : e.name = n := by rw [← hname, hr]; rfl
      rw [initRanges_refs, ← hk] at hx
      simp only [newSequence, DKind.refs, List.map_map, List.getElem?_map, Option.map_eq_some_iff, Function.comp_apply] at hx
      obtain ⟨j, hj, hx⟩ := hx
      have hij : j = i := by
        obtain ⟨h1, h2⟩ := List.getElem?_eq_some_iff.1 hj
        simpa using h2.symm
      subst hij
      refine ⟨by rw [initRanges_name, hn, ← hx, charName_eq], ?_, ?_⟩
      · intro os ds hk'
        simp only [newSequence] at hk
        rw [Def.initRanges, ← hk] at hk'
        cases hk'
      · intro hrep
        exfalso
        have hct : e.commitType.noWhitespace = true := by
          have h2 : e.plain.commitType.noWhitespace = e.commitType.noWhitespace := by rw [plain_commitType]
          rw [← h2, hr]
          rfl
        simp [Def.replaced, initRanges_commitType, hct] at hrep
  | sequence n ct items =>
    simp only [Call.raw, List.mem_singleton] at hraw
    rw [hraw] at hkind
    rw [initRanges_refs, ← hkind] at hx
    exact absurd rfl (hnot _ (by
      simp only [newSequence, DKind.refs] at hx
      exact List.mem_of_getElem? hx))
  | choice n ct os =>
    simp only [Call.raw, List.mem_singleton] at hraw
    rw [hraw] at hkind
    rw [initRanges_refs, ← hkind] at hx
    exact absurd rfl (hnot _ (by
      simp only [newChoice, DKind.refs] at hx
      exact List.mem_of_getElem? hx))

/-- Without whitespace. -/
theorem charUse_noWs (hpl : PlainRefs cs) : CharUse ({ s with heap := s.preHeap } : Syntax).grammar := by
  have C := made_called h
  have hs := C.built.inv
  have hget : ∀ {n gd}, ({ s with heap := s.preHeap } : Syntax).grammar n = some gd → ∃ p d, s.Has p d ∧ d.name = n ∧ gd = d.gdef := by
    intro n gd hg
    simp only [Syntax.grammar, Option.bind_eq_some_iff, Option.map_eq_some_iff] at hg
    obtain ⟨p, h1, d, h2, rfl⟩ := hg
    obtain ⟨hm, e, h3, h4⟩ := (hs.lookup _ _).1 h1
    have hp : s.Has p d := ⟨hm, h2⟩
    obtain ⟨e', h5, rfl⟩ := hs.has_heap hp
    rw [h3] at h5
    obtain rfl := Option.some.inj h5
    exact ⟨p, _, hp, by rw [initRanges_name]; exact h4, rfl⟩
  refine ⟨?_, ?_⟩
  · intro n m x gd ge gx i j hn hm hi hj hx hc
    obtain ⟨p, d, hp, rfl, rfl⟩ := hget hn
    obtain ⟨q, e, hq, rfl, rfl⟩ := hget hm
    obtain ⟨r, f, hr, rfl, rfl⟩ := hget hx
    rw [gdef_exprRefs] at hi hj
    rw [gdef_isChar] at hc
    have h1 := (charRef h hpl hp hi ⟨r, f, hr, rfl, hc⟩).1
    have h2 := (charRef h hpl hq hj ⟨r, f, hr, rfl, hc⟩).1
    exact charName_inj (h1.symm.trans h2)
  · intro n gd os o go hn hk ho hg
    obtain ⟨p, d, hp, rfl, rfl⟩ := hget hn
    obtain ⟨r, f, hr, rfl, rfl⟩ := hget hg
    cases hc : f.gdef.expr.isChar with
    | false => rfl
    | true =>
      exfalso
      obtain ⟨i, hi⟩ := List.getElem?_of_mem ho
      have hi' : d.kind.refs[i]? = some f.name := by rw [← gdef_exprRefs, hk]; exact hi
      have h1 := (charRef h hpl hp hi' ⟨r, f, hr, rfl, by rw [← gdef_isChar]; exact hc⟩).2.1
      cases hkk : d.kind with
      | char => simp [Def.gdef, hkk] at hk
      | choice os ds => exact h1 _ _ hkk
      | seq => simp [Def.gdef, hkk] at hk

/-- The names that the whitespace adds are not names of characters. -/
theorem charOf_numbered (hpl : PlainNames cs) {x : Name} (hc : CharOf s x) : Numbered x := by
  obtain ⟨P, hP, hpl⟩ := hpl.scheme
  obtain ⟨q, e, hq, rfl, -⟩ := hc
  exact has_orig h hP hpl hq

theorem charOf_ne_ws (hpl : PlainNames cs) {x : Name} (hc : CharOf s x) : x ≠ whitespaceName := by
  have e : whitespaceName = [] ++ colon :: runes "ws" := by decide
  rw [e]
  exact orig_ne_special (charOf_numbered h hpl hc) (by unfold NoColon; decide) (by decide)

theorem charOf_ne_body (hpl : PlainNames cs) {x n : Name} (hc : CharOf s x) : x ≠ patchName [n, runes "wsroot"] := by
  rw [patchName2]
  exact orig_ne_special (charOf_numbered h hpl hc) (by unfold NoColon; decide) (by decide)

theorem charOf_ne_gen (hpl : PlainNames cs) {x : Name} (hc : CharOf s x) {d e : Def} (he : e ∈ d.wsGen) : x ≠ e.name := by
  unfold Def.wsGen at he
  split at he
  · obtain ⟨o, k, it, -, -, -, h3⟩ := wsGen_names he
    rw [h3]
    exact orig_ne_gen (charOf_numbered h hpl hc)
  · cases he

/-- The generated definitions do not use characters. -/
theorem charRef_gen (hpl : PlainRefs cs) (hpn : PlainNames cs) {p : Ptr} {d e : Def} (hp : s.Has p d) (he : e ∈ d.wsGen) {x : Name}
    (hx : x ∈ e.kind.refs) : ¬ CharOf s x := by
  intro hc
  rcases wsGen_refs he hx with h1 | h1 | ⟨e', h1, h2⟩
  · exact charOf_ne_ws h hpn hc h1
  · obtain ⟨i, hi⟩ := List.getElem?_of_mem h1
    have h2 := (charRef h hpl hp hi hc).2.2
    unfold Def.wsGen at he
    split at he
    · rename_i hr
      obtain ⟨it, h3, h4⟩ := h2 hr
      rw [h3, applyToItems_cons, applyToItem_once h4] at he
      simp [applyToItems] at he
    · cases he
  · exact charOf_ne_gen h hpn hc h1 h2

/-- The same as `charRef`, for the definitions that replace others. -/
theorem charRef_repl (hpl : PlainRefs cs) (hpn : PlainNames cs) {p : Ptr} {d : Def} (hp : s.Has p d) {x : Name} {i : Nat}
    (hx : d.wsRepl.kind.refs[i]? = some x) (hc : CharOf s x) :
    x = charName d.name i ∧ (∀ os ds, d.wsRepl.kind ≠ .choice os ds) := by
  by_cases hr : d.replaced = true
  · rcases wsRepl_refs d (List.mem_of_getElem? hx) with h1 | h1 | ⟨e', h1, h2⟩
    · exact absurd h1 (charOf_ne_ws h hpn hc)
    · obtain ⟨j, hj⟩ := List.getElem?_of_mem h1
      obtain ⟨h2, -, h3⟩ := charRef h hpl hp hj hc
      obtain ⟨it, h3, h4⟩ := h3 hr
      rw [items_refs hr, h3] at hj
      have hz : ∀ {k : Nat} {a : Name}, [a][k]? = some x → k = 0 := by
        intro k a hk
        rcases k with _ | k
        · rfl
        · simp at hk
      have hj0 : j = 0 := hz hj
      have hk : d.wsRepl.kind = (newSequence d.name d.commitType [it]).kind := by
        unfold Def.wsRepl
        rw [if_pos hr, h3, applyToItems_cons, applyToItem_once h4]
        simp [applyToItems, leadItems]
      rw [hk] at hx
      have hi0 : i = 0 := hz hx
      subst hj0 hi0
      refine ⟨h2, ?_⟩
      rw [hk]
      intro os ds hh
      cases hh
    · exact absurd h2 (charOf_ne_gen h hpn hc h1)
  · have hd : d.wsRepl = d := by unfold Def.wsRepl; rw [if_neg hr]
    rw [hd] at hx ⊢
    obtain ⟨h1, h2, -⟩ := charRef h hpl hp hx hc
    exact ⟨h1, h2⟩

/-- The roles of the names after the whitespace was applied. -/
theorem ws_roles {r0 : Ptr} {G : Grammar Name} (WG : WsGrammar s r0 G) (hroot : s.root = some r0) {n : Name} {gd : GDef Name}
    (hg : G n = some gd) :
    (∃ p d, s.Has p d ∧ d.name = n ∧ d.commitType.whitespace = true ∧ gd.expr = d.gdef.expr) ∨
    (∃ p d, s.Has p d ∧ d.name = n ∧ d.commitType.whitespace = false ∧ n ≠ s.rootName ∧ gd.expr = d.wsRepl.gdef.expr) ∨
    (∃ p d e, s.Has p d ∧ e ∈ d.wsGen ∧ gd.expr = e.gdef.expr) ∨
    (n = whitespaceName ∧ gd.expr = .choice ((wsPart s.preHeap s.registry.definitions).filterMap fun p => (s.preHeap[p]?).map Def.name)) ∨
    (n = s.rootName ∧ gd.expr = (wsRootDef s.rootName).gdef.expr) ∨
    (∃ d, s.Has r0 d ∧ d.name = s.rootName ∧ n = patchName [s.rootName, runes "wsroot"] ∧ gd.expr = d.wsRepl.gdef.expr) := by
  have C := made_called h
  have hs := C.built.inv
  obtain ⟨dr, hdr, hrn⟩ := hs.has_root hroot
  have hm := WG.names n gd hg
  unfold Syntax.wsNames at hm
  rw [List.mem_append, List.mem_append, List.map_flatMap] at hm
  rcases hm with (hm | hm) | hm
  · obtain ⟨q, hq, ha⟩ := List.mem_flatMap.1 hm
    obtain ⟨hq1, hq2⟩ := List.mem_filter.1 hq
    obtain ⟨e', h3, h4⟩ := hs.has hq1
    have hw : e'.initRanges.commitType.whitespace = false := by simpa [Syntax.commitOf, h4.2] using hq2
    unfold wsBlock at ha
    rw [h4.2] at ha
    simp only [List.map_append, List.map_cons, List.map_nil, wsRepl_name, List.mem_append, List.mem_singleton] at ha
    rcases ha with ha | rfl
    · obtain ⟨e, he, rfl⟩ := List.mem_map.1 ha
      rw [WG.gen q _ h4 hw e he] at hg
      exact Or.inr (Or.inr (Or.inl ⟨q, _, e, h4, he, by rw [← Option.some.inj hg]⟩))
    · by_cases hqr : q = r0
      · subst hqr
        obtain rfl := Option.some.inj (hdr.2.symm.trans h4.2)
        rw [WG.root_ _ hdr] at hg
        exact Or.inr (Or.inr (Or.inr (Or.inr (Or.inl ⟨hrn, by rw [← Option.some.inj hg, hrn]⟩))))
      · rw [WG.repl q _ h4 hw hqr] at hg
        refine Or.inr (Or.inl ⟨q, _, h4, rfl, hw, ?_, by rw [← Option.some.inj hg]⟩)
        intro hh
        exact hqr (hs.has_inj h4 hdr (hh.trans hrn.symm)).1
  · obtain ⟨q, hq, hb⟩ := List.mem_filterMap.1 hm
    obtain ⟨hq1, hq2⟩ := List.mem_filter.1 hq
    obtain ⟨e', h3, h4⟩ := hs.has hq1
    rw [h4.2] at hb
    simp only [Option.map_some, Option.some.injEq] at hb
    have hw : e'.initRanges.commitType.whitespace = true := by simpa [Syntax.commitOf, h4.2] using hq2
    subst hb
    rw [WG.ws q _ h4 hw] at hg
    exact Or.inl ⟨q, _, h4, rfl, hw, by rw [← Option.some.inj hg]⟩
  · simp only [List.mem_cons, List.not_mem_nil, or_false] at hm
    rcases hm with rfl | rfl
    · rw [WG.merged] at hg
      exact Or.inr (Or.inr (Or.inr (Or.inl ⟨rfl, by rw [← Option.some.inj hg]⟩)))
    · rw [← hrn, WG.body _ hdr] at hg
      exact Or.inr (Or.inr (Or.inr (Or.inr (Or.inr ⟨dr, hdr, hrn, rfl, by rw [← Option.some.inj hg]⟩))))

omit h in
theorem wsRepl_char {d : Def} (hc : d.wsRepl.kind.isChar = true) : d.kind.isChar = true := by
  unfold Def.wsRepl at hc
  split at hc
  · cases hc
  · exact hc

theorem ws_charOf {r0 : Ptr} {G : Grammar Name} (WG : WsGrammar s r0 G) (hroot : s.root = some r0) {n : Name} {gd : GDef Name}
    (hg : G n = some gd) (hc : gd.expr.isChar = true) : CharOf s n := by
  have C := made_called h
  have hs := C.built.inv
  rcases ws_roles h WG hroot hg with ⟨p, d, hp, hn, -, he⟩ | ⟨p, d, hp, hn, -, -, he⟩ | ⟨p, d, e, -, h1, he⟩ | ⟨-, he⟩ | ⟨-, he⟩ |
      ⟨d, hp, -, -, he⟩ <;> rw [he] at hc
  · exact ⟨p, d, hp, hn, by rw [← gdef_isChar]; exact hc⟩
  · rw [gdef_isChar] at hc
    exact ⟨p, d, hp, hn, wsRepl_char hc⟩
  · rw [gdef_isChar] at hc
    unfold Def.wsGen at h1
    split at h1
    · rw [wsGen_seq h1] at hc; cases hc
    · cases h1
  · cases hc
  · cases hc
  · rw [gdef_isChar] at hc
    obtain ⟨e0, k1, rfl⟩ := hs.has_heap hp
    have := C.rootNotChar r0 e0 hroot k1
    have hh := wsRepl_char hc
    rw [initRanges_isChar, this] at hh
    cases hh

theorem charUse_ws (hpl : PlainRefs cs) (hpn : PlainNames cs) {r0 : Ptr} {G : Grammar Name} (WG : WsGrammar s r0 G)
    (hroot : s.root = some r0) : CharUse G := by
  have C := made_called h
  have hs := C.built.inv
  have key : ∀ {n x gd} {i : Nat}, G n = some gd → gd.expr.refs[i]? = some x → CharOf s x →
      (∀ os, gd.expr ≠ .choice os) ∧ ((x = charName n i ∧ n ≠ s.rootName ∧ n ≠ patchName [s.rootName, runes "wsroot"]) ∨
        (n = patchName [s.rootName, runes "wsroot"] ∧ x = charName s.rootName i)) := by
    intro n x gd i hg hx hc
    have hnb : ∀ {p d}, s.Has p d → d.name ≠ patchName [s.rootName, runes "wsroot"] := by
      intro p d hp
      obtain ⟨P, hP, hpl⟩ := hpn.scheme
      rw [patchName2]
      exact orig_ne_special (has_orig h hP hpl hp) (by unfold NoColon; decide) (by decide)
    have hchoice : ∀ {d : Def}, (∀ os ds, d.kind ≠ .choice os ds) → ∀ os, d.gdef.expr ≠ .choice os := by
      intro d hd os he
      unfold Def.gdef at he
      cases hk : d.kind <;> simp [hk] at he
      exact hd _ _ hk
    rcases ws_roles h WG hroot hg with ⟨p, d, hp, hn, hw, he⟩ | ⟨p, d, hp, hn, -, hr, he⟩ | ⟨p, d, e, hp, h1, he⟩ | ⟨-, he⟩ | ⟨-, he⟩ |
        ⟨d, hp, hn, hb, he⟩ <;> rw [he] at hx ⊢
    · rw [gdef_exprRefs] at hx
      obtain ⟨h1, h2, -⟩ := charRef h hpl hp hx hc
      refine ⟨hchoice h2, Or.inl ⟨by rw [← hn]; exact h1, ?_, by rw [← hn]; exact hnb hp⟩⟩
      rintro rfl
      obtain ⟨dr, hdr, hrn⟩ := hs.has_root hroot
      obtain ⟨rfl, rfl⟩ := hs.has_inj hp hdr (hn.trans hrn.symm)
      have k1 := WG.root_ _ hdr
      have k2 := WG.ws _ _ hdr hw
      rw [k1] at k2
      have := congrArg GDef.alias (Option.some.inj k2)
      simp [wsRootDef, Def.gdef, newSequence, Def.commitType] at this
    · rw [gdef_exprRefs] at hx
      obtain ⟨h1, h2⟩ := charRef_repl h hpl hpn hp hx hc
      exact ⟨hchoice h2, Or.inl ⟨by rw [← hn]; exact h1, hr, by rw [← hn]; exact hnb hp⟩⟩
    · rw [gdef_exprRefs] at hx
      exact absurd hc (charRef_gen h hpl hpn hp h1 (List.mem_of_getElem? hx))
    · exfalso
      have hm := List.mem_of_getElem? hx
      simp only [Expr.refs, List.mem_filterMap] at hm
      obtain ⟨p, hp, hm⟩ := hm
      obtain ⟨d, hd, rfl⟩ := Option.map_eq_some_iff.1 hm
      have hp' := List.mem_filter.1 hp
      have hw : d.commitType.whitespace = true := by simpa [Syntax.commitOf, hd] using hp'.2
      obtain ⟨q, e, hq, hn, hk⟩ := hc
      obtain ⟨rfl, rfl⟩ := hs.has_inj hq ⟨hp'.1, hd⟩ hn
      rw [commitType_char hk] at hw
      cases hw
    · exfalso
      rw [gdef_exprRefs, wsRootDef_refs] at hx
      have hm := List.mem_of_getElem? hx
      simp only [List.mem_cons, List.not_mem_nil, or_false] at hm
      rcases hm with rfl | rfl | rfl
      · exact charOf_ne_ws h hpn hc rfl
      · exact charOf_ne_body h hpn hc rfl
      · exact charOf_ne_ws h hpn hc rfl
    · rw [gdef_exprRefs] at hx
      obtain ⟨h1, h2⟩ := charRef_repl h hpl hpn hp hx hc
      exact ⟨hchoice h2, Or.inr ⟨hb, by rw [← hn]; exact h1⟩⟩
  refine ⟨?_, ?_⟩
  · intro n m x gd ge gx i j hn hm hi hj hx hc
    have hco := ws_charOf h WG hroot hx hc
    rcases (key hn hi hco).2 with ⟨h1, h2, h3⟩ | ⟨h1, h2⟩
    · rcases (key hm hj hco).2 with ⟨k1, k2, k3⟩ | ⟨k1, k2⟩
      · exact charName_inj (h1.symm.trans k1)
      · exact absurd (charName_inj (h1.symm.trans k2)).1 h2
    · rcases (key hm hj hco).2 with ⟨k1, k2, k3⟩ | ⟨k1, k2⟩
      · exact absurd (charName_inj (k1.symm.trans h2)).1 k2
      · exact ⟨h1.trans k1.symm, (charName_inj (h2.symm.trans k2)).2⟩
  · intro n gd os o go hn hk ho hg
    cases hc : go.expr.isChar with
    | false => rfl
    | true =>
      exfalso
      obtain ⟨i, hi⟩ := List.getElem?_of_mem ho
      exact (key hn (by rw [hk]; exact hi) (ws_charOf h WG hroot hg hc)).1 _ hk

/-- Everything that the generator relies on. -/
theorem generatable {s' : Syntax} (hi : s.Init = .ok (s', none)) (hpl : PlainRefs cs) (hsafe : WsSafe cs) :
    ∃ root, s'.root = some root ∧ Generatable s'.env root := by
  have C := made_called h
  have hs := C.built.inv
  by_cases hw : s.HasWhitespace
  · obtain ⟨hpn, hkw⟩ := hsafe (by
      obtain ⟨c, hc, hcw⟩ := C.whitespace.1 hw
      exact ⟨c, hc, hcw⟩)
    obtain ⟨r0, root, s1, hroot, WG, WP, P, I, hr1, -, -, hk1⟩ := Init_ws_ok hs hw C.rootNotChar
      (wsNames_nodup h (made_ne h hi) hpn) (keywordsKept h hkw) hi
    refine ⟨root, by rw [I.same]; exact hr1, I.generatable P ?_ (charUse_ws h hpl hpn WG hroot)⟩
    intro k hk d hd
    obtain ⟨d0, h1, h2, -⟩ := WP.stale k hk d hd
    rw [hk1] at hk
    obtain ⟨hm, e, h3, h4, -⟩ := (hs.keywords k).1 hk
    obtain ⟨e', h5, rfl⟩ := hs.has_heap h1
    rw [h3] at h5
    obtain rfl := Option.some.inj h5
    rw [h2, initRanges_isChar]; exact h4
  · obtain ⟨root, hr, P, I⟩ := Init_noWs_ok hs hw C.rootNotChar hi
    refine ⟨root, by rw [I.same]; exact hr, I.generatable P ?_ (charUse_noWs h hpl)⟩
    intro k hk d hd
    obtain ⟨hm, e, h1, h2, -⟩ := (hs.keywords k).1 hk
    obtain ⟨e', h3, rfl⟩ := hs.has_heap (p := k) ⟨hm, hd⟩
    rw [h1] at h3
    obtain rfl := Option.some.inj h3
    rw [initRanges_isChar]; exact h2

end

end Treerack
