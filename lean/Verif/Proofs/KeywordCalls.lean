import Verif.Proofs.Keyword
import Verif.Proofs.RefCalls
import Verif.Proofs.Matching

/-
The keyword checks of the parsers made by calls.
-/

namespace Treerack
open Spec Whitespace

variable {cs : List Call} {s s' : Syntax}

theorem seq_wsRepl {d : Def} {items : List (Name × Int × Int)} (h : d.gdef.expr = .seq items) :
    ∃ items', d.wsRepl.gdef.expr = .seq items' := by
  unfold Def.wsRepl
  split
  · exact ⟨_, newSequence_expr ..⟩
  · exact ⟨_, h⟩

/-- What is known of the definitions named by calls. -/
structure KeywordParsers (cs : List Call) (s' : Syntax) (root : Ptr) : Prop where
  /-- A sequence that must not match keywords. -/
  rejects : ∀ {c p d}, c ∈ cs → c.commit.noKeyword = true → c.isChoice = false →
    (rootOf cs ≠ some c.name ∨ ∀ c ∈ cs, c.commit.whitespace = false) → Reach s'.env root p → s'.env.defs[p]? = some d →
    d.name = c.name → d.commit.noKeyword = true ∧ ∃ is rs ac, d.kind = .seq is rs ac
  /-- A keyword that is a text. -/
  keyword : ∀ {k}, k ∈ cs → k.commit.keyword = true → k.isText = true →
    ∃ p d, p ∈ s'.env.keywords ∧ s'.env.defs[p]? = some d ∧ d.name = k.name ∧ TextParser s'.env p

/-- The parser of a definition that is a text. -/
theorem text_parser {G : Grammar Name} {rn : Name} {root : Ptr} (R : Ready G rn s' root) {k : Ptr} {d : PDef} {gd : GDef Name}
    {items : List (Name × Int × Int)} (hk : Reach s'.env root k) (hd : s'.env.defs[k]? = some d) (hg : G d.name = some gd)
    (he : gd.expr = .seq items) (hone : ∀ x ∈ items, x.2 = (1, 1))
    (hch : ∀ x ∈ items, ∃ gc neg chars ranges, G x.1 = some gc ∧ gc.expr = .char neg chars ranges) : TextParser s'.env k := by
  obtain ⟨x, g1, g2⟩ := R.morphism.def_ k hk
  rw [Env.grammar_some hd] at g1
  obtain rfl := Option.some.inj g1
  rw [nameAt_env hd, hg] at g2
  obtain rfl := Option.some.inj g2
  simp only [GDef.map] at he
  cases hkd : d.kind with
  | char => rw [hkd] at he; simp [PKind.expr, Expr.map] at he
  | choice => rw [hkd] at he; simp [PKind.expr, Expr.map] at he
  | seq is rs ac =>
    rw [hkd] at he
    simp only [PKind.expr, Expr.map, Expr.seq.injEq] at he
    have hmem : ∀ x ∈ is.zip rs, (s'.nameAt x.1, x.2.1, x.2.2) ∈ items := fun x hx => by
      rw [← he]; exact List.mem_map.2 ⟨x, hx, rfl⟩
    have hac := R.chars hk hd hkd
    have hlen := R.ranges hk hd hkd
    have : ac = true := by
      rw [hac, List.all_eq_true]
      intro q hq
      rw [← List.map_fst_zip hlen] at hq
      obtain ⟨y, hy, rfl⟩ := List.mem_map.1 hq
      obtain ⟨gc, neg, chars, ranges, k1, k2⟩ := hch _ (hmem y hy)
      have hrq : Reach s'.env root y.1 := .child hk hd (by rw [hkd]; exact (List.of_mem_zip hy).1)
      obtain ⟨e, hee⟩ := R.linked.closed.def_ hrq
      obtain ⟨x, g3, g4⟩ := R.morphism.def_ y.1 hrq
      rw [Env.grammar_some hee] at g3
      obtain rfl := Option.some.inj g3
      rw [k1] at g4
      obtain rfl := Option.some.inj g4
      simp only [GDef.map] at k2
      rw [hee]
      simp only [Option.map_some, Option.getD_some]
      cases hke : e.kind <;> rw [hke] at k2 <;> simp [PKind.expr, Expr.map] at k2
      rfl
    subst this
    exact ⟨d, is, rs, hd, hkd, fun x hx => hone _ (hmem x hx)⟩

theorem keyword_parsers (h : Made cs s) (hsafe : WsSafe cs) (hi : s.Init = .ok (s', none)) :
    ∃ root, Understood cs s' root ∧ KeywordParsers cs s' root := by
  obtain ⟨root, U⟩ := understood h hsafe hi
  refine ⟨root, U, ?_⟩
  have C := made_called h
  have hs := C.built.inv
  have hne : cs ≠ [] := made_ne h hi
  obtain ⟨rn, hrn⟩ := rootOf_some hne
  -- the registered definition of a call
  have hmain : ∀ {c}, c ∈ cs → ∃ q e, s.heap[q]? = some e ∧ s.Has q e.initRanges ∧ e.initRanges.name = c.name ∧
      e.kind.isChar = false ∧ e.initRanges.commitType.noKeyword = c.commit.noKeyword ∧ e.commit.keyword = c.commit.keyword := by
    intro c hc
    obtain ⟨r, hr, r1, r2, r3, r4⟩ := raw_main c
    obtain ⟨q, e, l1, l2, l3⟩ := raw_has h hc hr
    have hch : e.kind.isChar = false := by rw [← plain_kind, l3]; exact r2
    refine ⟨q, e, l1, l2, by rw [initRanges_name, ← plain_name, l3, r1], hch, ?_, ?_⟩
    · rw [initRanges_commitType, ← r3, ← l3, plain_commitType]
    · rw [← commitType_notChar hch, ← r4, ← l3, plain_commitType]
  -- a keyword is registered as such
  have hkeyword : ∀ {c}, c ∈ cs → c.commit.keyword = true → ∃ q e, s.heap[q]? = some e ∧ s.Has q e.initRanges ∧
      e.initRanges.name = c.name ∧ q ∈ s.keywords ∧ e.initRanges.commitType.whitespace = false ∧ s.root ≠ some q := by
    intro c hc hck
    obtain ⟨q, e, l1, l2, l3, l4, -, l5⟩ := hmain hc
    have hkq : q ∈ s.keywords := (hs.keywords q).2 ⟨l2.1, e, l1, l4, by rw [l5]; exact hck⟩
    have hcm := hs.compat q e l2.1 l1 l4
    have hw : e.commit.whitespace = false := by
      cases hw : e.commit.whitespace
      · rfl
      · simp [Commit.incompatible, hw, l5, hck] at hcm
    refine ⟨q, e, l1, l2, l3, hkq, ?_, ?_⟩
    · rw [initRanges_commitType, commitType_notChar l4]; exact hw
    · intro hq
      have hflag := (hs.rootFlag q e l2.1 l1 l4).2 hq
      rw [Syntax.Init_eq, if_neg (by simp [hs.initFailed]), if_neg (by simp [hs.initialized]), hq] at hi
      simp only [l1] at hi
      rw [if_pos (by rw [commitType_notChar l4]; simp [Commit.incompatible, l5, hck, hflag])] at hi
      simp at hi
  by_cases hw : s.HasWhitespace
  · obtain ⟨hpl, hkw⟩ := hsafe (by
      obtain ⟨c, h1, h2⟩ := C.whitespace.1 hw
      exact ⟨c, h1, h2⟩)
    have hkept := keywordsKept h hkw
    obtain ⟨r1, root1, s1, hr0, WG, WP, P, I, hr1, hf1, hn1, hkw1⟩ :=
      Init_ws_ok hs hw C.rootNotChar (wsNames_nodup h hne hpl) hkept hi
    have : root1 = root := by
      have := U.rootEq
      rw [I.same] at this
      rw [hr1] at this
      exact Option.some.inj this
    subst this
    have R : Ready s1.grammar s.rootName s' root1 := by
      refine ⟨by rw [I.same], by rw [I.same]; exact hf1, by rw [I.same]; exact hr1,
        I.linked P, I.morphism P, ?_, I.allChars, I.ranges⟩
      rw [← hn1]
      obtain ⟨d1, g1, -⟩ := P.rootDef
      obtain ⟨d2, g2, g3⟩ := I.sk.to g1
      simp only [Syntax.nameAt, g2, Option.map_some, Option.getD_some]
      simp only [g1, Option.map_some, Option.getD_some]
      exact Def.sk_name g3
    have hkeq : s'.env.keywords = s.keywords := by rw [← hkw1, I.same]; rfl
    have hchars : ∀ m gc neg chars ranges, grammarOf cs m = some gc → gc.expr = .char neg chars ranges →
        ∃ gc' neg chars ranges, s1.grammar m = some gc' ∧ gc'.expr = .char neg chars ranges := by
      intro m gc neg chars ranges h3 h4
      rw [← C.grammar] at h3
      obtain ⟨q, e, g4, g5, g6⟩ := hs.grammar_has h3
      obtain ⟨dr, k1, k2⟩ := hs.has_root hr0
      have hek : e.replaced = false := char_plain (by rw [g6]; exact h4)
      have hqr : q ≠ r1 := by
        rintro rfl
        have := Option.some.inj (g4.2.symm.trans k1.2)
        subst this
        have hchar : e.kind.isChar = true := by
          have := congrArg GDef.expr g6
          rw [h4] at this
          cases hk : e.kind <;> simp [Def.gdef, hk] at this
          rfl
        obtain ⟨e0, j1, rfl⟩ := hs.has_heap g4
        rw [initRanges_isChar] at hchar
        rw [C.rootNotChar _ _ hr0 j1] at hchar
        cases hchar
      by_cases hwd : e.commitType.whitespace = true
      · refine ⟨_, neg, chars, ranges, by rw [← g5]; exact WG.ws q e g4 hwd, ?_⟩
        simp only [g6, h4]
      · refine ⟨_, neg, chars, ranges, by rw [← g5]; exact WG.repl q e g4 (by simpa using hwd) hqr, ?_⟩
        unfold Def.wsRepl
        rw [if_neg (by simp [hek]), g6, h4]
    constructor
    · intro c p d hc hnk hch hroot hp hd hn
      have hroot : rootOf cs ≠ some c.name := by
        rcases hroot with h5 | h5
        · exact h5
        · obtain ⟨c, k1, k2⟩ := C.whitespace.1 hw
          rw [h5 c k1] at k2; cases k2
      obtain ⟨q, e, l1, l2, l3, l4, l5, -⟩ := hmain hc
      have hws : e.initRanges.commitType.whitespace = false := by
        have hcm := hs.compat q e l2.1 l1 l4
        rw [initRanges_commitType, commitType_notChar l4] at l5 ⊢
        cases hw : e.commit.whitespace
        · rfl
        · simp [Commit.incompatible, hw, l5, hnk] at hcm
      have hqr : s.root ≠ some q := by
        intro hq
        obtain ⟨dr, k1, k2⟩ := hs.has_root hq
        have := Option.some.inj (l2.2.symm.trans k1.2)
        apply hroot
        rw [hrn, ← C.root _ hrn, ← k2, ← this, l3]
      obtain ⟨q', e', f1, f2, f3⟩ := WP.flags q _ l2 hws hqr
      obtain ⟨e1, m1, rfl⟩ := Syntax.env_get hd
      obtain ⟨a1, m2, m3⟩ := I.sk.symm.to m1
      have hpm := P.used_mem (I.reach hp)
      have hlook := WP.lookup_name p a1 hpm m2
      have hna : a1.name = c.name := by rw [Def.sk_name m3]; exact hn
      rw [l3, ← hna, hlook] at f1
      obtain rfl := Option.some.inj f1
      rw [m2] at f2
      obtain rfl := Option.some.inj f2
      refine ⟨?_, ?_⟩
      · show e1.commitType.noKeyword = true
        rw [← Def.sk_commitType m3, f3, l5]; exact hnk
      · obtain ⟨ex, t1, t2, -⟩ := call_text c
        obtain ⟨items, rfl⟩ := t2 hch
        have hg := call_grammar h hc t1
        rw [← C.grammar] at hg
        simp only at hg
        rw [← l3, hs.has_grammar l2] at hg
        have hex := congrArg GDef.expr (Option.some.inj hg)
        obtain ⟨items', hw'⟩ := seq_wsRepl hex
        have hG := WG.repl q _ l2 hws (fun hh => hqr (by rw [hr0, hh]))
        obtain ⟨x, g1, g2⟩ := R.morphism.def_ p hp
        rw [Env.grammar_some hd] at g1
        obtain rfl := Option.some.inj g1
        rw [nameAt_env hd, hn, ← l3, hG] at g2
        have hx := congrArg GDef.expr (Option.some.inj g2)
        rw [hw'] at hx
        simp only [GDef.map] at hx
        cases hk : e1.toPDef.kind with
        | char => rw [hk] at hx; simp [PKind.expr, Expr.map] at hx
        | choice => rw [hk] at hx; simp [PKind.expr, Expr.map] at hx
        | seq is rs ac => exact ⟨is, rs, ac, rfl⟩
    · intro k hk hkk hkt
      obtain ⟨q, e, l1, l2, l3, l4, l5, l6⟩ := hkeyword hk hkk
      have hqk : q ∈ s'.env.keywords := by rw [hkeq]; exact l4
      obtain ⟨d, hd⟩ := R.linked.closed.def_ (.keyword hqk)
      have hdn : d.name = k.name := by
        obtain ⟨e1, m1, rfl⟩ := Syntax.env_get hd
        obtain ⟨a1, m2, m3⟩ := I.sk.symm.to m1
        obtain ⟨d0, n1, -, n2⟩ := WP.stale q (by rw [hkw1]; exact l4) a1 m2
        have := Option.some.inj (l2.2.symm.trans n1.2)
        show e1.name = _
        rw [← Def.sk_name m3, n2, ← this, l3]
      refine ⟨q, d, hqk, hd, hdn, ?_⟩
      obtain ⟨ex, t1, -, t2⟩ := call_text k
      obtain ⟨items, rfl, t3, t4⟩ := t2 hkt
      have hg := call_grammar h hk t1
      rw [← C.grammar] at hg
      simp only at hg
      rw [← l3, hs.has_grammar l2] at hg
      have hex := congrArg GDef.expr (Option.some.inj hg)
      have hrep : e.initRanges.replaced = false := by
        have := hkept q l4 e l1
        unfold Def.replaced at this ⊢
        rw [initRanges_commitType]
        unfold Def.initRanges
        cases hkd : e.kind <;> rw [hkd] at this <;> simpa [hkd] using this
      have hG := WG.repl q _ l2 l5 (fun hh => l6 (by rw [hr0, hh]))
      unfold Def.wsRepl at hG
      rw [if_neg (by simp [hrep]), l3, ← hdn] at hG
      refine text_parser R (.keyword hqk) hd hG hex t3 ?_
      intro x hx
      obtain ⟨neg, chars, ranges, n4⟩ := t4 x hx
      exact hchars _ _ neg chars ranges (call_grammar h hk n4) rfl
  · obtain ⟨root1, hr1, R⟩ := Init_noWs hs hw C.rootNotChar hi
    obtain ⟨root2, hr2, P, I⟩ := Init_noWs_ok hs hw C.rootNotChar hi
    rw [hr1] at hr2; cases hr2
    have : root1 = root := by
      have := U.rootEq
      rw [R.rootEq] at this
      exact Option.some.inj this
    subst this
    rw [C.grammar] at R
    have hkeq : s'.env.keywords = s.keywords := by rw [I.same]; rfl
    constructor
    · intro c p d hc hnk hch hroot hp hd hn
      obtain ⟨q, e, l1, l2, l3, l4, l5, -⟩ := hmain hc
      obtain ⟨e1, m1, rfl⟩ := Syntax.env_get hd
      obtain ⟨a1, m2, m3⟩ := I.sk.symm.to m1
      have hpm := P.used_mem (I.reach hp)
      have hpH : s.Has p a1 := ⟨hpm, m2⟩
      have hna : a1.name = c.name := by rw [Def.sk_name m3]; exact hn
      obtain ⟨rfl, rfl⟩ := hs.has_inj hpH l2 (by rw [hna, l3])
      refine ⟨?_, ?_⟩
      · show e1.commitType.noKeyword = true
        rw [← Def.sk_commitType m3, l5]; exact hnk
      · obtain ⟨ex, t1, t2, -⟩ := call_text c
        obtain ⟨items, rfl⟩ := t2 hch
        have hG := call_grammar h hc t1
        obtain ⟨x, g1, g2⟩ := R.morphism.def_ p hp
        rw [Env.grammar_some hd] at g1
        obtain rfl := Option.some.inj g1
        simp only at hG
        rw [nameAt_env hd, hn, hG] at g2
        have hx := congrArg GDef.expr (Option.some.inj g2)
        simp only [GDef.map] at hx
        cases hk : e1.toPDef.kind with
        | char => rw [hk] at hx; simp [PKind.expr, Expr.map] at hx
        | choice => rw [hk] at hx; simp [PKind.expr, Expr.map] at hx
        | seq is rs ac => exact ⟨is, rs, ac, rfl⟩
    · intro k hk hkk hkt
      obtain ⟨q, e, l1, l2, l3, l4, l5, l6⟩ := hkeyword hk hkk
      have hqk : q ∈ s'.env.keywords := by rw [hkeq]; exact l4
      obtain ⟨d, hd⟩ := R.linked.closed.def_ (.keyword hqk)
      have hdn : d.name = k.name := by
        obtain ⟨e1, m1, rfl⟩ := Syntax.env_get hd
        obtain ⟨a1, m2, m3⟩ := I.sk.symm.to m1
        have := Option.some.inj (l2.2.symm.trans m2)
        show e1.name = _
        rw [← Def.sk_name m3, ← this, l3]
      refine ⟨q, d, hqk, hd, hdn, ?_⟩
      obtain ⟨ex, t1, -, t2⟩ := call_text k
      obtain ⟨items, rfl, t3, t4⟩ := t2 hkt
      have hG := call_grammar h hk t1
      simp only at hG
      rw [← hdn] at hG
      refine text_parser R (.keyword hqk) hd hG rfl t3 ?_
      intro x hx
      obtain ⟨neg, chars, ranges, n4⟩ := t4 x hx
      exact ⟨_, neg, chars, ranges, call_grammar h hk n4, rfl⟩

end Treerack
