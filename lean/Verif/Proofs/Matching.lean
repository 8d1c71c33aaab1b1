import Verif.Proofs.RefCalls

/-
What the plain characters match: the sequences of characters, in every syntax and after any attempts.
-/

namespace Treerack
open Spec

section
variable {env : Env} {root : Ptr} {input : List Rune} {H : Nat → Nat → Nat → Prop}

/-- A keyword check keeps the invariant. -/
theorem check_spec {env : Env} {R : Ptr → Prop} {input : List Rune} {rend : Option Nat} {D : Ptr → Nat → Nat → Prop}
    {H : Nat → Nat → Nat → Prop} (C : Closed env R) (I : Interp env R input D H) {c : Ctx} {i j n : Nat}
    (h : Inv env input rend H c) (hi : i ≤ c.tokens.length) :
    (isKeyword (parse env n) env.keywords c i j).Spec True True fun x => Frame c x.2 ∧ Inv env input rend H x.2 :=
  (isKeyword_spec (D := D) (Q := R) (pc := c.res.pcount)
    (fun q c hq hc _ => (parse_spec C I (env.bounds R) n q c hq hc).mono (fun _ => trivial) (fun _ => trivial) fun _ h => h)
    (fun _ hk => C.keyword hk) h hi fun _ _ => rfl).imp fun _ h => ⟨h.1, h.2.1⟩

/-- The context after any attempts. -/
theorem AttemptsOf.inv {Q : Ptr → Prop} (L : Linked env root) {c : Ctx} (h : AttemptsOf Q env root input c) :
    Inv env input none (DerivH env root input) c ∧ (∀ o i, c.res.pcount o i = 0) ∧ c.offsetLimit = -1 := by
  induction h with
  | start => exact ⟨.init, fun _ _ => rfl, rfl⟩
  | @attempt c c' p i n _ hp _ hi hc ih =>
    obtain ⟨h1, h3, h4⟩ := ih
    have hE := (parse_spec L.closed (L.interp input) (env.bounds _) n p { c with offset := i } hp
      ⟨h1.split, h1.clean, h1.rendEq, h1.eof, h1.rerr, hi, h1.cons, h1.failLo, h1.failHi, h1.failing, h1.store, h1.once⟩).of_eq hc
    refine ⟨hE.inv, fun o i => ?_, ?_⟩
    · rw [hE.frame.pc]; exact h3 _ _
    · rw [hE.frame.lim]; exact h4
  | @check c c' p d i j n b _ hp hd hn hij hi hc ih =>
    obtain ⟨h1, h3, h4⟩ := ih
    have hE := (check_spec L.closed (L.interp input) h1 hi).of_eq hc
    refine ⟨hE.2, fun o i => ?_, ?_⟩
    · rw [hE.1.pc]; exact h3 _ _
    · rw [hE.1.lim]; exact h4

theorem Inv.at {env : Env} {rend : Option Nat} {c : Ctx} {i : Nat} (h1 : Inv env input rend H c) (hi : i ≤ c.tokens.length) :
    Inv env input rend H { c with offset := i } :=
  ⟨h1.split, h1.clean, h1.rendEq, h1.eof, h1.rerr, hi, h1.cons, h1.failLo, h1.failHi, h1.failing, h1.store, h1.once⟩

/-- A character of the class is matched. -/
theorem charParse_match {neg : Bool} {chars : List Rune} {ranges : List (Rune × Rune)} {c : Ctx} {t : Rune} {ob : Prop}
    (h : Inv env input none H c) (hl : c.offsetLimit = -1) (hval : replacementChar ∉ input)
    (ht : input[c.offset]? = some t) (hm : InClass neg chars ranges t) :
    (charParse neg chars ranges c).Spec False ob (fun c' => c'.matchLast = true ∧ c'.offset = c.offset + 1 ∧
      Inv env input none H c' ∧ c'.offsetLimit = -1) := by
  unfold charParse
  refine Res.Spec.bind ((token_spec (ob := ob) h).mono (fun x => hval x) id fun _ h => h) ?_
  rintro ⟨tok, c'⟩ hp
  have hoff := hp.offset
  have hlim := hp.frame.lim
  simp only at hoff hlim
  cases tok with
  | none =>
    have := hp.none rfl (by omega) hval
    rw [ht] at this; cases this
  | some t' =>
    obtain ⟨h1, h2⟩ := hp.some t' rfl
    rw [ht] at h1; cases h1
    simp only [(matchChar_iff ..).2 hm, if_true, Res.Spec.ok_iff]
    simp only at h2
    have hinv := hp.inv
    simp only at hinv
    refine ⟨rfl, by simp [Ctx.success, hoff], hinv.success (by omega), ?_⟩
    simp [Ctx.success, hlim, hl]

/-- Characters one after the other are matched. -/
theorem seqLoop_chars {rec : Ptr → Ctx → Res Ctx} {p : Ptr} {d : PDef} {from_ : Nat} (hval : replacementChar ∉ input)
    (hrec : ∀ q c t e neg chars ranges, env.defs[q]? = some e → e.kind = .char neg chars ranges →
      Inv env input none H c → c.offsetLimit = -1 → input[c.offset]? = some t → InClass neg chars ranges t →
      (rec q c).Spec False True (fun c' => c'.matchLast = true ∧ c'.offset = c.offset + 1 ∧
        Inv env input none H c' ∧ c'.offsetLimit = -1)) :
    ∀ (n : Nat) (its : List (Ptr × (Int × Int))) (to j : Nat) (c : Ctx),
      (∀ x ∈ its, x.2 = (1, 1) ∧ ∃ e, env.defs[x.1]? = some e ∧ e.kind.isChar = true) →
      DerivesItems env.grammar input its to j → Inv env input none H c → c.offsetLimit = -1 → c.offset = to →
      (seqLoop rec p d true from_ n its 0 to c).Spec False True (fun o => ∃ c', o = .complete j c' ∧
        Inv env input none H c' ∧ c'.offsetLimit = -1 ∧ c'.offset = j)
  | 0, _, _, _, _, _, _, _, _, _ => trivial
  | n + 1, [], to, j, c, _, hd, h, hl, ho => by
    cases hd
    exact ⟨c, rfl, h, hl, ho⟩
  | n + 1, (q, (mn, mx)) :: rest, to, j, c, hits, hd, h, hl, ho => by
    obtain ⟨h1, e, h2, h3⟩ := hits _ List.mem_cons_self
    cases h1
    cases hd with
    | @cons _ _ _ _ k _ m _ g1 g2 g3 =>
      have hk : k = 1 := by
        rcases g2 with ⟨g4, g5⟩ | ⟨-, g4, -⟩ <;> omega
      subst hk
      cases g1 with
      | @succ _ _ _ m' _ g4 g5 =>
        cases g4
        obtain ⟨neg, chars, ranges, hk⟩ : ∃ neg chars ranges, e.kind = .char neg chars ranges := by
          cases hk : e.kind <;> rw [hk] at h3 <;> simp [PKind.isChar] at h3
          exact ⟨_, _, _, rfl⟩
        have hg := env.grammar_some h2
        cases g5 with
        | choice a1 a2 => rw [hg] at a1; cases a1; simp [hk, PKind.expr] at a2
        | seq a1 a2 => rw [hg] at a1; cases a1; simp [hk, PKind.expr] at a2
        | @char _ _ _ _ _ _ t a1 a2 a3 a4 =>
          rw [hg] at a1; cases a1
          simp only [hk, PKind.expr, Expr.char.injEq] at a2
          obtain ⟨rfl, rfl, rfl⟩ := a2
          rw [seqLoop]
          refine Res.Spec.bind (hrec q c t e _ _ _ h2 hk h hl (by rw [ho]; exact a3) a4) ?_
          rintro c' ⟨b1, b2, b3, b4⟩
          have b5 : c'.offset = to + 1 := by omega
          have hpar : decide (c'.offset > to) = true := by simp [b5]
          simp only [b1, Bool.not_true, Bool.false_eq_true, if_false, hpar, if_true, Bool.false_or]
          rw [if_pos (by simp)]
          rw [b5]
          exact seqLoop_chars hval hrec n rest (to + 1) j c' (fun x hx => hits x (List.mem_cons_of_mem _ hx)) g3 b3 b4 b5

/-- A sequence of characters that is not checked for keywords matches what it derives. -/
theorem parse_chars (L : Linked env root) (hval : replacementChar ∉ input) {p : Ptr} {d : PDef} {is : List Ptr}
    {rs : List (Int × Int)} (hp : Reach env root p) (hd : env.defs[p]? = some d) (hk : d.kind = .seq is rs true)
    (hone : ∀ x ∈ is.zip rs, x.2 = (1, 1)) (hkw : d.commit.noKeyword = false) {c : Ctx}
    (h : Inv env input none (DerivH env root input) c) (hl : c.offsetLimit = -1) {n : Nat} {c' : Ctx}
    (hc : parse env n p c = .ok c') :
    (∀ j, Derives env.grammar input p c.offset j → c'.matchLast = true ∧ c'.offset = j) ∧
    (c'.matchLast = true → Derives env.grammar input p c.offset c'.offset) := by
  have hsound := (parse_spec L.closed (L.interp input) (env.bounds _) n p c hp h).of_eq hc
  refine ⟨fun j hj => ?_, fun hm => (hsound.mtch hm).2.1⟩
  have hg := env.grammar_some hd
  have hitems : DerivesItems env.grammar input (is.zip rs) c.offset j := by
    cases hj with
    | choice a1 a2 => rw [hg] at a1; cases a1; simp [hk, PKind.expr] at a2
    | char a1 a2 => rw [hg] at a1; cases a1; simp [hk, PKind.expr] at a2
    | seq a1 a2 a3 =>
      rw [hg] at a1; cases a1
      simp only [hk, PKind.expr, Expr.seq.injEq] at a2
      rw [a2]; exact a3
  cases n with
  | zero => cases hc
  | succ n =>
    have hS : (parse env (n + 1) p c).Spec False True (fun c' => c'.matchLast = true ∧ c'.offset = j) := by
      rw [parse]
      simp only [hd, hk]
      unfold seqParse
      simp only [Bool.not_true, Bool.false_and, Bool.false_eq_true, if_false, if_true]
      refine Res.Spec.bind (seqLoop_chars (H := DerivH env root input) hval ?_ (n + 1) (is.zip rs) c.offset j c ?_ hitems h hl rfl) ?_
      · intro q c1 t e neg chars ranges hq hqk i1 i2 i3 i4
        cases n with
        | zero => exact trivial
        | succ n =>
          rw [parse]
          simp only [hq, hqk]
          exact charParse_match i1 i2 hval i3 i4
      · intro x hx
        exact ⟨hone x hx, L.closed.chars hp hd hk (List.of_mem_zip hx).1⟩
      · rintro o ⟨c1, rfl, i1, i2, i3⟩
        simp only [hkw, Bool.false_eq_true, if_false, Res.bind_ok, unmarkUnless, if_true, Res.Spec.ok_iff]
        split <;> exact ⟨rfl, rfl⟩
    exact hS.of_eq hc

end

section
variable {cs : List Call} {s s' : Syntax}

/-- The right hand sides of the character definitions are kept by the whitespace. -/
theorem class_expr (h : Made cs s) (hsafe : WsSafe cs) (hi : s.Init = .ok (s', none)) :
    ∃ root G, Ready G s.rootName s' root ∧
      ∀ n gd m neg chars ranges gc, grammarOf cs n = some gd → gd.expr = .seq [once m] → grammarOf cs m = some gc →
        gc.expr = .char neg chars ranges → (rootOf cs ≠ some n ∨ ∀ c ∈ cs, c.commit.whitespace = false) →
        (∃ gd', G n = some gd' ∧ gd'.expr = .seq [once m]) ∧ (∃ gc', G m = some gc' ∧ gc'.expr = .char neg chars ranges) := by
  have C := made_called h
  have hs := C.built.inv
  have hne : cs ≠ [] := made_ne h hi
  obtain ⟨rn, hrn⟩ := rootOf_some hne
  by_cases hw : s.HasWhitespace
  · obtain ⟨hpl, hkw⟩ := hsafe (by
      obtain ⟨c, h1, h2⟩ := C.whitespace.1 hw
      exact ⟨c, h1, h2⟩)
    obtain ⟨r0, root, G, hr0, WG, R⟩ := Init_ws hs hw C.rootNotChar (wsNames_nodup h hne hpl) (keywordsKept h hkw) hi
    refine ⟨root, G, R, ?_⟩
    intro n gd m neg chars ranges gc h1 h2 h3 h4 h5
    have hroot : rootOf cs ≠ some n := by
      rcases h5 with h5 | h5
      · exact h5
      · obtain ⟨c, k1, k2⟩ := C.whitespace.1 hw
        rw [h5 c k1] at k2; cases k2
    obtain ⟨dr, k1, k2⟩ := hs.has_root hr0
    have hrootName : s.rootName = rn := C.root _ hrn
    rw [← C.grammar] at h1 h3
    obtain ⟨p, d, g1, g2, g3⟩ := hs.grammar_has h1
    obtain ⟨q, e, g4, g5, g6⟩ := hs.grammar_has h3
    have hpr : p ≠ r0 := by
      rintro rfl
      have := Option.some.inj (g1.2.symm.trans k1.2)
      subst this
      apply hroot
      rw [hrn, ← hrootName, ← k2, g2]
    have hek : e.replaced = false := char_plain (by rw [g6]; exact h4)
    have hqr : q ≠ r0 := by
      rintro rfl
      have := Option.some.inj (g4.2.symm.trans k1.2)
      subst this
      have hchar : e.kind.isChar = true := by
        have := congrArg GDef.expr g6
        rw [h4] at this
        cases hk : e.kind <;> simp [Def.gdef, hk] at this
        rfl
      obtain ⟨e0, j1, rfl⟩ := hs.has_heap g4
      rw [initRanges_isChar] at hchar
      rw [C.rootNotChar _ _ hr0 j1] at hchar
      cases hchar
    constructor
    · by_cases hwd : d.commitType.whitespace = true
      · refine ⟨_, by rw [← g2]; exact WG.ws p d g1 hwd, ?_⟩
        simp only [g3, h2]
      · refine ⟨_, by rw [← g2]; exact WG.repl p d g1 (by simpa using hwd) hpr, ?_⟩
        by_cases hrep : d.replaced = true
        · unfold Def.wsRepl
          rw [if_pos hrep, newSequence_expr]
          have hd2 := seq_gdef hrep
          rw [g3, h2] at hd2
          simp only [Expr.seq.injEq] at hd2
          obtain ⟨it, hit⟩ : ∃ it, d.items = [it] := by
            have := congrArg List.length hd2
            simp only [List.length_map, List.length_cons, List.length_nil] at this
            match hdi : d.items with
            | [] => rw [hdi] at this; simp at this
            | [it] => exact ⟨it, rfl⟩
            | _ :: _ :: _ => rw [hdi] at this; simp at this
          rw [hit] at hd2
          have hnorm := hs.has_items g1 it (by rw [hit]; simp)
          simp only [List.map_cons, List.map_nil, List.cons.injEq, and_true] at hd2
          rw [hnorm.ref] at hd2
          simp only [once, Prod.mk.injEq] at hd2
          obtain ⟨d1, d2, d3⟩ := hd2
          rw [hit, applyToItems_cons, applyToItem_once d3.symm]
          simp [leadItems, Whitespace.applyToItems, hnorm.ref, once, d1, ← d2, ← d3]
        · unfold Def.wsRepl
          rw [if_neg hrep, g3, h2]
    · by_cases hwd : e.commitType.whitespace = true
      · refine ⟨_, by rw [← g5]; exact WG.ws q e g4 hwd, ?_⟩
        simp only [g6, h4]
      · refine ⟨_, by rw [← g5]; exact WG.repl q e g4 (by simpa using hwd) hqr, ?_⟩
        unfold Def.wsRepl
        rw [if_neg (by simp [hek]), g6, h4]
  · obtain ⟨root, hr, R⟩ := Init_noWs hs hw C.rootNotChar hi
    rw [C.grammar] at R
    refine ⟨root, _, R, ?_⟩
    intro n gd m neg chars ranges gc h1 h2 h3 h4 _
    exact ⟨⟨gd, h1, h2⟩, ⟨gc, h3, h4⟩⟩

/-- The parser of a class. -/
theorem class_parser (h : Made cs s) (hsafe : WsSafe cs) (hi : s.Init = .ok (s', none)) :
    ∃ root, s'.root = some root ∧ Linked s'.env root ∧
      ∀ n gd m neg chars ranges gc, grammarOf cs n = some gd → gd.expr = .seq [once m] → grammarOf cs m = some gc →
        gc.expr = .char neg chars ranges → (rootOf cs ≠ some n ∨ ∀ c ∈ cs, c.commit.whitespace = false) →
        ∀ p d, Reach s'.env root p → s'.env.defs[p]? = some d → d.name = n →
          ∃ is rs q e, d.kind = .seq is rs true ∧ is.zip rs = [(q, (1, 1))] ∧ s'.env.defs[q]? = some e ∧
            e.kind = .char neg chars ranges := by
  obtain ⟨root, G, R, hG⟩ := class_expr h hsafe hi
  refine ⟨root, R.rootEq, R.linked, ?_⟩
  intro n gd m neg chars ranges gc h1 h2 h3 h4 h5 p d hp hd hn
  obtain ⟨⟨gd', k1, k2⟩, ⟨gc', k3, k4⟩⟩ := hG n gd m neg chars ranges gc h1 h2 h3 h4 h5
  obtain ⟨x, g1, g2⟩ := R.morphism.def_ p hp
  rw [Env.grammar_some hd] at g1
  obtain rfl := Option.some.inj g1
  rw [nameAt_env hd, hn, k1] at g2
  obtain rfl := Option.some.inj g2
  simp only [GDef.map] at k2
  cases hk : d.kind with
  | char => rw [hk] at k2; simp [PKind.expr, Expr.map] at k2
  | choice => rw [hk] at k2; simp [PKind.expr, Expr.map] at k2
  | seq is rs ac =>
    rw [hk] at k2
    simp only [PKind.expr, Expr.map, Expr.seq.injEq] at k2
    obtain ⟨q, r, hz⟩ : ∃ q r, is.zip rs = [(q, r)] := by
      have := congrArg List.length k2
      simp only [List.length_map, List.length_cons, List.length_nil] at this
      match hdi : is.zip rs with
      | [] => rw [hdi] at this; simp at this
      | [(q, r)] => exact ⟨q, r, rfl⟩
      | _ :: _ :: _ => rw [hdi] at this; simp at this
    rw [hz] at k2
    simp only [List.map_cons, List.map_nil, List.cons.injEq, and_true, once, Prod.mk.injEq] at k2
    obtain ⟨k5, k6, k7⟩ := k2
    have hlen := R.ranges hp hd hk
    have his : is = [q] := by
      have h6 := congrArg (List.map Prod.fst) hz
      rw [List.map_fst_zip hlen] at h6
      exact h6
    have hq : Reach s'.env root q := .child hp hd (by rw [hk, his]; exact List.mem_singleton.2 rfl)
    obtain ⟨e, he⟩ := R.linked.closed.def_ hq
    obtain ⟨y, g3, g4⟩ := R.morphism.def_ q hq
    rw [Env.grammar_some he] at g3
    obtain rfl := Option.some.inj g3
    rw [k5, k3] at g4
    obtain rfl := Option.some.inj g4
    simp only [GDef.map] at k4
    have hek : e.kind = .char neg chars ranges := by
      cases hke : e.kind <;> rw [hke] at k4 <;> simp [PKind.expr, Expr.map] at k4
      obtain ⟨rfl, rfl, rfl⟩ := k4
      rfl
    have hac := R.chars hp hd hk
    rw [his] at hac
    simp only [List.all_cons, he, Option.map_some, hek, PKind.isChar, Option.getD_some, List.all_nil, Bool.and_true] at hac
    subst hac
    exact ⟨is, rs, q, e, rfl, by rw [hz]; congr 2; exact Prod.ext k6 k7, he, hek⟩

end
end Treerack
