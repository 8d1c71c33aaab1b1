import Verif.Proofs.ExactInput
import Verif.Proofs.Reader

/-
When the root matches the beginning of the input, then reporting an error does not panic.
-/

namespace Treerack
open Spec

variable {env : Env} {root : Ptr} {input : List Rune} {rend : Option Nat}

/-- On valid unicode, a panic can only come from reporting an error with the position -1, or from building the tree. -/
theorem parseInput_panic {fuel : Nat} (hcl : Closed env (Reach env root)) (hval : replacementChar ∉ input)
    (hp : parseInput env fuel root input rend = .panic) :
    ∃ c, parse env fuel root (newContext input rend) = .ok c ∧ c.readErr = none ∧
      ((c.failing ≠ none ∧ c.failOffset = -1 ∧ finalizeParse env c root = .panic) ∨
       ∃ c1, finalizeParse env c root = .ok (none, c1)) := by
  have hps := parse_spec (rend := rend) hcl (Interp.trivial env (Reach env root) input) (env.bounds _) fuel root
    (newContext input rend) .root .init
  unfold parseInput at hp
  cases hc : parse env fuel root (newContext input rend) with
  | panic => rw [hc] at hps; exact absurd hps hval
  | oof => rw [hc] at hp; cases hp
  | ok c =>
    rw [hc] at hps hp
    have hinv := hps.inv
    refine ⟨c, rfl, ?_⟩
    cases hre : c.readErr with
    | some e => simp [hre] at hp
    | none =>
      refine ⟨rfl, ?_⟩
      simp only [Res.bind_ok, hre] at hp
      cases hf : finalizeParse env c root with
      | oof =>
        obtain ⟨d, hd⟩ := hcl.def_ .root
        have := finalizeParse_spec hinv hre hd
        rw [hf] at this; exact this.elim
      | ok x =>
        obtain ⟨e, c1⟩ := x
        cases e with
        | some e => rw [hf] at hp; cases hp
        | none => exact Or.inr ⟨c1, rfl⟩
      | panic =>
        left
        obtain ⟨d, hd⟩ := hcl.def_ .root
        -- parseError only panics with a negative offset
        have hpe : ∀ (c2 : Ctx) (q : Ptr), Inv env input rend (fun _ _ _ => True) c2 → (∃ e, env.defs[q]? = some e) →
            parseError env c2 q = .panic → c2.failing ≠ none ∧ c2.failOffset = -1 := by
          intro c2 q h2 ⟨e, he⟩ hpp
          unfold parseError Env.nodeName at hpp
          simp only [he, Res.bind_ok] at hpp
          have h1 := h2.cons
          have h3 := h2.failHi
          have h4 := h2.failLo
          cases hfl : c2.failing with
          | none =>
            rw [hfl] at hpp
            simp only [findLine] at hpp
            rw [if_neg (by simp), if_neg (by simp; omega)] at hpp
            cases hpp
          | some q =>
            refine ⟨by simp, ?_⟩
            rw [hfl] at hpp
            rw [if_neg (by simp)] at hpp
            simp only [findLine] at hpp
            by_cases h5 : c2.failOffset < 0
            · omega
            · rw [if_neg h5, if_neg (by omega)] at hpp
              cases hpp
        have hbind : ∀ (c2 : Ctx) q, ((parseError env c2 q).bind fun e => Res.ok (some e, c2)) = .panic →
            parseError env c2 q = .panic := by
          intro c2 q h2
          cases hpp : parseError env c2 q with
          | panic => rfl
          | oof => rw [hpp] at h2; cases h2
          | ok e => rw [hpp] at h2; cases h2
        have hf' := hf
        unfold finalizeParse at hf'
        simp only [hd] at hf'
        rcases ite_cases hf' with ⟨-, hf'⟩ | ⟨-, hf'⟩
        · have hq : ∃ e, env.defs[c.failing.getD root]? = some e := by
            cases hcf : c.failing with
            | none => exact ⟨d, hd⟩
            | some q => exact hinv.failing q hcf
          obtain ⟨g1, g2⟩ := hpe c _ hinv hq (hbind _ _ hf')
          exact ⟨g1, g2, rfl⟩
        · obtain ⟨r1, r2, r3, r4, r5⟩ := hinv.read hre
          by_cases he : c.read.2.eof = true
          · rw [if_pos he] at hf'; cases hf'
          · rw [if_neg he] at hf'
            cases hre2 : c.read.2.readErr with
            | some e => rw [hre2] at hf'; cases hf'
            | none =>
              rw [hre2] at hf'
              obtain ⟨g1, g2⟩ := hpe _ _ r1 ⟨d, hd⟩ (hbind _ _ hf')
              rw [r3] at g1
              refine ⟨g1, ?_, rfl⟩
              rw [← g2]
              unfold Ctx.read
              split
              · rfl
              · split
                · split <;> rfl
                · split <;> rfl

/-- There is a position for the failing parser. -/
def Ctx.Placed (c : Ctx) : Prop := c.failOffset = -1 → c.failing = none

theorem unmarkUnless_same {ac : Bool} {f id : Nat} {c c' : Ctx} (h : unmarkUnless ac f id c = .ok c') :
    c'.failOffset = c.failOffset ∧ c'.failing = c.failing ∧ c'.matchLast = c.matchLast := by
  unfold unmarkUnless at h
  split at h
  · cases h; exact ⟨rfl, rfl, rfl⟩
  · obtain ⟨r, -, h⟩ := Res.bind_eq_ok h
    cases h; exact ⟨rfl, rfl, rfl⟩

theorem reset_placed (to : Nat) (c : Ctx) :
    (if (to : Int) > c.failOffset then { c with failOffset := -1, failing := none } else c).Placed := by
  unfold Ctx.Placed
  split
  · exact fun _ => rfl
  · intro h; omega

theorem seqItemFailed_placed {p : Ptr} {d : PDef} {ac : Bool} {f to : Nat} {c c' : Ctx} (h : seqItemFailed p d ac f to c = .ok c')
    (hm : c'.matchLast = true) : c'.Placed := by
  unfold seqItemFailed at h
  simp only at h
  split at h
  · obtain ⟨h1, h2, h3⟩ := unmarkUnless_same h
    unfold Ctx.Placed
    rw [h1, h2]
    exact reset_placed to _
  · obtain ⟨h1, h2, h3⟩ := unmarkUnless_same h
    rw [h3] at hm
    cases hm

theorem seqLoop_placed {rec : Ptr → Ctx → Res Ctx} {p : Ptr} {d : PDef} {ac : Bool} {f : Nat} :
    ∀ (n : Nat) (items : List (Ptr × (Int × Int))) (k to : Nat) (c : Ctx) {c' : Ctx}, seqLoop rec p d ac f n items k to c = .ok (.returned c') →
      c'.matchLast = true → c'.Placed
  | 0, _, _, _, _, _, h, _ => by cases h
  | n + 1, [], _, _, _, _, h, _ => by cases h
  | n + 1, (item, (mn, mx)) :: rest, k, to, c, c', h, hm => by
    unfold seqLoop at h
    obtain ⟨c1, -, h⟩ := Res.bind_eq_ok h
    split at h
    · split at h
      · exact seqLoop_placed n _ _ _ _ h hm
      · obtain ⟨c2, h1, h⟩ := Res.bind_eq_ok h
        cases h
        exact seqItemFailed_placed h1 hm
    · simp only at h
      rcases ite_cases h with ⟨-, h⟩ | ⟨-, h⟩
      · exact seqLoop_placed n _ _ _ _ h hm
      · exact seqLoop_placed n _ _ _ _ h hm

theorem seqParse_placed {rec : Ptr → Ctx → Res Ctx} {kws : List Ptr} {n : Nat} {p : Ptr} {d : PDef} {is : List Ptr} {rs : List (Int × Int)}
    {ac : Bool} {c c' : Ctx} (h : seqParse rec kws n p d is rs ac c = .ok c') (hm : c'.matchLast = true) : c'.Placed := by
  unfold seqParse at h
  split at h
  · cases h; cases hm
  · simp only at h
    obtain ⟨out, h1, h⟩ := Res.bind_eq_ok h
    cases out with
    | returned c1 =>
      cases h
      exact seqLoop_placed _ _ _ _ _ h1 hm
    | complete to c1 =>
      simp only at h
      obtain ⟨⟨kw, c2⟩, -, h⟩ := Res.bind_eq_ok h
      simp only at h
      split at h
      · obtain ⟨h2, h3, h4⟩ := unmarkUnless_same h
        rw [h4] at hm
        cases hm
      · obtain ⟨h2, h3, h4⟩ := unmarkUnless_same h
        unfold Ctx.Placed
        rw [h2, h3]
        exact reset_placed to { c2 with res := setGeneralizations c.offset to d.gens c2.res }

/-- A call of the root that matches. -/
theorem root_placed {n : Nat} {c : Ctx} (h : parse env n root (newContext input rend) = .ok c) (hm : c.matchLast = true) : c.Placed := by
  cases n with
  | zero => cases h
  | succ n =>
    unfold parse at h
    split at h
    · cases h
    · rename_i d hd
      split at h
      · -- a character
        unfold charParse at h
        obtain ⟨⟨tok, c1⟩, h1, h⟩ := Res.bind_eq_ok h
        have hs : c1.failing = none := by
          unfold Ctx.token at h1
          have hr : (newContext input rend).read.2.failing = none := by
            unfold Ctx.read
            split
            · rfl
            · split
              · split <;> rfl
              · split <;> rfl
          split at h1
          · cases h1; rfl
          · split at h1
            · split at h1
              · rename_i h2
                cases h1
                rw [h2] at hr
                exact hr
              · rename_i h2
                obtain ⟨r, -, h1⟩ := Res.bind_eq_ok h1
                cases h1
                rw [h2] at hr
                exact hr
            · obtain ⟨r, -, h1⟩ := Res.bind_eq_ok h1
              cases h1; rfl
        simp only at h
        rcases ite_cases h with ⟨-, h⟩ | ⟨-, h⟩
        · cases h
          exact fun _ => hs
        · cases h
          cases hm
      · -- a choice
        unfold choiceParse at h
        have hfr : (newContext input rend).fromResults d.id = none := by
          unfold Ctx.fromResults
          rfl
        rw [hfr] at h
        simp only at h
        split at h
        · cases h; cases hm
        · obtain ⟨st, -, h⟩ := Res.bind_eq_ok h
          split at h
          · obtain ⟨⟨kw, c1⟩, -, h⟩ := Res.bind_eq_ok h
            simp only at h
            split at h
            · obtain ⟨r, -, h⟩ := Res.bind_eq_ok h
              cases h; cases hm
            · obtain ⟨r, -, h⟩ := Res.bind_eq_ok h
              cases h
              unfold Ctx.Placed Ctx.success
              simp only
              split
              · intro h; simp only at h; omega
              · split
                · exact fun _ => rfl
                · rename_i h1 h2
                  simp only [newContext] at h2
                  omega
          · unfold choiceNoMatch at h
            obtain ⟨r, -, h⟩ := Res.bind_eq_ok h
            cases h; cases hm
      · exact seqParse_placed h hm

/-- When the root matches the beginning of the input, and building the tree does not panic, then nothing panics. -/
theorem parseInput_placed {fuel : Nat} (hcl : Closed env (Reach env root)) (hval : replacementChar ∉ input)
    (hm : ∀ c, parse env fuel root (newContext input rend) = .ok c → c.matchLast = true)
    (hp : parseInput env fuel root input rend = .panic) :
    ∃ c c1, parse env fuel root (newContext input rend) = .ok c ∧ c.readErr = none ∧ finalizeParse env c root = .ok (none, c1) := by
  obtain ⟨c, h1, h2, ⟨h3, h4, -⟩ | ⟨c1, h3⟩⟩ := parseInput_panic hcl hval hp
  · exact absurd (root_placed h1 (hm c h1) h4) h3
  · exact ⟨c, c1, h1, h2, h3⟩

/-- A panic of a parser that follows the reference semantics: the root does not match the beginning of the input. -/
theorem parseInput_unmatched {n : Nat} (T : Straight env root) (hval : replacementChar ∉ input)
    (hp : parseInput env n root input rend = .panic) : Ref env.grammar (env.blocked input) input root 0 none := by
  obtain ⟨c, h1, h2, h3⟩ := parseInput_panic T.linked.closed hval hp
  obtain ⟨f, hf⟩ := T.linked.refs T.free T.grows input
  have K := T.ctxt hval hf
  obtain ⟨d, hd, hk, hal⟩ := T.linked.rootDef
  have hroot := hf (.root : Reach env root root) 0
  have hE := parse_exact K n root (newContext input none) .root T.rootTail .init .init start_pend rfl
  -- the end of the reader was not reached
  have h1' : parse env n root (newContext input none) = .ok (c.setEnd none) := by
    cases rend with
    | none =>
      have hinv := ((parse_spec T.linked.closed (Interp.trivial env (Reach env root) input) (env.bounds _) n root
        (newContext input none) .root .init).of_eq h1).inv
      rw [h1]
      congr 1
      have := hinv.rendEq
      unfold Ctx.setEnd
      rw [← this]
    | some k =>
      obtain ⟨-, -, h4⟩ := parse_tr (r := none) env n root (newContext input (some k)) rfl c h1
      rcases h4 with h4 | h4
      · rw [id_eq, h2] at h4
        cases h4
      · exact h4
  rw [h1'] at hE
  obtain ⟨P, E⟩ := hE
  cases hm : c.matchLast with
  | false =>
    have := E.no hm
    rw [show (newContext input none).offset = 0 from rfl] at this
    rw [this] at hroot
    exact hroot
  | true =>
    rcases h3 with ⟨h3, h4, -⟩ | ⟨c1, h3⟩
    · exact absurd (root_placed h1 hm h4) h3
    · -- the text is accepted
      exfalso
      have hinv := ((parse_spec T.linked.closed (Interp.trivial env (Reach env root) input) (env.bounds _) n root
        (newContext input rend) .root .init).of_eq h1).inv
      have hfs := (finalizeParse_spec (root := root) hinv h2 hd).of_eq h3
      simp only at hfs
      obtain ⟨-, -, -, rfl, i5⟩ := hfs
      have hno := parseInput_exact T hval n
      rw [hp] at hno
      obtain ⟨g1, -⟩ := (Results.longestMatch_some ..).1 i5
      have hhas : ∃ t ns, f root 0 = some (t, ns) ∧ input.length ≤ t := by
        cases hkind : d.kind with
        | char => rw [hkind] at hk; cases hk
        | choice os => exact E.good.chLe K .root hd hkind g1
        | seq is rs ac =>
          obtain ⟨ns, h1⟩ := E.good.seqHas .root T.rootTail hd hkind g1
          exact ⟨_, ns, h1, Nat.le_refl _⟩
      obtain ⟨t, ns, g2, g3⟩ := hhas
      have g4 := (hroot.bounded _ g2).2
      have : t = input.length := by
        simp only at g4
        by_cases h0 : 0 < t
        · have := g4 h0; omega
        · omega
      subst this
      rw [g2] at hroot
      exact hno ⟨ns, hroot⟩

/-- When a list of items fails, then one of those fails that have to be there. -/
theorem RefItems.failed {N : Type} {G : Grammar N} {B : N → Nat → Nat → Prop} : ∀ {items : List (N × Int × Int)} {k i : Nat} {m : Match},
    RefItems G B input items k i m → m = none → ∃ x ∈ items, 0 < x.2.1 ∧ ∃ j, Ref G B input x.1 j none
  | _, _, _, _, .nil, hm => by cases hm
  | _, _, i, _, .fail h1 h2, _ => ⟨_, List.mem_cons_self .., by simp only; omega, i, h1⟩
  | _, _, _, _, .done _ _ h3, hm => by
    obtain ⟨x, h4, h5⟩ := RefItems.failed h3 hm
    exact ⟨x, List.mem_cons_of_mem _ h4, h5⟩
  | _, _, _, _, .empty _ h3, hm => by
    obtain ⟨x, h4, h5⟩ := RefItems.failed h3 (by simpa [prepend] using hm)
    exact ⟨x, List.mem_cons_of_mem _ h4, h5⟩
  | _, _, _, _, .last _ _ _ _ h3, hm => by
    obtain ⟨x, h4, h5⟩ := RefItems.failed h3 (by simpa [prepend] using hm)
    exact ⟨x, List.mem_cons_of_mem _ h4, h5⟩
  | _, _, _, _, .more _ _ _ h3, hm => RefItems.failed h3 (by simpa [prepend] using hm)

theorem RefOptions.failed {N : Type} {G : Grammar N} {B : N → Nat → Nat → Prop} : ∀ {os : List N} {i : Nat} {m : Match},
    RefOptions G B input os i m → m = none → ∀ o ∈ os, Ref G B input o i none
  | _, _, _, .nil, _, o, ho => by cases ho
  | _, _, _, .cons (m := m) (ms := ms) h1 h2, hm, o, ho => by
    have hn : m = none ∧ ms = none := by
      cases m with
      | none => exact ⟨rfl, by simpa [better] using hm⟩
      | some x =>
        cases ms with
        | none => simp [better] at hm
        | some y =>
          simp only [better] at hm
          split at hm <;> cases hm
    rcases List.mem_cons.1 ho with rfl | ho
    · rw [← hn.1]; exact h1
    · exact RefOptions.failed h2 hn.2 o ho

/-- A definition that may be empty matches everywhere. -/
theorem Nullable.matches {N : Type} {G : Grammar N} {B : N → Nat → Nat → Prop} (hB : ∀ n i j, Nullable G n → ¬ B n i j) {n : N}
    (h : Nullable G n) : ∀ i, ¬ Ref G B input n i none := by
  induction h with
  | @choice n _ _ _ h1 h2 h3 h4 ih =>
    intro i h
    have h0 := h
    generalize hm : (none : Match) = m at h
    cases h with
    | char => cases hm
    | noChar g1 g2 => rw [h1] at g1; cases g1; rw [h2] at g2; cases g2
    | choice g1 g2 g3 g4 =>
      rw [h1] at g1; cases g1
      rw [h2] at g2; cases g2
      exact ih i (RefOptions.failed g4 (Option.map_eq_none_iff.1 hm.symm) _ h3)
    | noBase g1 g2 g3 g4 g5 =>
      rw [h1] at g1; cases g1
      rw [h2] at g2; cases g2
      have hrec : ∀ {o : N}, Recurs G n o → Ref G B input o i none := by
        intro o ⟨_, _, e, tail, _, _, _, f4, f5⟩
        exact .seq (m := none) f4 f5 (.fail h0 (by omega)) (fun x hx => by cases hx)
      rw [g4.options, List.mem_append, List.mem_append] at h3
      rcases h3 with h3 | h3 | h3
      · exact ih i (hrec (g4.firsts _ h3))
      · exact ih i (RefOptions.failed g5 rfl _ h3)
      · exact ih i (hrec (g4.lasts _ h3))
    | grow => cases hm
    | seq g1 g2 => rw [h1] at g1; cases g1; rw [h2] at g2; cases g2
    | blocked g1 g2 => rw [h1] at g1; cases g1; rw [h2] at g2; cases g2
  | seq h1 h2 h3 ih =>
    intro i h
    have hn := Nullable.seq h1 h2 h3
    generalize hm : (none : Match) = m at h
    cases h with
    | char => cases hm
    | noChar g1 g2 => rw [h1] at g1; cases g1; rw [h2] at g2; cases g2
    | choice g1 g2 => rw [h1] at g1; cases g1; rw [h2] at g2; cases g2
    | noBase g1 g2 => rw [h1] at g1; cases g1; rw [h2] at g2; cases g2
    | grow => cases hm
    | seq g1 g2 g3 =>
      rw [h1] at g1; cases g1
      rw [h2] at g2; cases g2
      obtain ⟨x, g5, g6, j, g7⟩ := RefItems.failed g3 (Option.map_eq_none_iff.1 hm.symm)
      exact ih x g5 g6 j g7
    | blocked g1 g2 g3 g4 => exact hB _ _ _ hn g4

end Treerack
