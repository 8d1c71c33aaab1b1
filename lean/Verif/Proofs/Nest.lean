import Verif.Proofs.TraceBounds
import Verif.Proofs.Outcome
import Verif.Props.Samples

/-
A syntax in which the same sequence is tried exponentially often at the same offset.
-/

namespace Treerack
open Spec Samples

namespace Traced
variable {α β : Type}

theorem Holds.bindLeft {x : Traced α} {f : α → Traced β} {P : List Event → Prop} (hm : ∀ t u, P t → P (t ++ u))
    (h : x.Holds fun _ t => P t) : (x.bind f).Holds fun _ t => P t :=
  h.bind fun _ t ht _ u _ => hm t u ht

end Traced

/-- `open:alias = "("; close:alias = ")"; x:alias = "x"; g:alias = s x; s:root = open g? s? close` -/
def nestCalls : List Call := [
  .charSequence (runes "open") { alias := true } (runes "("),
  .charSequence (runes "close") { alias := true } (runes ")"),
  .charSequence (runes "x") { alias := true } (runes "x"),
  .sequence (runes "g") { alias := true } [item "s", item "x"],
  .sequence (runes "s") { root := true }
    [item "open", { name := runes "g", min := 0, max := 1 }, { name := runes "s", min := 0, max := 1 }, item "close"]]

/-- `(((...)))` -/
def nestText (k : Nat) : List Rune := List.replicate k 40 ++ List.replicate k 41

/-- The parsers of the syntax: `open`, `close`, `x`, `g`, `s` are at 1, 3, 5, 6, 7. -/
def nestDefs : List (Nat × List Nat × PKind × Bool) := [
  (1, [], .char false [40] [], false),
  (2, [], .seq [0] [(1, 1), (1, 1)] true, false),
  (3, [], .char false [41] [], false),
  (4, [], .seq [2] [(1, 1), (1, 1)] true, false),
  (5, [], .char false [120] [], false),
  (6, [], .seq [4] [(1, 1), (1, 1)] true, false),
  (7, [], .seq [7, 5] [(1, 1), (1, 1), (1, 1), (1, 1)] false, false),
  (8, [], .seq [1, 6, 7, 3] [(1, 1), (0, 1), (0, 1), (1, 1), (1, 1), (0, 1), (0, 1), (1, 1)] false, false)]

structure NestEnv (env : Env) : Prop where
  defs : env.defs.map (fun d => (d.id, d.gens, d.kind, d.commit.noKeyword)) = nestDefs
  kws : env.keywords = []
  closed : Closed env (Reach env 7)

theorem nest_env {s' : Syntax} (hi : (after nestCalls).Init = .ok (s', none)) : NestEnv s'.env ∧ s'.root = some 7 := by
  have hh : History (after nestCalls) := after_history (by decide +kernel)
  obtain ⟨-, -, hl, -⟩ := hh.initialized hi
  obtain ⟨root, hr, hc⟩ := hl.closed
  have key : ∀ x, (after nestCalls).Init = x → (match x with
      | .ok (s, _) => decide (s.root = some 7) && decide (s.env.keywords = []) &&
          decide (s.env.defs.map (fun d => (d.id, d.gens, d.kind, d.commit.noKeyword)) = nestDefs)
      | _ => true) = true := by
    rintro _ rfl
    decide +kernel
  have := key _ hi
  simp only [Bool.and_eq_true, decide_eq_true_eq] at this
  obtain ⟨⟨h1, h2⟩, h3⟩ := this
  rw [h1] at hr
  obtain rfl := Option.some.inj hr
  exact ⟨⟨h3, h2, hc⟩, h1⟩

/-- `x`, and what needs an `x`, does not match. -/
def nestD (p : Ptr) (_ _ : Nat) : Prop := p ≠ 4 ∧ p ≠ 5 ∧ p ≠ 6
def nestH (_ id _ : Nat) : Prop := id ≠ 6 ∧ id ≠ 7

section
variable {env : Env} (E : NestEnv env)
include E

theorem NestEnv.at {p : Ptr} {d : PDef} (hd : env.defs[p]? = some d) : nestDefs[p]? = some (d.id, d.gens, d.kind, d.commit.noKeyword) := by
  rw [← E.defs]; simp [hd]

theorem NestEnv.get {p : Ptr} {x : Nat × List Nat × PKind × Bool} (hx : nestDefs[p]? = some x) :
    ∃ d, env.defs[p]? = some d ∧ d.id = x.1 ∧ d.gens = x.2.1 ∧ d.kind = x.2.2.1 ∧ d.commit.noKeyword = x.2.2.2 := by
  rw [← E.defs, List.getElem?_map] at hx
  obtain ⟨d, hd, rfl⟩ := Option.map_eq_some_iff.1 hx
  exact ⟨d, hd, rfl, rfl, rfl, rfl⟩

theorem NestEnv.id {p : Ptr} {d : PDef} (hd : env.defs[p]? = some d) : d.id = p + 1 ∧ d.gens = [] := by
  have h := E.at hd
  unfold nestDefs at h
  rcases p with _ | _ | _ | _ | _ | _ | _ | _ | p <;> simp at h <;> exact ⟨by omega, by simp_all⟩

theorem NestEnv.interp {input : List Rune} (hx : (120 : Nat) ∉ input) : Interp env (Reach env 7) input nestD nestH where
  char := by
    intro p d neg cs rs i t _ hd hk ht hm
    refine ⟨?_, ?_, ?_⟩
    · rintro rfl
      have h := E.at hd
      simp [nestDefs, hk] at h
      obtain ⟨-, -, ⟨rfl, rfl, rfl⟩, -⟩ := h
      have : 120 = t := by simpa [matchChar] using hm
      exact hx (this ▸ List.mem_of_getElem? ht)
    · rintro rfl
      have h := E.at hd
      simp [nestDefs, hk] at h
    · rintro rfl
      have h := E.at hd
      simp [nestDefs, hk] at h
  choice := by
    intro p d os o i j _ hd hk
    have h := E.at hd
    unfold nestDefs at h
    rcases p with _ | _ | _ | _ | _ | _ | _ | _ | p <;> simp [hk] at h
  seq := by
    intro p d is rs ac i j _ hd hk hit _
    have one : ∀ {q : Ptr} {k i m : Nat}, (∀ a b, ¬ nestD q a b) → Times (nestD q) k i m → InRange 1 1 k → False := by
      intro q k i m hq ht hr
      have : k ≠ 0 := by rcases hr with ⟨h, -⟩ | ⟨-, -, h⟩ <;> omega
      cases ht with
      | zero => exact this rfl
      | succ h _ => exact hq _ _ h
    refine ⟨?_, ?_, ?_⟩
    · rintro rfl
      have h := E.at hd
      simp [nestDefs, hk] at h
    · rintro rfl
      have h := E.at hd
      simp [nestDefs, hk] at h
      obtain ⟨-, -, ⟨rfl, rfl, rfl⟩, -⟩ := h
      cases hit with
      | cons h1 h2 _ => exact one (fun _ _ h => h.1 rfl) h1 h2
    · rintro rfl
      have h := E.at hd
      simp [nestDefs, hk] at h
      obtain ⟨-, -, ⟨rfl, rfl, rfl⟩, -⟩ := h
      cases hit with
      | cons _ _ h3 =>
        cases h3 with
        | cons h1 h2 _ => exact one (fun _ _ h => h.2.1 rfl) h1 h2
  store := by
    intro p d i j _ hd _ h
    have := (E.id hd).1
    obtain ⟨h1, h2, h3⟩ := h
    exact ⟨fun e => h2 (by rw [e] at this; exact (Nat.succ.inj this).symm), fun e => h3 (by rw [e] at this; exact (Nat.succ.inj this).symm)⟩
  load := by
    intro p d i j _ hd hk h
    have := (E.id hd).1
    refine ⟨?_, ?_, ?_⟩
    · rintro rfl
      have h := E.at hd
      simp [nestDefs] at h
      rw [← h.2.2.1] at hk
      cases hk
    · rintro rfl; exact h.1 this
    · rintro rfl; exact h.2 this
  gens := by
    intro p d g i j _ hd _ hg
    rw [(E.id hd).2] at hg
    cases hg

variable {input : List Rune} (hx : (120 : Nat) ∉ input)
include hx

theorem NestEnv.post (n : Nat) (p : Ptr) (c : Ctx) (hp : Reach env 7 p) (h : Inv env input none nestH c) :
    (parseTraced env n p c).Holds fun c' _ => Post env input none nestD nestH p c c' :=
  .ofSpec (parse_spec E.closed (E.interp hx) (env.bounds _) n p c hp h)

variable (hval : replacementChar ∉ input)
include hval

omit hx in
/-- `(` is there. -/
theorem NestEnv.open_ (n : Nat) (c : Ctx) (h : Inv env input none nestH c) (hl : c.offsetLimit = -1)
    (ht : input[c.offset]? = some 40) : (parseTraced env n 1 c).Holds fun c' _ => c'.matchLast = true ∧ c'.offset = c.offset + 1 := by
  obtain ⟨d0, hd0, -, -, hk0, -⟩ := E.get (p := 0) rfl
  obtain ⟨d1, hd1, -, -, hk1, hn1⟩ := E.get (p := 1) rfl
  have hchar : (charParse false [40] [] c).Spec True True fun c' => c'.matchLast = true ∧ c'.offset = c.offset + 1 := by
    unfold charParse
    refine Res.Spec.bind ((token_spec (ob := True) h).mono (fun _ => trivial) (fun h => h) fun _ h => h) ?_
    rintro ⟨tok, c1⟩ hp
    have ho := hp.offset
    simp only at ho
    cases tok with
    | none =>
      have := hp.none rfl (by omega) hval
      rw [ht] at this; cases this
    | some t =>
      have := (hp.some t rfl).1
      rw [ht] at this; cases this
      simp only
      rw [if_pos (by decide)]
      exact ⟨rfl, by simp [Ctx.success, ho]⟩
  cases n with
  | zero => exact fun _ _ e => by cases e
  | succ n =>
    unfold parseTraced
    rw [hd1]
    simp only [hk1]
    unfold seqParseT
    simp only [Bool.not_true, Bool.false_and, Bool.false_eq_true, if_false, if_true, hn1]
    refine .record ?_
    refine Traced.Holds.bind (P := fun out _ => ∃ c', out = .complete (c.offset + 1) c') ?_ ?_
    · show (seqLoopT _ 1 d1 true c.offset (n + 1) [(0, (1, 1))] 0 c.offset c).Holds _
      unfold seqLoopT
      refine Traced.Holds.bind (P := fun c' _ => c'.matchLast = true ∧ c'.offset = c.offset + 1) ?_ ?_
      · cases n with
        | zero => exact fun _ _ e => by cases e
        | succ n =>
          unfold parseTraced
          rw [hd0]
          simp only [hk0]
          exact .lift fun a e => hchar.of_eq e
      · rintro c1 t ⟨h1, h2⟩
        simp only [h1, h2, Bool.not_true, Bool.false_eq_true, if_false]
        rw [if_pos (by simp)]
        unfold seqLoopT
        split
        · exact fun _ _ e => by cases e
        · exact .lift fun a e => by cases e; exact ⟨_, rfl⟩
        · rename_i he
          cases he
    · rintro out t ⟨c', rfl⟩
      simp only
      refine Traced.Holds.bind (P := fun x _ => x = (false, c')) (.lift fun a e => by cases e; rfl) ?_
      rintro x t rfl
      simp only [Bool.false_eq_true, if_false]
      refine .lift fun a e => ?_
      cases e
      exact ⟨rfl, rfl⟩

omit hx hval in
/-- `g` at an offset where it is not being parsed tries `s` there. -/
theorem NestEnv.group {k m o : Nat} (n : Nat) (c : Ctx) (hp : c.res.pcount c.offset 7 = 0)
    (ih : ∀ (n : Nat), (parseTraced env n 7 { c with res := c.res.markPending c.offset 7 }).Holds fun _ t => m ≤ t.count (k, o)) :
    (parseTraced env n 6 c).Holds fun _ t => m ≤ t.count (k, o) := by
  have hm : ∀ t u : List Event, m ≤ t.count (k, o) → m ≤ (t ++ u).count (k, o) := fun t u ht => by
    rw [List.count_append]; omega
  obtain ⟨d, hd, hid, -, hk, -⟩ := E.get (p := 6) rfl
  cases n with
  | zero => exact fun _ _ e => by cases e
  | succ n =>
    unfold parseTraced
    rw [hd]
    simp only [hk]
    unfold seqParseT
    have hpend : c.res.pending c.offset d.id = false := by
      rw [Bool.eq_false_iff, ne_eq, Results.pending_iff, hid, hp]; omega
    simp only [hpend, Bool.and_false, Bool.false_eq_true, if_false]
    refine .record (Traced.Holds.mono (P := fun _ t => m ≤ t.count (k, o)) ?_ fun _ t ht => ?_)
    · refine .bindLeft hm ?_
      show (seqLoopT _ 6 d false c.offset (n + 1) [(7, (1, 1)), (5, (1, 1))] 0 c.offset _).Holds _
      unfold seqLoopT
      refine .bindLeft hm ?_
      rw [hid]
      exact ih n
    · rw [List.count_cons]; omega

/-- `s` is tried `2 ^ d` times at the offset `k` when it is parsed `d` steps before it. -/
theorem NestEnv.deep {k : Nat} (ht : ∀ i, i < k → input[i]? = some 40) : ∀ (d n : Nat) (c : Ctx), c.offset + d = k →
    Inv env input none nestH c → c.offsetLimit = -1 → c.res.pcount c.offset 8 = 0 →
    (∀ off id, c.offset < off → c.res.pcount off id = 0) →
    (parseTraced env n 7 c).Holds fun _ t => 2 ^ d ≤ t.count (7, k) := by
  obtain ⟨d7, hd, hid, -, hk, -⟩ := E.get (p := 7) rfl
  have r7 : Reach env 7 7 := .root
  have r1 : Reach env 7 1 := E.closed.child r7 hd (by rw [hk]; simp [PKind.children])
  have r6 : Reach env 7 6 := E.closed.child r7 hd (by rw [hk]; simp [PKind.children])
  intro d
  induction d with
  | zero =>
    intro n c ho h hl hp hq
    cases n with
    | zero => exact fun _ _ e => by cases e
    | succ n =>
      unfold parseTraced
      rw [hd]
      simp only [hk]
      unfold seqParseT
      have hpend : c.res.pending c.offset d7.id = false := by
        rw [Bool.eq_false_iff, ne_eq, Results.pending_iff, hid, hp]; omega
      simp only [hpend, Bool.and_false, Bool.false_eq_true, if_false]
      refine .record fun _ t _ => ?_
      show 2 ^ 0 ≤ List.count (7, k) ((7, c.offset) :: t)
      rw [List.count_cons, ← ho]
      simp
  | succ d ih =>
    intro n c ho h hl hp hq
    have hm : ∀ t u : List Event, 2 ^ d ≤ t.count (7, k) → 2 ^ d ≤ (t ++ u).count (7, k) := fun t u ht => by
      rw [List.count_append]; omega
    cases n with
    | zero => exact fun _ _ e => by cases e
    | succ n =>
      unfold parseTraced
      rw [hd]
      simp only [hk]
      unfold seqParseT
      have hpend : c.res.pending c.offset d7.id = false := by
        rw [Bool.eq_false_iff, ne_eq, Results.pending_iff, hid, hp]; omega
      simp only [hpend, Bool.and_false, Bool.false_eq_true, if_false]
      refine .record (Traced.Holds.mono (P := fun _ t => 2 ^ (d + 1) ≤ t.count (7, k)) ?_ fun _ t ht => ?_)
      · refine .bindLeft (fun t u ht => by rw [List.count_append]; omega) ?_
        show (seqLoopT _ 7 d7 false c.offset (n + 1) [(1, (1, 1)), (6, (0, 1)), (7, (0, 1)), (3, (1, 1))] 0 c.offset _).Holds _
        rw [hid]
        have h0 : Inv env input none nestH { c with res := c.res.markPending c.offset 8 } :=
          h.setRes (fun off id to ht => h.store off id to (by simpa using ht)) (h.once.markPending _ _)
        generalize hc0 : ({ c with res := c.res.markPending c.offset 8 } : Ctx) = c0 at h0
        have ho0 : c0.offset = c.offset := by rw [← hc0]
        have hl0 : c0.offsetLimit = -1 := by rw [← hc0]; exact hl
        have hq0 : ∀ off id, c.offset < off → c0.res.pcount off id = 0 := by
          intro off id hlt
          rw [← hc0, Results.pcount_markPending, if_neg (by omega), hq off id hlt]
        unfold seqLoopT
        -- open
        refine Traced.Holds.bind ((E.post hx n 1 c0 r1 h0).and (E.open_ hval n c0 h0 hl0 (by rw [ho0]; exact ht _ (by omega)))) ?_
        rintro c1 t1 ⟨P1, m1, o1⟩
        rw [ho0] at o1
        simp only [m1, o1, Bool.not_true, Bool.false_eq_true, if_false]
        rw [if_pos (by simp)]
        cases n with
        | zero => exact fun _ _ e => by cases e
        | succ n =>
          unfold seqLoopT
          -- g
          have q1 : ∀ off id, c.offset < off → c1.res.pcount off id = 0 := fun off id hlt => by rw [P1.frame.pc]; exact hq0 off id hlt
          refine Traced.Holds.bind ((E.post hx (n + 1) 6 c1 r6 P1.inv).and (E.group (n + 1) c1 (q1 _ _ (by omega)) (m := 2 ^ d) (k := 7) (o := k) ?_)) ?_
          · intro n'
            refine ih n' _ (by simp only [o1]; omega) ?_ (P1.frame.lim.trans hl0) ?_ ?_
            · exact P1.inv.setRes (fun off id to ht => P1.inv.store off id to (by simpa using ht)) (P1.inv.once.markPending _ _)
            · simp only
              rw [Results.pcount_markPending, if_neg (by omega), q1 _ _ (by omega)]
            · intro off id hlt
              simp only at hlt ⊢
              rw [Results.pcount_markPending, if_neg (by omega), q1 _ _ (by omega)]
          · rintro c2 t2 ⟨P2, e2⟩
            have m2 : c2.matchLast = false := by
              cases hh : c2.matchLast with
              | false => rfl
              | true => exact absurd rfl (P2.mtch hh).2.1.2.2
            have o2 : c2.offset = c.offset + 1 := by rw [P2.fail m2, o1]
            simp only [m2, Bool.not_false, if_true]
            rw [if_pos (by simp)]
            cases n with
            | zero => exact fun _ _ e => by cases e
            | succ n =>
              unfold seqLoopT
              -- s
              refine Traced.Holds.mono (P := fun _ t => 2 ^ d ≤ t.count (7, k)) (.bindLeft hm ?_) fun _ t ht => ?_
              · refine ih _ c2 (by omega) P2.inv (by rw [P2.frame.lim, P1.frame.lim]; exact hl0) ?_ ?_
                · rw [P2.frame.pc]; exact q1 _ _ (by omega)
                · intro off id hlt
                  rw [P2.frame.pc]; exact q1 _ _ (by omega)
              · rw [List.count_append, List.count_append, Nat.pow_succ]
                omega
      · rw [List.count_cons]; omega

end

/-- The parsing of `(((...)))` ends, and `s` was tried `2 ^ k` times after the last `(`. -/
theorem nest_count {s' : Syntax} (hi : (after nestCalls).Init = .ok (s', none)) (k : Nat) :
    ∃ N, ∀ n, N ≤ n → ∃ c tr, parseTraced s'.env n 7 (newContext (nestText k) none) = .ok (c, tr) ∧ 2 ^ k ≤ tr.count (7, k) := by
  obtain ⟨E, hr⟩ := nest_env hi
  have hh : History (after nestCalls) := after_history (by decide +kernel)
  obtain ⟨K, hK⟩ := parse_budget hh hi hr
  have hmem : ∀ x ∈ nestText k, x = 40 ∨ x = 41 := by
    intro x hx
    unfold nestText at hx
    simp only [List.mem_append, List.mem_replicate] at hx
    rcases hx with ⟨-, h⟩ | ⟨-, h⟩
    · exact Or.inl h
    · exact Or.inr h
  have hx : (120 : Nat) ∉ nestText k := fun h => by rcases hmem _ h with h | h <;> cases h
  have hval : replacementChar ∉ nestText k := fun h => by rcases hmem _ h with h | h <;> cases h
  refine ⟨K * ((nestText k).length + 1), fun n hn => ?_⟩
  have h1 := hK (nestText k) none n hn
  have h2 := parse_spec (rend := none) E.closed (E.interp hx) (s'.env.bounds _) n 7 (newContext (nestText k) none) .root .init
  have he := parseTraced_erase s'.env n 7 (newContext (nestText k) none)
  cases hp : parseTraced s'.env n 7 (newContext (nestText k) none) with
  | oof => rw [hp] at he; exact absurd he.symm h1
  | panic =>
    rw [hp] at he
    rw [← he] at h2
    exact absurd h2 hval
  | ok x =>
    obtain ⟨c, tr⟩ := x
    refine ⟨c, tr, rfl, ?_⟩
    refine E.deep hx hval (k := k) ?_ k n (newContext (nestText k) none) (by simp [newContext]) .init rfl ?_ ?_ c tr hp
    · intro i hi
      unfold nestText
      rw [List.getElem?_append_left (by simpa using hi)]
      simp [hi]
    · simp [newContext, Results.pcount]
    · intro off id _
      simp [newContext, Results.pcount]

/-- Powers of two grow faster than polynomials. -/
theorem pow_beats : ∀ (e K : Nat), ∃ m, ∀ k, m ≤ k → K * (2 * k + 1) ^ e < 2 ^ k
  | 0, K => ⟨K, fun k hk => by
      have := Nat.lt_two_pow_self (n := k)
      simp only [Nat.pow_zero, Nat.mul_one]
      omega⟩
  | e + 1, K => by
    obtain ⟨m, hm⟩ := pow_beats e (K * 3 ^ e * 4)
    refine ⟨2 * m, fun k hk => ?_⟩
    have h1 := hm (k / 2) (by omega)
    have h2 : 2 * k + 1 ≤ 3 * (2 * (k / 2) + 1) := by omega
    have h3 : 2 * k + 1 ≤ 4 * 2 ^ (k / 2) := by
      have := Nat.lt_two_pow_self (n := k / 2)
      omega
    have h4 : 2 ^ (k / 2) * 2 ^ (k / 2) ≤ 2 ^ k := by
      rw [← Nat.pow_add]
      exact Nat.pow_le_pow_right (by omega) (by omega)
    refine Nat.lt_of_lt_of_le ?_ h4
    calc K * (2 * k + 1) ^ (e + 1) = K * (2 * k + 1) ^ e * (2 * k + 1) := by rw [Nat.pow_succ, Nat.mul_assoc]
      _ ≤ K * (3 * (2 * (k / 2) + 1)) ^ e * (4 * 2 ^ (k / 2)) :=
        Nat.mul_le_mul (Nat.mul_le_mul_left _ (Nat.pow_le_pow_left h2 e)) h3
      _ = (K * 3 ^ e * 4 * (2 * (k / 2) + 1) ^ e) * 2 ^ (k / 2) := by
        rw [Nat.mul_pow]
        ac_rfl
      _ < 2 ^ (k / 2) * 2 ^ (k / 2) := Nat.mul_lt_mul_of_pos_right h1 (Nat.two_pow_pos _)

end Treerack
