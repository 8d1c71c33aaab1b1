import Verif.Proofs.Build
import Verif.Spec.Position

/-
Environments as they are produced by `Init`, and the properties of `parseInput` that hold for all of
them.
-/

namespace Treerack

/-- The parsers that can be reached from the root or from the keywords. -/
inductive Reach (env : Env) (root : Ptr) : Ptr → Prop
  | root : Reach env root root
  | keyword {k : Ptr} : k ∈ env.keywords → Reach env root k
  | child {p q : Ptr} {d : PDef} : Reach env root p → env.defs[p]? = some d → q ∈ d.kind.children →
      Reach env root q

/-- `q` is a choice that has `p` as an option, directly or through nested choices. -/
inductive Generalizes (env : Env) : Ptr → Ptr → Prop
  | option {q p : Ptr} {e : PDef} {os : List Ptr} : env.defs[q]? = some e → e.kind = .choice os →
      p ∈ os → Generalizes env q p
  | nested {q o p : Ptr} {e : PDef} {os : List Ptr} : env.defs[q]? = some e → e.kind = .choice os →
      o ∈ os → Generalizes env o p → Generalizes env q p

/-- What `Init` guarantees about the parsers. -/
structure Linked (env : Env) (root : Ptr) : Prop where
  closed : Closed env (Reach env root)
  ids : ∀ {p q d e}, Reach env root p → Reach env root q → env.defs[p]? = some d →
    env.defs[q]? = some e → d.kind.isChar = false → e.kind.isChar = false → d.id = e.id → p = q
  gens : ∀ {p d g}, Reach env root p → env.defs[p]? = some d → d.kind.isChar = false → g ∈ d.gens →
    ∃ q e, Reach env root q ∧ env.defs[q]? = some e ∧ e.id = g ∧ Generalizes env q p
  rootDef : ∃ d, env.defs[root]? = some d ∧ d.kind.isChar = false ∧ d.commit.alias = false

/-- The grammar of the parser objects. -/
def PKind.expr : PKind → Spec.Expr Ptr
  | .char neg cs rs => .char neg cs rs
  | .choice os => .choice os
  | .seq is rs _ => .seq (is.zip rs)

def Env.grammar (env : Env) : Spec.Grammar Ptr := fun p =>
  (env.defs[p]?).map fun d => { name := d.name, alias := d.commit.alias, expr := d.kind.expr }

theorem Env.grammar_some {env : Env} {p : Ptr} {d : PDef} (h : env.defs[p]? = some d) :
    env.grammar p = some { name := d.name, alias := d.commit.alias, expr := d.kind.expr } := by
  simp [Env.grammar, h]

theorem matchChar_iff (cs : List Rune) (rs : List (Rune × Rune)) (neg : Bool) (t : Rune) :
    matchChar cs rs neg t = true ↔ Spec.InClass neg cs rs t := by
  unfold matchChar Spec.InClass
  have h1 : cs.any (fun ci => ci == t) = true ↔ t ∈ cs := by simp
  have h2 : rs.any (fun ri => decide (t ≥ ri.1) && decide (t ≤ ri.2)) = true ↔
      ∃ r ∈ rs, r.1 ≤ t ∧ t ≤ r.2 := by simp
  by_cases a : t ∈ cs
  · rw [if_pos (h1.2 a)]
    simp [a]
  · rw [if_neg (fun h => a (h1.1 h))]
    by_cases b : ∃ r ∈ rs, r.1 ≤ t ∧ t ≤ r.2
    · rw [if_pos (h2.2 b)]
      simp only [a, b, or_true, true_iff]
      simp
    · rw [if_neg (fun h => b (h2.1 h))]
      simp only [a, b, or_false, false_iff]
      simp

section
variable {env : Env} {root : Ptr} {input : List Rune}

theorem DerivesTimes.of_times {G : Spec.Grammar Ptr} {p : Ptr} {k i j : Nat}
    (h : Times (Spec.Derives G input p) k i j) : Spec.DerivesTimes G input p k i j := by
  induction k generalizing i j with
  | zero => cases h; exact .zero
  | succ k ih =>
    -- move the last occurrence to the end
    have : ∀ {k i j}, Times (Spec.Derives G input p) (k + 1) i j →
        ∃ m, Times (Spec.Derives G input p) k i m ∧ Spec.Derives G input p m j := by
      intro k
      induction k with
      | zero => intro i j h; cases h with | succ h1 h2 => cases h2; exact ⟨_, .zero, h1⟩
      | succ k ih =>
        intro i j h
        cases h with
        | succ h1 h2 =>
          obtain ⟨m, h3, h4⟩ := ih h2
          exact ⟨m, .succ h1 h3, h4⟩
    obtain ⟨m, h1, h2⟩ := this h
    exact .succ (ih h1) h2

theorem DerivesItems.of_items {G : Spec.Grammar Ptr} {its : List (Ptr × Int × Int)} {i j : Nat}
    (h : Items (Spec.Derives G input) its i j) : Spec.DerivesItems G input its i j := by
  induction its generalizing i j with
  | nil => cases h; exact .nil
  | cons x its ih =>
    cases h with
    | cons h1 h2 h3 => exact .cons (DerivesTimes.of_times h1) h2 (ih h3)

theorem Generalizes.derives {q p : Ptr} (h : Generalizes env q p) {i j : Nat}
    (hd : Spec.Derives env.grammar input p i j) : Spec.Derives env.grammar input q i j := by
  induction h with
  | option h1 h2 h3 => exact .choice (env.grammar_some h1) (by simp [h2, PKind.expr]) h3 hd
  | nested h1 h2 h3 _ ih => exact .choice (env.grammar_some h1) (by simp [h2, PKind.expr]) h3 (ih hd)

theorem Generalizes.nonchar {q p : Ptr} (h : Generalizes env q p) {e : PDef}
    (he : env.defs[q]? = some e) : e.kind.isChar = false := by
  cases h with
  | option h1 h2 h3 => rw [h1] at he; cases he; rw [h2]; rfl
  | nested h1 h2 h3 _ => rw [h1] at he; cases he; rw [h2]; rfl

/-- The interpretation of matches as derivations. -/
def DerivH (env : Env) (root : Ptr) (input : List Rune) (i id j : Nat) : Prop :=
  ∃ p d, Reach env root p ∧ env.defs[p]? = some d ∧ d.kind.isChar = false ∧ d.id = id ∧
    Spec.Derives env.grammar input p i j

theorem Linked.interp (L : Linked env root) (input : List Rune) :
    Interp env (Reach env root) input (Spec.Derives env.grammar input) (DerivH env root input) where
  char := by
    intro p d neg cs rs i t _ hd hk hi hm
    exact .char (env.grammar_some hd) (by simp [hk, PKind.expr]) hi
      ((matchChar_iff ..).1 hm)
  choice := by
    intro p d os o i j _ hd hk ho h
    exact .choice (env.grammar_some hd) (by simp [hk, PKind.expr]) ho h
  seq := by
    intro p d is rs ac i j _ hd hk h _
    exact .seq (env.grammar_some hd) (by simp [hk, PKind.expr]) (DerivesItems.of_items h)
  store := by
    intro p d i j hR hd hk h
    exact ⟨p, d, hR, hd, hk, rfl, h⟩
  load := by
    rintro p d i j hR hd hk ⟨q, e, hR', he, hk', hid, h⟩
    have := L.ids hR' hR he hd hk' hk hid
    subst this
    exact h
  gens := by
    intro p d g i j hR hd hk hg h
    obtain ⟨q, e, hR', he, hid, hgen⟩ := L.gens hR hd hk hg
    exact ⟨q, e, hR', he, hgen.nonchar he, hid, hgen.derives h⟩

theorem foldr_max_le {α : Type} (f : α → Nat) : ∀ (l : List α) (a : α), a ∈ l →
    f a ≤ l.foldr (fun x m => max (f x) m) 0
  | [], _, h => by simp at h
  | x :: l, a, h => by
    simp only [List.foldr_cons]
    rcases List.mem_cons.1 h with rfl | h
    · omega
    · have := foldr_max_le f l a h; omega

/-- A bound on the ids. -/
def Env.idBound (env : Env) : Nat := env.defs.foldr (fun d m => max d.id m) 0 + 1

/-- The length of the longest sequence. -/
def Env.maxItems (env : Env) : Nat := env.defs.foldr (fun d m => max d.kind.children.length m) 0

theorem Env.bounds (env : Env) (R : Ptr → Prop) : Bounds env R env.idBound env.maxItems where
  id := by
    intro p d _ hd _
    have := foldr_max_le PDef.id env.defs d (List.mem_of_getElem? hd)
    unfold Env.idBound; omega
  len := by
    intro p d is rs ac _ hd hk
    have := foldr_max_le (fun d => d.kind.children.length) env.defs d (List.mem_of_getElem? hd)
    simp only [hk, PKind.children] at this
    exact this

/-- What is known of a returned parse error. -/
structure ErrorOK (env : Env) (input : List Rune) (offset line column : Nat) (name : Name) : Prop where
  inside : offset ≤ input.length
  lineEq : line = Spec.lineOf input offset
  columnEq : column = Spec.columnOf input offset
  clean : replacementChar ∉ input.take offset
  defName : ∃ d ∈ env.defs, name = definitionPart d.pname

theorem findLineLoop_append (ts : List Rune) (t : Rune) (lc : Nat × Nat) :
    findLineLoop (ts ++ [t]) lc = if t == newline then ((findLineLoop ts lc).1 + 1, 0)
      else ((findLineLoop ts lc).1, (findLineLoop ts lc).2 + 1) := by
  induction ts generalizing lc with
  | nil => obtain ⟨l, k⟩ := lc; simp [findLineLoop]
  | cons x ts ih =>
    obtain ⟨l, k⟩ := lc
    simp only [List.cons_append, findLineLoop]
    split <;> exact ih _

theorem findLineLoop_reverse (ts : List Rune) : findLineLoop ts.reverse (0, 0) =
    (ts.reverse.count newline, (ts.takeWhile (· != newline)).length) := by
  induction ts with
  | nil => simp [findLineLoop]
  | cons t ts ih =>
    simp only [List.reverse_cons, findLineLoop_append, ih]
    by_cases h : t = newline
    · subst h; simp
    · simp [h]

theorem findLineLoop_spec (ts : List Rune) : findLineLoop ts (0, 0) =
    (ts.count newline, (ts.reverse.takeWhile (· != newline)).length) := by
  have := findLineLoop_reverse ts.reverse
  simpa using this

/-- Line and column are as specified. -/
theorem findLine_spec {tokens : List Rune} {o : Int} {l k : Nat} (h : findLine tokens o = .ok (l, k)) :
    0 ≤ o ∧ o.toNat ≤ tokens.length ∧ l = Spec.lineOf tokens o.toNat ∧
      k = Spec.columnOf tokens o.toNat := by
  unfold findLine at h
  split at h
  · cases h
  · split at h
    · cases h
    · rename_i h1 h2
      rw [findLineLoop_spec] at h
      cases h
      exact ⟨by omega, by omega, by simp [Spec.lineOf], rfl⟩

theorem take_of_prefix {a b : List Rune} (h : a <+: b) {n : Nat} (hn : n ≤ a.length) :
    a.take n = b.take n := by
  obtain ⟨c, rfl⟩ := h
  rw [List.take_append_of_le_length hn]

variable {rend : Option Nat} {H : Nat → Nat → Nat → Prop}

theorem parseError_spec {c : Ctx} (h : Inv env input rend H c) {p : Ptr} {e : Err}
    (hp : parseError env c p = .ok e) :
    ∃ o l k n, e = .parseError o l k n ∧ ErrorOK env input o l k n := by
  unfold parseError at hp
  cases hn : env.nodeName p with
  | panic => simp [hn] at hp
  | oof => simp [hn] at hp
  | ok n =>
    simp only [hn, Res.bind_ok] at hp
    generalize hfo : (if c.failing == none then (c.consumed : Int) else c.failOffset) = fo at hp
    cases hfl : findLine c.tokens fo with
    | panic => simp [hfl] at hp
    | oof => simp [hfl] at hp
    | ok lk =>
      obtain ⟨l, k⟩ := lk
      simp only [hfl, Res.bind_ok] at hp
      cases hp
      obtain ⟨h1, h2, h3, h4⟩ := findLine_spec hfl
      have hpre := h.tokens_prefix
      refine ⟨_, _, _, _, rfl, ?_, ?_, ?_, ?_, ?_⟩
      · have := hpre.length_le; omega
      · rw [h3]; simp only [Spec.lineOf, take_of_prefix hpre h2]
      · rw [h4]; simp only [Spec.columnOf, take_of_prefix hpre h2]
      · rw [← take_of_prefix hpre h2]
        exact fun hm => h.clean (List.mem_of_mem_take hm)
      · unfold Env.nodeName at hn
        split at hn
        · rename_i d hd
          cases hn
          exact ⟨d, List.mem_of_getElem? hd, rfl⟩
        · cases hn

theorem parseError_ne_oof (env : Env) (c : Ctx) (p : Ptr) : parseError env c p ≠ .oof := by
  unfold parseError
  cases h : env.nodeName p with
  | panic => simp
  | oof => unfold Env.nodeName at h; split at h <;> cases h
  | ok n =>
    simp only [Res.bind_ok]
    generalize (if c.failing == none then (c.consumed : Int) else c.failOffset) = fo
    unfold findLine
    split
    · simp
    · split <;> simp

/-- A read of one more rune keeps the invariant. -/
theorem Inv.read {c : Ctx} (h : Inv env input rend H c) (hne : c.readErr = none) :
    Inv env input rend H c.read.2 ∧ c.read.2.res = c.res ∧ c.read.2.failing = c.failing ∧
      (c.read.2.eof = true → c.read.2.tokens = c.tokens ∧ c.tokens = input ∧ rend = none) ∧
      (∀ e, c.read.2.readErr = some e → (e = .invalidUnicode ∧ replacementChar ∈ input) ∨
        ∃ k, e = .readErr k ∧ rend = some k) := by
  obtain ⟨bad, hs1, hs2, hs3⟩ := h.split
  have hb : bad = [] := by
    by_cases hb : bad = []
    · exact hb
    · have := (hs3 hb).2; rw [hne] at this; cases this
  subst hb
  simp at hs1 hs2
  by_cases he : c.eof = true
  · have : c.read = (false, c) := by simp [Ctx.read, he]
    rw [this]
    obtain ⟨e1, e2, e3⟩ := h.eof he
    refine ⟨h, rfl, rfl, fun _ => ⟨rfl, ?_, e2⟩, fun e hh => ?_⟩
    · rw [hs1, e1]; simp
    · simp [hne] at hh
  · have he : c.eof = false := by simpa using he
    cases hr : c.reader with
    | nil =>
      rw [hr] at hs1
      simp at hs1
      cases hend : c.readerEnd with
      | none =>
        have : c.read = (false, { c with eof := true }) := by simp [Ctx.read, he, hne, hr, hend]
        rw [this]
        have hrn : rend = none := by rw [← h.rendEq]; exact hend
        exact ⟨⟨h.split, h.clean, h.rendEq, fun _ => ⟨hr, hrn, hne⟩, h.rerr, h.off, h.cons, h.failLo,
          h.failHi, h.failing, h.store, h.once⟩, rfl, rfl, fun _ => ⟨rfl, hs1.symm, hrn⟩,
          fun e hh => by simp [hne] at hh⟩
      | some k =>
        have : c.read = (false, { c with readErr := some (.readErr k) }) := by
          simp [Ctx.read, he, hne, hr, hend]
        rw [this]
        have hrn : rend = some k := by rw [← h.rendEq]; exact hend
        refine ⟨⟨⟨[], by simp [hs1, hr], by simp [hs2], by simp⟩, h.clean, h.rendEq,
          fun h => by simp [he] at h, ?_, h.off, h.cons, h.failLo, h.failHi, h.failing, h.store, h.once⟩, rfl,
          rfl, fun h => by simp [he] at h, ?_⟩
        · intro e hh
          simp at hh
          exact Or.inr ⟨k, hh.symm, hrn, hr, hs1⟩
        · intro e hh
          simp at hh
          exact Or.inr ⟨k, hh.symm, hrn⟩
    | cons r rest =>
      by_cases hrep : r = replacementChar
      · have : c.read = (false, { c with reader := rest, readOffset := c.readOffset + 1, readErr := some .invalidUnicode }) := by
          simp [Ctx.read, he, hne, hr, hrep]
        rw [this]
        have hmem : replacementChar ∈ input := by rw [hs1, hr, hrep]; simp
        refine ⟨⟨⟨[replacementChar], by simp [hs1, hr, hrep], by simp [hs2], by simp⟩, h.clean, h.rendEq,
          fun h => by simp [he] at h, ?_, h.off, h.cons, h.failLo, h.failHi, h.failing, h.store, h.once⟩, rfl,
          rfl, fun h => by simp [he] at h, ?_⟩
        · intro e hh
          simp at hh
          exact Or.inl ⟨hh.symm, hmem⟩
        · intro e hh
          simp at hh
          exact Or.inl ⟨hh.symm, hmem⟩
      · have : c.read = (true, { c with reader := rest, readOffset := c.readOffset + 1, tokens := c.tokens ++ [r] }) := by
          simp [Ctx.read, he, hne, hr, hrep]
        rw [this]
        refine ⟨⟨⟨[], by simp [hs1, hr], by simp [hs2], by simp⟩, ?_, h.rendEq,
          fun h => by simp [he] at h, ?_, ?_, ?_, h.failLo, ?_, h.failing, ?_, h.once⟩, rfl, rfl,
          fun h => by simp [he] at h, fun e hh => by simp [hne] at hh⟩
        · simp only [List.mem_append, not_or]
          exact ⟨h.clean, by simp; exact fun h => hrep h.symm⟩
        · intro e he; simp [hne] at he
        · have := h.off; simp; omega
        · have := h.cons; simp; omega
        · have := h.failHi; simp; omega
        · intro off id to ht
          have := h.store off id to ht
          refine ⟨this.1, ?_, this.2.2⟩
          simp; omega

/-- What is known of the returned error. -/
def ErrOK (env : Env) (input : List Rune) (rend : Option Nat) : Err → Prop
  | .parseError o l k n => ErrorOK env input o l k n
  | .invalidUnicode => replacementChar ∈ input
  | .readErr k => rend = some k

theorem finalizeParse_spec {c : Ctx} (h : Inv env input rend H c) (hne : c.readErr = none)
    {d : PDef} (hd : env.defs[root]? = some d) :
    (finalizeParse env c root).Spec True False (fun x =>
      match x.1 with
      | some e => ErrOK env input rend e
      | none => Inv env input rend H x.2 ∧ x.2.res = c.res ∧ x.2.tokens = input ∧ rend = none ∧
          c.res.longestMatch 0 d.id = some input.length) := by
  have herr : ∀ (c' : Ctx) p, Inv env input rend H c' → ((parseError env c' p).bind fun e => .ok (some e, c')).Spec
      True False (fun x =>
      match x.1 with
      | some e => ErrOK env input rend e
      | none => Inv env input rend H x.2 ∧ x.2.res = c.res ∧ x.2.tokens = input ∧ rend = none ∧
          c.res.longestMatch 0 d.id = some input.length) := by
    intro c' p hc'
    cases hp : parseError env c' p with
    | panic => trivial
    | oof => exact parseError_ne_oof env c' p hp
    | ok e =>
      obtain ⟨o, l, k, n, rfl, h2⟩ := parseError_spec hc' hp
      exact h2
  obtain ⟨r1, r2, r3, r4, r5⟩ := h.read hne
  unfold finalizeParse
  simp only [hd]
  cases hl : c.res.longestResult 0 d.id with
  | none => simp only [if_true]; exact herr _ _ h
  | some x =>
    cases x with
    | none => simp only [if_true]; exact herr _ _ h
    | some to =>
      simp only
      by_cases hf : to < c.readOffset
      · simp only [hf, decide_true, if_true]; exact herr _ _ h
      · simp only [hf, decide_false, Bool.false_eq_true, if_false]
        cases heof : c.read.2.eof with
        | true =>
          simp only [if_true]
          obtain ⟨e1, e2, e3⟩ := r4 heof
          refine ⟨r1, r2, e1.trans e2, e3, ?_⟩
          obtain ⟨g1, g2, g3⟩ := (Results.longestResult_some ..).1 hl
          obtain ⟨s1, s2, s3⟩ := h.store _ _ _ g2
          obtain ⟨bad, hs1, hs2, -⟩ := h.split
          have : to = input.length := by
            have := congrArg List.length e2
            omega
          subst this
          exact (Results.longestMatch_some ..).2 ⟨g2, g3⟩
        | false =>
          simp only [Bool.false_eq_true, if_false]
          cases he : c.read.2.readErr with
          | some e =>
            simp only
            rcases r5 e he with ⟨rfl, h2⟩ | ⟨k, rfl, h2⟩
            · exact h2
            · exact h2
          | none => exact herr _ _ r1

/-- What is known of a returned tree. -/
structure TreeOK (env : Env) (R : Ptr → Prop) (D : Ptr → Nat → Nat → Prop) (root : Ptr)
    (input : List Rune) (rend : Option Nat) (n : Node) : Prop where
  valid : replacementChar ∉ input
  ended : rend = none
  from_ : n.from_ = 0
  to : n.to = input.length
  nodes : ∀ m, Spec.Sub m n → NodeOK env R D input m
  match_ : D root 0 input.length
  name : ∃ d, env.defs[root]? = some d ∧ n.name = d.name

/-- The result of building the root is a single node. -/
theorem build_root {c : Ctx} {n : Nat} {x : Option (List Node) × Ctx} {d : PDef}
    (hd : env.defs[root]? = some d) (hk : d.kind.isChar = false) (hal : d.commit.alias = false) {to : Nat}
    (hl : c.res.longestMatch c.offset d.id = some to) (hp : c.res.pending c.offset d.id = false)
    (hb : build env n root c = .ok x) :
    ∃ ts ns, x.1 = some [Node.mk d.name c.offset to ts ns] := by
  cases n with
  | zero => simp [build] at hb
  | succ n =>
    unfold build at hb
    simp only [hd] at hb
    cases hkind : d.kind with
    | char => simp [hkind, PKind.isChar] at hk
    | choice os =>
      simp only [hkind, choiceBuild, hl, hp, Bool.and_false, Bool.false_eq_true, if_false, hal] at hb
      obtain ⟨r, -, hb⟩ := Res.bind_eq_ok hb
      obtain ⟨o, -, hb⟩ := Res.bind_eq_ok hb
      cases o with
      | none => cases hb
      | some o =>
        obtain ⟨⟨ns, c2⟩, -, hb⟩ := Res.bind_eq_ok hb
        obtain ⟨r2, -, hb⟩ := Res.bind_eq_ok hb
        cases hb
        exact ⟨_, _, rfl⟩
    | seq is rs ac =>
      simp only [hkind, seqBuild, hl, hp, Bool.and_false, Bool.false_eq_true, if_false, hal] at hb
      split at hb
      · cases hb
        exact ⟨_, _, rfl⟩
      · obtain ⟨r, -, hb⟩ := Res.bind_eq_ok hb
        obtain ⟨⟨ns, c2⟩, -, hb⟩ := Res.bind_eq_ok hb
        obtain ⟨r2, -, hb⟩ := Res.bind_eq_ok hb
        cases hb
        exact ⟨_, _, rfl⟩

theorem pcount_newContext (o i : Nat) : (newContext input rend).res.pcount o i = 0 := rfl

/-- A budget that is sufficient to parse. -/
def parseBudget (env : Env) (input : List Rune) : Nat :=
  3 * ((input.length + 1) * env.idBound) + input.length + env.maxItems + 6

theorem free_le (L B : Nat) (pc : Nat → Nat → Nat) : free L B pc ≤ (L + 1) * B := by
  unfold free
  refine Nat.le_trans List.countP_le_length ?_
  have : ∀ (l : List Nat), (l.flatMap fun o => (List.range B).map fun i => (o, i)).length = l.length * B := by
    intro l
    induction l with
    | nil => simp
    | cons x l ih => simp [ih, Nat.add_mul]; omega
  unfold allPairs
  rw [this]; simp

theorem enough_budget {p : Ptr} {n : Nat} {pc : Nat → Nat → Nat} (h : parseBudget env input ≤ n) :
    Enough env input.length env.idBound env.maxItems p pc n := by
  intro d _
  have := free_le input.length env.idBound pc
  have := d.rank_le
  unfold parseBudget at h
  split <;> omega

/-- The results of `parseInput`, for every interpretation of matches. -/
theorem parseInput_spec (C : Closed env (Reach env root)) {D : Ptr → Nat → Nat → Prop}
    (I : Interp env (Reach env root) input D H)
    (hroot : ∃ d, env.defs[root]? = some d ∧ (d.kind.isChar = false → d.commit.alias = false))
    {n : Nat} {x : Except Err Node} (h : parseInput env n root input rend = .ok x) :
    match x with
    | .error e => ErrOK env input rend e
    | .ok t => TreeOK env (Reach env root) D root input rend t := by
  obtain ⟨d, hd, hal⟩ := hroot
  unfold parseInput at h
  obtain ⟨c, hc, h⟩ := Res.bind_eq_ok h
  have hp := (parse_spec C I (env.bounds _) n root (newContext input rend) .root .init).of_eq hc
  cases hre : c.readErr with
  | some e =>
    simp only [hre] at h
    cases h
    rcases hp.inv.rerr e hre with ⟨rfl, h2⟩ | ⟨k, rfl, h2, -⟩
    · exact h2
    · exact h2
  | none =>
    simp only [hre] at h
    obtain ⟨⟨err, c'⟩, hf, h⟩ := Res.bind_eq_ok h
    have hfs := (finalizeParse_spec (root := root) hp.inv hre hd).of_eq hf
    cases err with
    | some e =>
      cases h
      exact hfs
    | none =>
      obtain ⟨i1, i2, i3, i4, i5⟩ := hfs
      have hk : d.kind.isChar = false := by
        cases n with
        | zero => simp [parse] at hc
        | succ n =>
          unfold parse at hc
          simp only [hd] at hc
          cases hkind : d.kind with
          | char neg cs rs =>
            simp only [hkind, charParse] at hc
            obtain ⟨⟨t, c1⟩, ht, hc⟩ := Res.bind_eq_ok hc
            have hr := ((token_spec (ob := False) (Inv.init (env := env) (H := H) (rend := rend))).of_eq ht).res
            simp only at hr
            have : c.res = c1.res := by
              simp only at hc
              cases t with
              | none => cases Res.ok.inj hc; split <;> rfl
              | some t =>
                simp only at hc
                split at hc
                · cases Res.ok.inj hc; rfl
                · cases Res.ok.inj hc; split <;> rfl
            rw [this, hr] at i5
            simp [newContext, Results.longestMatch, Results.at_, Results.longestLoop] at i5
          | choice => rfl
          | seq => rfl
      have hal := hal hk
      simp only at h i1 i2 i3
      obtain ⟨⟨ns, c2⟩, hb, h⟩ := Res.bind_eq_ok h
      have hbi : BInv input H { c' with offset := 0, res := c'.res.resetPending } := by
        refine ⟨i3, Nat.zero_le _, ?_⟩
        intro off id to ht
        rw [← i3]
        exact i1.store off id to ht
      have hbs := (build_spec C I (env.bounds _) n root _ .root hbi).of_eq hb
      have hl : ({ c' with offset := 0, res := c'.res.resetPending } : Ctx).res.longestMatch 0 d.id =
          some input.length := by
        rw [← i5, ← i2]; rfl
      obtain ⟨ts, nds, hx⟩ := build_root hd hk hal (to := input.length) hl (by rfl) hb
      simp only at hx
      subst hx
      simp only at h
      cases h
      have hval : replacementChar ∉ input := by rw [← i3]; exact i1.clean
      have hnodes := hbs.nodes _ rfl
      refine ⟨hval, i4, rfl, rfl, fun m hm => hnodes _ (by simp) m hm, ?_, d, hd, rfl⟩
      have hh := ((Results.longestMatch_some ..).1 i5).1
      have hs := hp.inv.store _ _ _ hh
      exact I.load .root hd hk hs.2.2

theorem spec_ne_oof {α : Type} {x : Res α} {pb ob : Prop} {P : α → Prop} (h : x.Spec pb ob P)
    (ho : ¬ ob) : x ≠ .oof := by
  intro hx; subst hx; exact ho h

/-- The trivial interpretation. -/
theorem Interp.trivial (env : Env) (R : Ptr → Prop) (input : List Rune) :
    Interp env R input (fun _ _ _ => True) (fun _ _ _ => True) := by
  constructor <;> intros <;> exact True.intro

/-! ### How much budget is enough -/

theorem length_le_of_nodup {α : Type} [BEq α] [LawfulBEq α] : ∀ {l ls : List α}, l.Nodup → (∀ x ∈ l, x ∈ ls) → l.length ≤ ls.length
  | [], _, _, _ => Nat.zero_le _
  | a :: l, ls, hn, hs => by
    obtain ⟨ha, hn⟩ := List.nodup_cons.1 hn
    have hm := hs a List.mem_cons_self
    have := length_le_of_nodup (l := l) (ls := ls.erase a) hn fun x hx =>
      (List.mem_erase_of_ne (a := x) (b := a) (fun e => ha (e ▸ hx))).2 (hs x (List.mem_cons_of_mem _ hx))
    rw [List.length_erase_of_mem hm] at this
    have := List.length_pos_of_mem hm
    simp only [List.length_cons]
    omega

theorem nodup_of_count {α : Type} [BEq α] [LawfulBEq α] : ∀ {l : List α}, (∀ a ∈ l, l.count a ≤ 1) → l.Nodup
  | [], _ => List.nodup_nil
  | a :: l, h => by
    refine List.nodup_cons.2 ⟨fun ha => ?_, nodup_of_count fun b hb => ?_⟩
    · have := h a List.mem_cons_self
      rw [List.count_cons_self] at this
      have := List.count_pos_iff.2 ha
      omega
    · have := h b (List.mem_cons_of_mem _ hb)
      rw [List.count_cons] at this
      omega

theorem length_allPairs (L B : Nat) : (allPairs L B).length = (L + 1) * B := by
  have : ∀ (l : List Nat), (l.flatMap fun o => (List.range B).map fun i => (o, i)).length = l.length * B := by
    intro l
    induction l with
    | nil => simp
    | cons x l ih => simp [ih, Nat.add_mul]; omega
  unfold allPairs
  rw [this]; simp

theorem sum_le_of {g : List (Int × Nat) → Nat} {L K : Nat} : ∀ {ms : List (List (Int × Nat))} {k : Nat},
    (∀ o, g (ms.getD o []) ≤ K) → (∀ o, L < o + k → g (ms.getD o []) = 0) → (ms.map g).sum ≤ (L + 1 - k) * K
  | [], k, _, _ => by simp
  | x :: ms, k, h1, h2 => by
    have ih := sum_le_of (g := g) (L := L) (K := K) (ms := ms) (k := k + 1) (fun o => h1 (o + 1))
      (fun o ho => h2 (o + 1) (by omega))
    have hx := h1 0
    simp only [List.getD_cons_zero] at hx
    simp only [List.map_cons, List.sum_cons]
    by_cases hk : L < k
    · have h0 := h2 0 (by omega)
      simp only [List.getD_cons_zero] at h0
      rw [show L + 1 - (k + 1) = 0 by omega] at ih
      simp only [Nat.zero_mul] at ih
      omega
    · rw [show L + 1 - k = (L + 1 - (k + 1)) + 1 by omega, Nat.add_mul]
      omega

/-- The number of recorded matches. -/
theorem live_le {r : Results} {L B : Nat} (ho : r.Once) (h : ∀ off id to, r.Has off id to → off ≤ L ∧ id < B ∧ to ≤ L) :
    live r ≤ (L + 1) * ((L + 1) * B) := by
  unfold live
  refine sum_le_of (k := 0) (fun o => ?_) (fun o hL => ?_)
  · rw [List.countP_eq_length_filter, ← length_allPairs]
    have : ((r.at_ o).filter fun e => decide (0 ≤ e.1)).length =
        (((r.at_ o).filter fun e => decide (0 ≤ e.1)).map fun e => (e.2, e.1.toNat)).length := by simp
    show ((r.at_ o).filter fun e => decide (0 ≤ e.1)).length ≤ _
    rw [this]
    refine length_le_of_nodup ?_ ?_
    · refine List.pairwise_map.2 (List.Pairwise.imp_of_mem ?_ (nodup_of_count ?_))
      · intro a b ha hb hne e
        obtain ⟨-, ha⟩ := List.mem_filter.1 ha
        obtain ⟨-, hb⟩ := List.mem_filter.1 hb
        simp only [decide_eq_true_eq] at ha hb
        simp only [Prod.mk.injEq] at e
        exact hne (Prod.ext (by omega) e.1)
      · intro a ha
        obtain ⟨-, hp⟩ := List.mem_filter.1 ha
        simp only [decide_eq_true_eq] at hp
        refine Nat.le_trans (List.Sublist.count_le _ List.filter_sublist) ?_
        have := ho o a.1.toNat a.2
        rwa [show (((a.1.toNat : Nat) : Int), a.2) = a from Prod.ext (by simp only; omega) rfl] at this
    · intro x hx
      obtain ⟨e, he, rfl⟩ := List.mem_map.1 hx
      obtain ⟨hm, hp⟩ := List.mem_filter.1 he
      simp only [decide_eq_true_eq] at hp
      have := h o e.1.toNat e.2 (by
        show (((e.1.toNat : Nat) : Int), e.2) ∈ r.at_ o
        rwa [show (((e.1.toNat : Nat) : Int), e.2) = e from Prod.ext (by simp only; omega) rfl])
      exact mem_allPairs.2 ⟨this.2.2, this.2.1⟩
  · refine List.countP_eq_zero.2 fun e he hp => ?_
    simp only [decide_eq_true_eq] at hp
    have := h o e.1.toNat e.2 (by
      show (((e.1.toNat : Nat) : Int), e.2) ∈ r.at_ o
      rwa [show (((e.1.toNat : Nat) : Int), e.2) = e from Prod.ext (by simp only; omega) rfl])
    omega

/-- A bound on the ids of the recorded matches. -/
def Env.recordBound (env : Env) : Nat := env.idBound + env.defs.foldr (fun d m => max (d.gens.foldr max 0) m) 0 + 1

theorem Env.record_bounds (env : Env) (R : Ptr → Prop) (input : List Rune) :
    Interp env R input (fun _ _ _ => True) (fun _ id _ => id < env.recordBound) := by
  have hid : ∀ {p : Ptr} {d : PDef}, env.defs[p]? = some d → d.id < env.recordBound := by
    intro p d hd
    have := foldr_max_le PDef.id env.defs d (List.mem_of_getElem? hd)
    unfold Env.recordBound Env.idBound; omega
  constructor
  case store => intro p d i j _ hd _ _; exact hid hd
  case gens =>
    intro p d g i j _ hd _ hg _
    have h1 := foldr_max_le (fun d : PDef => d.gens.foldr max 0) env.defs d (List.mem_of_getElem? hd)
    have h2 := foldr_max_le id d.gens g hg
    simp only [id] at h2
    unfold Env.recordBound
    have h3 : d.gens.foldr (fun d m => max d m) 0 = d.gens.foldr max 0 := rfl
    omega
  all_goals intros; trivial

/-- A budget that is sufficient to parse and to build. -/
def inputBudget (env : Env) (L : Nat) : Nat :=
  4 * ((L + 1) * env.idBound) + (L + 1) * ((L + 1) * env.recordBound) + 2 * L + 2 * env.maxItems + 7

/-- `parseInput` returns with this budget. -/
theorem parseInput_budget (C : Closed env (Reach env root)) (rend : Option Nat) :
    parseInput env (inputBudget env input.length) root input rend ≠ .oof := by
  obtain ⟨d, hd⟩ := C.def_ .root
  have I := env.record_bounds (Reach env root) input
  generalize hN : inputBudget env input.length = N
  have hle : parseBudget env input ≤ N := by subst hN; unfold inputBudget parseBudget; omega
  have hps := parse_spec (rend := rend) C I (env.bounds _) N root (newContext input rend) .root .init
  have hpn : parse env N root (newContext input rend) ≠ .oof := spec_ne_oof hps (fun h => h (enough_budget hle))
  cases hc : parse env N root (newContext input rend) with
  | oof => exact absurd hc hpn
  | panic => unfold parseInput; rw [hc]; simp
  | ok c =>
    rw [hc] at hps
    have hinv := hps.inv
    cases hre : c.readErr with
    | some e => unfold parseInput; rw [hc]; simp [hre]
    | none =>
      have hfs := finalizeParse_spec (root := root) hinv hre hd
      cases hf : finalizeParse env c root with
      | oof => rw [hf] at hfs; exact hfs.elim
      | panic => unfold parseInput; rw [hc]; simp [hre, hf]
      | ok x =>
        obtain ⟨e, c'⟩ := x
        rw [hf] at hfs
        cases e with
        | some e => unfold parseInput; rw [hc]; simp [hre, hf]
        | none =>
          obtain ⟨i1, i2, i3, i4, i5⟩ := hfs
          simp only at i1 i2 i3
          have hbi : BInv input (fun _ id _ => id < env.recordBound)
              { c' with offset := 0, res := c'.res.resetPending } := by
            refine ⟨i3, Nat.zero_le _, ?_⟩
            intro off id to ht
            rw [← i3]
            exact i1.store off id to ht
          have hlive : live c'.res ≤ (input.length + 1) * ((input.length + 1) * env.recordBound) := by
            refine live_le i1.once fun off id to hh => ?_
            have := i1.store off id to hh
            rw [i3] at this
            exact ⟨by omega, this.2.2, this.2.1⟩
          have hbm : bm input.length env.idBound { c' with offset := 0, res := c'.res.resetPending } + input.length +
              env.maxItems < N := by
            have hl : live c'.res.resetPending = live c'.res := live_congr rfl
            have := free_le input.length env.idBound c'.res.resetPending.pcount
            subst hN
            unfold bm inputBudget
            simp only
            omega
          have hbs := build_spec C I (env.bounds _) N root _ .root hbi
          have hbn := spec_ne_oof hbs (by omega)
          unfold parseInput
          rw [hc]
          simp only [Res.bind_ok, hre, hf]
          cases hb : build env N root { c' with offset := 0, res := c'.res.resetPending } with
          | oof => exact absurd hb hbn
          | panic => simp
          | ok y =>
            obtain ⟨ns, c2⟩ := y
            simp only [Res.bind_ok]
            split <;> simp

/-- `parseInput` always returns. -/
theorem parseInput_terminates (C : Closed env (Reach env root)) (rend : Option Nat) :
    ∃ N x, x ≠ .oof ∧ ∀ n, N ≤ n → parseInput env n root input rend = x :=
  ⟨_, _, parseInput_budget C rend, fun _ hn => (parseInput_le env hn root input rend).eq (parseInput_budget C rend)⟩

end
end Treerack
