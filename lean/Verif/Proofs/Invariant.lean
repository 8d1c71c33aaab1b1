import Verif.Model.Builder
import Verif.Spec.Grammar
import Verif.Proofs.Results
import Verif.Proofs.Spec

/-
The basic invariant of parsing, for an abstract interpretation of matches.

`D p i j` is an interpretation of "the parser at address p matches from i to j", `H i id j` is an
interpretation of a recorded match.  The invariant is proved once for every interpretation that is closed
under the rules of the grammar; with the trivial interpretation it yields absence of panics and
termination, with derivability it yields soundness.
-/

namespace Treerack

/-- `k` consecutive `D` steps. -/
inductive Times (D : Nat → Nat → Prop) : Nat → Nat → Nat → Prop
  | zero {i : Nat} : Times D 0 i i
  | succ {k i m j : Nat} : D i m → Times D k m j → Times D (k + 1) i j

theorem Times.snoc {D : Nat → Nat → Prop} {k i m j : Nat} (h : Times D k i m) (h2 : D m j) :
    Times D (k + 1) i j := by
  induction h with
  | zero => exact .succ h2 .zero
  | succ h1 _ ih => exact .succ h1 (ih h2)

theorem Times.empties {D : Nat → Nat → Prop} {i : Nat} (h : D i i) (k : Nat) : Times D k i i := by
  induction k with
  | zero => exact .zero
  | succ k ih => exact .succ h ih

/-- The items of a sequence, each the allowed number of times. -/
inductive Items (D : Ptr → Nat → Nat → Prop) : List (Ptr × (Int × Int)) → Nat → Nat → Prop
  | nil {i : Nat} : Items D [] i i
  | cons {p : Ptr} {mn mx : Int} {rest : List (Ptr × (Int × Int))} {k i m j : Nat} :
      Times (D p) k i m → Spec.InRange mn mx k → Items D rest m j →
      Items D ((p, (mn, mx)) :: rest) i j

/-- What is left to do when the first item of the list has been matched `k` times. -/
def Rest (D : Ptr → Nat → Nat → Prop) (its : List (Ptr × (Int × Int))) (k to j : Nat) : Prop :=
  match its with
  | [] => j = to
  | (p, (mn, mx)) :: rest =>
    ∃ n m, Times (D p) n to m ∧ Spec.InRange mn mx (k + n) ∧ Items D rest m j

theorem Items.rest {D : Ptr → Nat → Nat → Prop} {its : List (Ptr × (Int × Int))} {to j : Nat}
    (h : Rest D its 0 to j) : Items D its to j := by
  cases its with
  | nil => simp [Rest] at h; subst h; exact .nil
  | cons x rest =>
    obtain ⟨p, mn, mx⟩ := x
    obtain ⟨n, m, h1, h2, h3⟩ := h
    exact .cons h1 (by simpa using h2) h3

theorem Rest.of_items {D : Ptr → Nat → Nat → Prop} {its : List (Ptr × (Int × Int))} {to j : Nat}
    (h : Items D its to j) : Rest D its 0 to j := by
  cases h with
  | nil => rfl
  | cons h1 h2 h3 => exact ⟨_, _, h1, by simpa using h2, h3⟩

/-- The children of a parser. -/
def PKind.children : PKind → List Ptr
  | .char _ _ _ => []
  | .choice os => os
  | .seq is _ _ => is

def PKind.isChar : PKind → Bool
  | .char _ _ _ => true
  | _ => false

/-- A set of parsers that is closed under references: no dangling references, plain character sequences
only have character items. -/
structure Closed (env : Env) (R : Ptr → Prop) : Prop where
  def_ : ∀ {p}, R p → ∃ d, env.defs[p]? = some d
  child : ∀ {p d q}, R p → env.defs[p]? = some d → q ∈ d.kind.children → R q
  keyword : ∀ {k}, k ∈ env.keywords → R k
  chars : ∀ {p d is rs q}, R p → env.defs[p]? = some d → d.kind = .seq is rs true → q ∈ is →
    ∃ d', env.defs[q]? = some d' ∧ d'.kind.isChar = true
  kwflags : ∀ {k d is rs}, k ∈ env.keywords → env.defs[k]? = some d → d.kind = .seq is rs true →
    d.commit.noKeyword = false

/-- The invariant of the context. -/
structure Inv (env : Env) (input : List Rune) (rend : Option Nat) (H : Nat → Nat → Nat → Prop)
    (c : Ctx) : Prop where
  split : ∃ bad, input = c.tokens ++ bad ++ c.reader ∧ c.readOffset = c.tokens.length + bad.length ∧
    (bad ≠ [] → bad = [replacementChar] ∧ c.readErr = some .invalidUnicode)
  clean : replacementChar ∉ c.tokens
  rendEq : c.readerEnd = rend
  eof : c.eof = true → c.reader = [] ∧ rend = none ∧ c.readErr = none
  rerr : ∀ e, c.readErr = some e → (e = .invalidUnicode ∧ replacementChar ∈ input) ∨
    (∃ k, e = .readErr k ∧ rend = some k ∧ c.reader = [] ∧ input = c.tokens)
  off : c.offset ≤ c.tokens.length
  cons : c.consumed ≤ c.tokens.length
  failLo : -1 ≤ c.failOffset
  failHi : c.failOffset ≤ (c.tokens.length : Int)
  failing : ∀ p, c.failing = some p → ∃ d, env.defs[p]? = some d
  store : ∀ off id to, c.res.Has off id to → off ≤ to ∧ to ≤ c.tokens.length ∧ H off id to
  once : c.res.Once

/-- An attempt to parse the keyword `k` at `i` with the limit `j` did not end with a match from `i` to `j`. -/
def Missed (env : Env) (input : List Rune) (H : Nat → Nat → Nat → Prop) (k : Ptr) (i j : Nat) : Prop :=
  i ≤ j ∧ ∃ rend n c c', Inv env input rend H c ∧ c.offset = i ∧ c.offsetLimit = (j : Int) ∧ parse env n k c = .ok c' ∧
    (c'.matchLast && c'.offset == j) = false

/-- An interpretation of matches that is closed under the rules of the grammar. -/
structure Interp (env : Env) (R : Ptr → Prop) (input : List Rune) (D : Ptr → Nat → Nat → Prop)
    (H : Nat → Nat → Nat → Prop) : Prop where
  char : ∀ {p d neg cs rs i t}, R p → env.defs[p]? = some d → d.kind = .char neg cs rs →
    input[i]? = some t → matchChar cs rs neg t = true → D p i (i + 1)
  choice : ∀ {p d os o i j}, R p → env.defs[p]? = some d → d.kind = .choice os → o ∈ os →
    D o i j → D p i j
  seq : ∀ {p d is rs ac i j}, R p → env.defs[p]? = some d → d.kind = .seq is rs ac →
    Items D (is.zip rs) i j → (d.commit.noKeyword = true → ∀ k ∈ env.keywords, Missed env input H k i j) → D p i j
  store : ∀ {p d i j}, R p → env.defs[p]? = some d → d.kind.isChar = false → D p i j → H i d.id j
  load : ∀ {p d i j}, R p → env.defs[p]? = some d → d.kind.isChar = false → H i d.id j → D p i j
  gens : ∀ {p d g i j}, R p → env.defs[p]? = some d → d.kind.isChar = false → g ∈ d.gens →
    D p i j → H i g j

/-- What a parse call changes. -/
structure Frame (c c' : Ctx) : Prop where
  pc : ∀ off id, c'.res.pcount off id = c.res.pcount off id
  has : ∀ off id to, c.res.Has off id to → c'.res.Has off id to
  noM : ∀ off id, c.res.NoM off id → c'.res.NoM off id
  lim : c'.offsetLimit = c.offsetLimit
  toks : c.tokens <+: c'.tokens
  cons : c.consumed ≤ c'.consumed
  plen : c.res.isPending.length ≤ c'.res.isPending.length
  err : c.readErr ≠ none → c'.readErr = c.readErr ∧ c'.tokens = c.tokens
  eof : c.eof = true → c'.eof = true ∧ c'.tokens = c.tokens

theorem Frame.refl (c : Ctx) : Frame c c :=
  ⟨fun _ _ => rfl, fun _ _ _ h => h, fun _ _ h => h, rfl, List.prefix_rfl, Nat.le_refl _, Nat.le_refl _,
   fun _ => ⟨rfl, rfl⟩, fun h => ⟨h, rfl⟩⟩

theorem Frame.trans {a b c : Ctx} (h : Frame a b) (h' : Frame b c) : Frame a c where
  pc := fun o i => (h'.pc o i).trans (h.pc o i)
  has := fun o i t x => h'.has o i t (h.has o i t x)
  noM := fun o i x => h'.noM o i (h.noM o i x)
  lim := h'.lim.trans h.lim
  toks := h.toks.trans h'.toks
  cons := Nat.le_trans h.cons h'.cons
  plen := Nat.le_trans h.plen h'.plen
  err := fun x => by
    have h1 := h.err x
    have h2 := h'.err (by rw [h1.1]; exact x)
    exact ⟨h2.1.trans h1.1, h2.2.trans h1.2⟩
  eof := fun x => by
    have h1 := h.eof x
    have h2 := h'.eof h1.1
    exact ⟨h2.1, h2.2.trans h1.2⟩

theorem Frame.tokLen {c c' : Ctx} (h : Frame c c') : c.tokens.length ≤ c'.tokens.length :=
  h.toks.length_le

/-- The postcondition of parsing `p` in the context `c`. -/
structure Post (env : Env) (input : List Rune) (rend : Option Nat) (D : Ptr → Nat → Nat → Prop)
    (H : Nat → Nat → Nat → Prop) (p : Ptr) (c c' : Ctx) : Prop where
  frame : Frame c c'
  inv : Inv env input rend H c'
  mtch : c'.matchLast = true → c.offset ≤ c'.offset ∧ D p c.offset c'.offset ∧
    c'.offset ≤ c'.consumed
  fail : c'.matchLast = false → c'.offset = c.offset

section
variable {env : Env} {R : Ptr → Prop} {input : List Rune} {rend : Option Nat}
  {D : Ptr → Nat → Nat → Prop} {H : Nat → Nat → Nat → Prop} {pb ob : Prop}

theorem Inv.tokens_prefix {c : Ctx} (h : Inv env input rend H c) : c.tokens <+: input := by
  obtain ⟨bad, h1, -⟩ := h.split
  exact ⟨bad ++ c.reader, by rw [h1, List.append_assoc]⟩

theorem Inv.tokens_length {c : Ctx} (h : Inv env input rend H c) : c.tokens.length ≤ input.length :=
  h.tokens_prefix.length_le

theorem Inv.getElem? {c : Ctx} (h : Inv env input rend H c) {i : Nat} {t : Rune}
    (ht : c.tokens[i]? = some t) : input[i]? = some t := by
  obtain ⟨r, hr⟩ := h.tokens_prefix
  rw [← hr, List.getElem?_append]
  have : i < c.tokens.length := by
    by_cases hl : i < c.tokens.length
    · exact hl
    · rw [List.getElem?_eq_none (by omega)] at ht; cases ht
  rw [if_pos this]; exact ht

/-- The invariant of the initial context. -/
theorem Inv.init : Inv env input rend H (newContext input rend) where
  split := ⟨[], by simp [newContext], by simp [newContext], by simp⟩
  clean := by simp [newContext]
  rendEq := rfl
  eof := by simp [newContext]
  rerr := by simp [newContext]
  off := by simp [newContext]
  cons := by simp [newContext]
  failLo := by simp [newContext]
  failHi := by simp [newContext]
  failing := by simp [newContext]
  store := by
    intro off id to h
    simp [newContext, Results.Has, Results.at_] at h
  once := by intro off id to; simp [newContext, Results.at_]

/-- Only the offset, `matchLast`, `consumed` and the offset limit change. -/
theorem Inv.moved {c : Ctx} (h : Inv env input rend H c) {o : Nat} {m : Bool} {k : Nat} {l : Int}
    (ho : o ≤ c.tokens.length) (hk : k ≤ c.tokens.length) :
    Inv env input rend H { c with offset := o, matchLast := m, consumed := k, offsetLimit := l } :=
  ⟨h.split, h.clean, h.rendEq, h.eof, h.rerr, ho, hk, h.failLo, h.failHi, h.failing, h.store, h.once⟩

theorem Inv.setOffset {c : Ctx} (h : Inv env input rend H c) {o : Nat} (ho : o ≤ c.tokens.length) :
    Inv env input rend H { c with offset := o } :=
  ⟨h.split, h.clean, h.rendEq, h.eof, h.rerr, ho, h.cons, h.failLo, h.failHi, h.failing, h.store, h.once⟩

theorem Inv.setLimit {c : Ctx} (h : Inv env input rend H c) {l : Int} :
    Inv env input rend H { c with offsetLimit := l } :=
  ⟨h.split, h.clean, h.rendEq, h.eof, h.rerr, h.off, h.cons, h.failLo, h.failHi, h.failing, h.store, h.once⟩

theorem Inv.fail {c : Ctx} (h : Inv env input rend H c) {o : Nat} (ho : o ≤ c.tokens.length) :
    Inv env input rend H (c.fail o) :=
  ⟨h.split, h.clean, h.rendEq, h.eof, h.rerr, ho, h.cons, h.failLo, h.failHi, h.failing, h.store, h.once⟩

theorem Inv.success {c : Ctx} (h : Inv env input rend H c) {o : Nat} (ho : o ≤ c.tokens.length) :
    Inv env input rend H (c.success o) := by
  refine ⟨h.split, h.clean, h.rendEq, h.eof, h.rerr, ho, ?_, h.failLo, h.failHi, h.failing, h.store, h.once⟩
  have := h.cons
  simp only [Ctx.success]
  split <;> assumption

theorem Inv.setFail {c : Ctx} (h : Inv env input rend H c) {fo : Int} {f : Option Ptr}
    (h1 : -1 ≤ fo) (h2 : fo ≤ (c.tokens.length : Int))
    (h3 : ∀ p, f = some p → ∃ d, env.defs[p]? = some d) :
    Inv env input rend H { c with failOffset := fo, failing := f } :=
  ⟨h.split, h.clean, h.rendEq, h.eof, h.rerr, h.off, h.cons, h1, h2, h3, h.store, h.once⟩

theorem Inv.setFailing {c : Ctx} (h : Inv env input rend H c) {ct : Commit} {p : Ptr}
    (hp : ∃ d, env.defs[p]? = some d) : Inv env input rend H (c.setFailing ct p) := by
  unfold Ctx.setFailing
  split
  · refine ⟨h.split, h.clean, h.rendEq, h.eof, h.rerr, h.off, h.cons, h.failLo, h.failHi, ?_, h.store, h.once⟩
    intro q hq
    simp at hq
    subst hq; exact hp
  · exact h

theorem Inv.setRes {c : Ctx} (h : Inv env input rend H c) {r : Results}
    (hr : ∀ off id to, r.Has off id to → off ≤ to ∧ to ≤ c.tokens.length ∧ H off id to) (ho : r.Once) :
    Inv env input rend H { c with res := r } :=
  ⟨h.split, h.clean, h.rendEq, h.eof, h.rerr, h.off, h.cons, h.failLo, h.failHi, h.failing, hr, ho⟩

@[simp] theorem Ctx.setFailing_res (c : Ctx) (ct : Commit) (p : Ptr) :
    (c.setFailing ct p).res = c.res := by unfold Ctx.setFailing; split <;> rfl
@[simp] theorem Ctx.setFailing_tokens (c : Ctx) (ct : Commit) (p : Ptr) :
    (c.setFailing ct p).tokens = c.tokens := by unfold Ctx.setFailing; split <;> rfl
@[simp] theorem Ctx.setFailing_offset (c : Ctx) (ct : Commit) (p : Ptr) :
    (c.setFailing ct p).offset = c.offset := by unfold Ctx.setFailing; split <;> rfl
@[simp] theorem Ctx.setFailing_lim (c : Ctx) (ct : Commit) (p : Ptr) :
    (c.setFailing ct p).offsetLimit = c.offsetLimit := by unfold Ctx.setFailing; split <;> rfl
@[simp] theorem Ctx.setFailing_consumed (c : Ctx) (ct : Commit) (p : Ptr) :
    (c.setFailing ct p).consumed = c.consumed := by unfold Ctx.setFailing; split <;> rfl
@[simp] theorem Ctx.setFailing_readErr (c : Ctx) (ct : Commit) (p : Ptr) :
    (c.setFailing ct p).readErr = c.readErr := by unfold Ctx.setFailing; split <;> rfl
@[simp] theorem Ctx.setFailing_eof (c : Ctx) (ct : Commit) (p : Ptr) :
    (c.setFailing ct p).eof = c.eof := by unfold Ctx.setFailing; split <;> rfl
@[simp] theorem Ctx.setFailing_matchLast (c : Ctx) (ct : Commit) (p : Ptr) :
    (c.setFailing ct p).matchLast = c.matchLast := by unfold Ctx.setFailing; split <;> rfl

/-- A frame for contexts that share the listed fields. -/
theorem Frame.of_eq {c c' : Ctx} (h1 : c'.res = c.res) (h2 : c'.offsetLimit = c.offsetLimit)
    (h3 : c'.tokens = c.tokens) (h4 : c.consumed ≤ c'.consumed) (h5 : c'.readErr = c.readErr)
    (h6 : c'.eof = c.eof) : Frame c c' where
  pc := fun _ _ => by rw [h1]
  has := fun _ _ _ h => by rw [h1]; exact h
  noM := fun _ _ h => by rw [h1]; exact h
  lim := h2
  toks := by rw [h3]; exact List.prefix_rfl
  cons := h4
  plen := by rw [h1]; exact Nat.le_refl _
  err := fun _ => ⟨h5, h3⟩
  eof := fun h => ⟨by rw [h6]; exact h, h3⟩

theorem consumed_success (c : Ctx) (o : Nat) : c.consumed ≤ (c.success o).consumed := by
  simp only [Ctx.success]; split <;> omega

theorem le_consumed_success (c : Ctx) (o : Nat) : o ≤ (c.success o).consumed := by
  simp only [Ctx.success]; split <;> omega

theorem Frame.success (c : Ctx) (o : Nat) : Frame c (c.success o) :=
  .of_eq rfl rfl rfl (consumed_success c o) rfl rfl

theorem Frame.fail (c : Ctx) (o : Nat) : Frame c (c.fail o) :=
  .of_eq rfl rfl rfl (Nat.le_refl _) rfl rfl

theorem Frame.offset (c : Ctx) (o : Nat) : Frame c { c with offset := o } :=
  .of_eq rfl rfl rfl (Nat.le_refl _) rfl rfl

theorem Frame.failOffset (c : Ctx) (fo : Int) (f : Option Ptr) :
    Frame c { c with failOffset := fo, failing := f } :=
  .of_eq rfl rfl rfl (Nat.le_refl _) rfl rfl

theorem Frame.setFailing (c : Ctx) (ct : Commit) (p : Ptr) : Frame c (c.setFailing ct p) :=
  .of_eq (by simp) (by simp) (by simp) (by simp) (by simp) (by simp)

/-- What reading one token does. -/
structure TokenPost (env : Env) (input : List Rune) (rend : Option Nat) (H : Nat → Nat → Nat → Prop)
    (c : Ctx) (x : Option Rune × Ctx) : Prop where
  frame : Frame c x.2
  inv : Inv env input rend H x.2
  offset : x.2.offset = c.offset
  res : x.2.res = c.res
  failOffset : x.2.failOffset = c.failOffset
  failing : x.2.failing = c.failing
  consumed : x.2.consumed = c.consumed
  some : ∀ t, x.1 = some t → input[c.offset]? = some t ∧ c.offset < x.2.tokens.length
  none : x.1 = none → (c.offset : Int) ≠ c.offsetLimit → replacementChar ∉ input →
        input[c.offset]? = none
  limit : (c.offset : Int) = c.offsetLimit → x.1 = Option.none

theorem token_spec {c : Ctx} (h : Inv env input rend H c) :
    c.token.Spec (replacementChar ∈ input) ob (TokenPost env input rend H c) := by
  obtain ⟨bad, hs1, hs2, hs3⟩ := h.split
  by_cases hl : (c.offset : Int) = c.offsetLimit
  · have ht : c.token = .ok (none, c) := by simp [Ctx.token, hl]
    rw [ht]
    exact ⟨.refl c, h, rfl, rfl, rfl, rfl, rfl, by simp, fun _ h2 => absurd hl h2, by simp⟩
  by_cases ho : c.offset = c.readOffset
  · have hl' : ¬ (c.readOffset : Int) = c.offsetLimit := by rw [← ho]; exact hl
    by_cases hstop : (c.eof || c.readErr.isSome) = true
    · have ht : c.token = .ok (none, c) := by simp [Ctx.token, hl', ho, Ctx.read, hstop]
      rw [ht]
      refine ⟨.refl c, h, rfl, rfl, rfl, rfl, rfl, by simp, ?_, by simp⟩
      intro _ _ hno
      have hb : bad = [] := by
        by_cases hb : bad = []
        · exact hb
        · exfalso; apply hno; rw [hs1, (hs3 hb).1]; simp
      subst hb
      simp only [Bool.or_eq_true] at hstop
      have hr : c.reader = [] := by
        rcases hstop with hstop | hstop
        · exact (h.eof hstop).1
        · obtain ⟨e, he⟩ := Option.isSome_iff_exists.1 hstop
          rcases h.rerr e he with h1 | ⟨k, -, -, h1, -⟩
          · exact absurd h1.2 hno
          · exact h1
      rw [List.getElem?_eq_none]
      rw [hs1, hr]; simp at hs2 ⊢; omega
    · have hstop' := hstop
      simp only [Bool.or_eq_true, not_or, Bool.not_eq_true] at hstop'
      have hre : c.readErr = none := by
        cases hr : c.readErr with
        | none => rfl
        | some e => simp [hr] at hstop'
      have hb : bad = [] := by
        by_cases hb : bad = []
        · exact hb
        · have := (hs3 hb).2; rw [hre] at this; cases this
      subst hb
      simp at hs1 hs2
      cases hrd : c.reader with
      | nil =>
        rw [hrd] at hs1
        simp at hs1
        have hin : input[c.offset]? = none := by
          rw [List.getElem?_eq_none]; rw [hs1]; omega
        cases hend : c.readerEnd with
        | none =>
          have ht : c.token = .ok (none, { c with eof := true }) := by
            simp [Ctx.token, hl', ho, Ctx.read, hstop, hrd, hend]
          rw [ht]
          refine ⟨⟨fun _ _ => rfl, fun _ _ _ h => h, fun _ _ h => h, rfl, List.prefix_rfl, Nat.le_refl _,
            Nat.le_refl _, fun h => ⟨rfl, rfl⟩, fun h => ⟨rfl, rfl⟩⟩, ?_, rfl, rfl, rfl, rfl, rfl,
            by simp, fun _ _ _ => hin, by simp⟩
          have hrn : rend = none := by rw [← h.rendEq]; exact hend
          exact ⟨⟨[], by simp [hs1, hrd], by simp [hs2], by simp⟩, h.clean, h.rendEq,
            fun _ => ⟨by simp [hrd], hrn, hre⟩, h.rerr, h.off, h.cons, h.failLo, h.failHi, h.failing,
            h.store, h.once⟩
        | some e =>
          have ht : c.token = .ok (none, { c with readErr := some (.readErr e) }) := by
            simp [Ctx.token, hl', ho, Ctx.read, hstop, hrd, hend]
          rw [ht]
          refine ⟨⟨fun _ _ => rfl, fun _ _ _ h => h, fun _ _ h => h, rfl, List.prefix_rfl, Nat.le_refl _,
            Nat.le_refl _, fun h => absurd hre h, fun h => ⟨h, rfl⟩⟩, ?_, rfl, rfl, rfl, rfl, rfl,
            by simp, fun _ _ _ => hin, by simp⟩
          have hrn : rend = some e := by rw [← h.rendEq]; exact hend
          refine ⟨⟨[], by simp [hs1, hrd], by simp [hs2], by simp⟩, h.clean, h.rendEq,
            fun he => ?_, ?_, h.off, h.cons, h.failLo, h.failHi, h.failing, h.store, h.once⟩
          · simp [hstop'.1] at he
          · intro e' he'
            simp at he'
            exact Or.inr ⟨e, he'.symm, hrn, hrd, hs1⟩
      | cons r rest =>
        by_cases hrep : r = replacementChar
        · have ht : c.token = .ok (none,
              { c with reader := rest, readOffset := c.readOffset + 1, readErr := some .invalidUnicode }) := by
            simp [Ctx.token, hl', ho, Ctx.read, hstop, hrd, hrep]
          rw [ht]
          have hmem : replacementChar ∈ input := by rw [hs1, hrd, hrep]; simp
          refine ⟨⟨fun _ _ => rfl, fun _ _ _ h => h, fun _ _ h => h, rfl, List.prefix_rfl, Nat.le_refl _,
            Nat.le_refl _, fun h => absurd hre h, fun h => ⟨h, rfl⟩⟩, ?_, rfl, rfl, rfl, rfl, rfl,
            by simp, fun _ _ h => absurd hmem h, by simp⟩
          refine ⟨⟨[replacementChar], by simp [hs1, hrd, hrep], by simp [hs2], by simp⟩, h.clean,
            h.rendEq, fun he => ?_, ?_, h.off, h.cons, h.failLo, h.failHi, h.failing, h.store, h.once⟩
          · simp [hstop'.1] at he
          · intro e' he'
            simp at he'
            exact Or.inl ⟨he'.symm, hmem⟩
        · have hlt : c.offset < (c.tokens ++ [r]).length := by simp; omega
          have hget : (c.tokens ++ [r])[c.readOffset]? = some r := by
            rw [hs2]; simp
          have ht : c.token = .ok (some r,
              { c with reader := rest, readOffset := c.readOffset + 1, tokens := c.tokens ++ [r] }) := by
            simp [Ctx.token, hl', ho, Ctx.read, hstop, hrd, hrep, Res.index, hget]
          rw [ht]
          refine ⟨⟨fun _ _ => rfl, fun _ _ _ h => h, fun _ _ h => h, rfl, List.prefix_append _ _,
            Nat.le_refl _, Nat.le_refl _, fun h => absurd hre h, fun h => ?_⟩, ?_, rfl, rfl, rfl, rfl,
            rfl, ?_, ?_, ?_⟩
          · simp [hstop'.1] at h
          · refine ⟨⟨[], by simp [hs1, hrd], by simp [hs2], by simp⟩, ?_, h.rendEq, fun he => ?_, ?_,
              ?_, ?_, h.failLo, ?_, h.failing, ?_, h.once⟩
            · simp only [List.mem_append, not_or]
              exact ⟨h.clean, by simp; exact fun h => hrep h.symm⟩
            · simp [hstop'.1] at he
            · intro e he; simp [hre] at he
            · have := h.off; simp; omega
            · have := h.cons; simp; omega
            · have := h.failHi; simp; omega
            · intro off id to ht
              have := h.store off id to ht
              refine ⟨this.1, ?_, this.2.2⟩
              simp; omega
          · intro t ht
            simp at ht; subst ht
            refine ⟨?_, hlt⟩
            rw [hs1, hrd, ho, hs2]; simp
          · simp
          · intro hh; exact absurd hh hl
  · cases hg : c.tokens[c.offset]? with
    | none =>
      have ht : c.token = .panic := by simp [Ctx.token, hl, ho, Res.index, hg]
      rw [ht]
      by_cases hb : bad = []
      · subst hb
        simp at hs2
        have := h.off
        simp at hg
        omega
      · show replacementChar ∈ input
        rw [hs1, (hs3 hb).1]; simp
    | some t =>
      have ht : c.token = .ok (some t, c) := by simp [Ctx.token, hl, ho, Res.index, hg]
      rw [ht]
      have hlt : c.offset < c.tokens.length := by
        by_cases hl : c.offset < c.tokens.length
        · exact hl
        · rw [List.getElem?_eq_none (by omega)] at hg; cases hg
      refine ⟨.refl c, h, rfl, rfl, rfl, rfl, rfl, ?_, by simp, fun hh => absurd hh hl⟩
      intro t' ht'
      simp at ht'; subst ht'
      exact ⟨h.getElem? hg, hlt⟩

end
end Treerack
