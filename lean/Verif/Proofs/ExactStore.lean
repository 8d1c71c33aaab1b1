import Verif.Proofs.Grow
import Verif.Proofs.Keyword

/-
The assumptions under which parsing computes the reference semantics: only choices are left recursive, and only directly, only
sequences are checked for keywords, and the keywords are texts.  And what the recorded results mean then.
-/

namespace Treerack
open Spec

/-- The positions where the items of a sequence are tried. -/
inductive Visits (f : Ptr → Nat → Match) : List (Ptr × Int × Int) → Nat → Nat → Ptr → Nat → Prop
  | here {n : Ptr} {mn mx : Int} {items : List (Ptr × Int × Int)} {k i : Nat} : Visits f ((n, mn, mx) :: items) k i n i
  | done {n q : Ptr} {mn mx : Int} {items : List (Ptr × Int × Int)} {k i l : Nat} :
      f n i = none → Visits f items 0 i q l → Visits f ((n, mn, mx) :: items) k i q l
  | empty {n q : Ptr} {mn mx : Int} {items : List (Ptr × Int × Int)} {k i l : Nat} {ns : List Node} :
      f n i = some (i, ns) → Visits f items 0 i q l → Visits f ((n, mn, mx) :: items) k i q l
  | last {n q : Ptr} {mn mx : Int} {items : List (Ptr × Int × Int)} {k i j l : Nat} {ns : List Node} :
      f n i = some (j, ns) → i < j → 0 < mx → ((k + 1 : Nat) : Int) = mx → Visits f items 0 j q l →
      Visits f ((n, mn, mx) :: items) k i q l
  | more {n q : Ptr} {mn mx : Int} {items : List (Ptr × Int × Int)} {k i j l : Nat} {ns : List Node} :
      f n i = some (j, ns) → i < j → ¬ (0 < mx ∧ ((k + 1 : Nat) : Int) = mx) →
      Visits f ((n, mn, mx) :: items) (k + 1) j q l → Visits f ((n, mn, mx) :: items) k i q l

/-- The definition of a parser. -/
abbrev PDef.gdef (d : PDef) : GDef Ptr := { name := d.name, alias := d.commit.alias, expr := d.kind.expr }

/-- The parts of a left recursive choice, and of one of its left recursive options. -/
structure Growing where
  d : PDef
  os : List Ptr
  fs : List Ptr
  bs : List Ptr
  ls : List Ptr
  s : Ptr
  e : PDef
  is : List Ptr
  rs : List (Int × Int)
  tail : List (Ptr × Int × Int)

/-- The left recursive options, in the order of the attempts. -/
abbrev Growing.ss (x : Growing) : List Ptr := x.ls ++ x.fs

/-- `x` is the left recursive choice `a`. -/
structure Growing.Of (x : Growing) (env : Env) (a : Ptr) : Prop where
  da : env.defs[a]? = some x.d
  ka : x.d.kind = .choice x.os
  ds : env.defs[x.s]? = some x.e
  ks : x.e.kind = .seq x.is x.rs false
  zip : x.is.zip x.rs = (a, 1, 1) :: x.tail
  growth : Growth env.grammar a x.os x.fs x.bs x.ls
  trial : x.s ∈ x.ss
  hard : ∃ y ∈ x.tail, 0 < y.2.1 ∧ ¬ Nullable env.grammar y.1
  nonEmpty : ¬ Nullable env.grammar a
  kw : x.e.commit.noKeyword = false

/-- The matches of a left recursive choice. -/
abbrev Growing.Chain (x : Growing) (env : Env) (input : List Rune) (i k j : Nat) (ns : List Node) : Prop :=
  RefChain env.grammar (env.blocked input) input x.d.gdef x.ss x.bs i k j ns

/-- A tail of the left recursive option. -/
abbrev Growing.Step (x : Growing) (env : Env) (input : List Rune) (i k j : Nat) (ns : List Node) (t : Nat) (ms : List Node) : Prop :=
  StepTo env.grammar (env.blocked input) input x.d.gdef x.ss x.bs i x.s x.tail k j ns t ms

section
variable (env : Env) (R : Ptr → Prop) (input : List Rune) (f : Ptr → Nat → Match)

/-- `p` is a left recursive option of a choice. -/
def IsTail (p : Ptr) : Prop := ∃ a, Recurs env.grammar a p

/-- An option of the choice `p`, not a left recursive one, matches until `t` or more. -/
def Below (p : Ptr) (off t : Nat) : Prop :=
  ∃ d os o, env.defs[p]? = some d ∧ d.kind = .choice os ∧ o ∈ os ∧ ¬ Recurs env.grammar p o ∧
    ∃ t' ns, f o off = some (t', ns) ∧ t ≤ t'

/-- The match of `q` at `j`, if there is one, is recorded. -/
def Recorded (r : Results) (q : Ptr) (j : Nat) : Prop :=
  ∀ e, env.defs[q]? = some e → e.kind.isChar = false → ∀ t ns, f q j = some (t, ns) → r.Has j e.id t

/-- The recorded results are those of `f`. -/
structure Good (r : Results) : Prop where
  seqHas : ∀ {p d is rs ac off to}, R p → ¬ IsTail env p → env.defs[p]? = some d → d.kind = .seq is rs ac →
    r.Has off d.id to → ∃ ns, f p off = some (to, ns)
  tailHas : ∀ {a x off to}, R a → Growing.Of x env a → r.Has off x.e.id to →
    ∃ k j ns ms, x.Step env input off k j ns to ms ∧ r.Has off x.d.id j ∧
      ∀ q l, Visits f x.tail 0 j q l → Recorded env f r q l
  chHas : ∀ {p d os off to}, R p → env.defs[p]? = some d → d.kind = .choice os → r.Has off d.id to →
    Below env f p off to ∨ ∃ x, Growing.Of x env p ∧ r.Has off x.e.id to
  chDone : ∀ {p d os off to}, R p → env.defs[p]? = some d → d.kind = .choice os → r.pcount off d.id = 0 →
    r.Has off d.id to → Recorded env f r p off
  noM : ∀ {p d off}, R p → env.defs[p]? = some d → d.kind.isChar = false → r.NoM off d.id → f p off = none
  tailNoM : ∀ {a x off}, R a → Growing.Of x env a → ¬ r.NoM off x.e.id
  chKids : ∀ {p d os off to}, R p → env.defs[p]? = some d → d.kind = .choice os → r.pcount off d.id = 0 →
    r.Has off d.id to → ∀ o ∈ os, Recorded env f r o off
  seqKids : ∀ {p d is rs off to}, R p → ¬ IsTail env p → env.defs[p]? = some d → d.kind = .seq is rs false → r.Has off d.id to →
    ∀ q j, Visits f (is.zip rs) 0 off q j → Recorded env f r q j

/-- `q` is `p` or is tried by `p` at the same position. -/
def LeftReach (p q : Ptr) : Prop :=
  p = q ∨ LeftCalls env.grammar p q ∨ ∃ a, Recurs env.grammar a q ∧ (p = a ∨ LeftCalls env.grammar p a)

/-- What is pending does not concern `p` at the position. -/
structure Pend (p : Ptr) (off : Nat) (r : Results) : Prop where
  later : ∀ o, off < o → ∀ id, r.pcount o id = 0
  here : ∀ {q e}, R q → env.defs[q]? = some e → e.kind.isChar = false → LeftReach env p q → r.pcount off e.id = 0

/-- The assumptions. -/
structure Ctxt (root : Ptr) : Prop where
  linked : Linked env root
  isReach : R = Reach env root
  valid : replacementChar ∉ input
  ref : ∀ {p}, R p → ∀ i, Ref env.grammar (env.blocked input) input p i (f p i)
  free : ∀ {p}, R p → ¬ LeftCalls env.grammar p p
  grows : ∀ {p d os}, R p → env.defs[p]? = some d → d.kind = .choice os → (∃ s, Recurs env.grammar p s) → Grows env.grammar p os
  sole : ∀ {a s m d}, Recurs env.grammar a s → R m → env.defs[m]? = some d → s ∈ d.kind.children → m = a
  tailKw : ∀ {a s d}, Recurs env.grammar a s → R s → env.defs[s]? = some d → d.commit.noKeyword = false
  noKw : ∀ {p d}, R p → env.defs[p]? = some d → d.commit.noKeyword = true → env.keywords = [] ∨
    ((∃ is rs ac, d.kind = .seq is rs ac) ∧ ∀ k ∈ env.keywords, TextParser env k)

/-- What a parse call of `p` does. -/
structure Exact (p : Ptr) (c c' : Ctx) : Prop where
  good : Good env R input f c'.res
  yes : c'.matchLast = true → ∃ ns, f p c.offset = some (c'.offset, ns)
  no : c'.matchLast = false → f p c.offset = none
  recd : Recorded env f c'.res p c.offset

/-- The meaning of nested calls. -/
def RecE (rec : Ptr → Ctx → Res Ctx) : Prop :=
  ∀ p c, R p → ¬ IsTail env p → Inv env input none (fun _ _ _ => True) c → Good env R input f c.res → Pend env R p c.offset c.res →
    c.offsetLimit = -1 →
    (rec p c).Spec True True fun c' =>
      Post env input none (fun _ _ _ => True) (fun _ _ _ => True) p c c' ∧ Exact env R input f p c c'

/-- The meaning of the calls of a left recursive choice inside its left recursive option. -/
def RecA (rec : Ptr → Ctx → Res Ctx) : Prop :=
  ∀ p d os c, R p → env.defs[p]? = some d → d.kind = .choice os → Inv env input none (fun _ _ _ => True) c →
    c.res.pcount c.offset d.id ≠ 0 →
    (rec p c).Spec True True fun c' =>
      Post env input none (fun _ _ _ => True) (fun _ _ _ => True) p c c' ∧ c'.res = c.res ∧
        ((∀ t, ¬ c.res.Has c.offset d.id t) → c'.matchLast = false) ∧
        ∀ t, c.res.Has c.offset d.id t → (∀ t', c.res.Has c.offset d.id t' → t' ≤ t) → ¬ c.res.NoM c.offset d.id →
          c'.matchLast = true ∧ c'.offset = t

/-- What a call of a left recursive option of the choice `a` does: with no record of the choice it fails; after the
longest recorded match it either finds a tail, or there is none. -/
structure ExactT (x : Growing) (c c' : Ctx) : Prop where
  good : Good env R input f c'.res
  no : (∀ t, ¬ c.res.Has c.offset x.d.id t) → c'.matchLast = false ∧ ∀ off id t, c'.res.Has off id t → c.res.Has off id t
  next : ∀ l, c.res.Has c.offset x.d.id l → (∀ t, c.res.Has c.offset x.d.id t → t ≤ l) →
    (c'.matchLast = true ∧ l < c'.offset ∧
      (∃ ms, RefItems env.grammar (env.blocked input) input x.tail 0 l (some (c'.offset, ms))) ∧
      c'.res.Has c.offset x.e.id c'.offset) ∨
    (RefItems env.grammar (env.blocked input) input x.tail 0 l none ∧ (c'.matchLast = true → c'.offset ≤ l))

/-- The meaning of the calls of a left recursive option. -/
def RecT (rec : Ptr → Ctx → Res Ctx) : Prop :=
  ∀ a x c, R a → Growing.Of x env a → Inv env input none (fun _ _ _ => True) c → Good env R input f c.res →
    (∀ o, c.offset < o → ∀ id, c.res.pcount o id = 0) → c.res.pcount c.offset x.d.id ≠ 0 →
    c.res.pcount c.offset x.e.id = 0 → c.offsetLimit = -1 →
    ((∀ t, ¬ c.res.Has c.offset x.d.id t) ∨ ∃ k l ns, x.Chain env input c.offset k l ns ∧ x.ss[k % x.ss.length]? = some x.s ∧
      c.res.Has c.offset x.d.id l ∧ (∀ t, c.res.Has c.offset x.d.id t → t ≤ l) ∧ ∀ t, c.res.Has c.offset x.e.id t → t ≤ l) →
    (rec x.s c).Spec True True fun c' =>
      Post env input none (fun _ _ _ => True) (fun _ _ _ => True) x.s c c' ∧ ExactT env R input f x c c'

/-- The meaning of the calls that are made by the keyword check. -/
def RecK (rec : Ptr → Ctx → Res Ctx) : Prop :=
  ∀ k d c (lim : Nat), k ∈ env.keywords → TextParser env k → env.defs[k]? = some d →
    Inv env input none (fun _ _ _ => True) c → c.offset ≤ lim → c.offsetLimit = (lim : Int) →
    (rec k c).Spec True True fun c' =>
      Post env input none (fun _ _ _ => True) (fun _ _ _ => True) k c c' ∧ TextOut env input k d lim c c'

end

section
variable {env : Env} {R : Ptr → Prop} {input : List Rune} {f : Ptr → Nat → Match} {root : Ptr}

theorem Recorded.mono {r r' : Results} {q : Ptr} {j : Nat} (h : Recorded env f r q j)
    (hm : ∀ off id to, r.Has off id to → r'.Has off id to) : Recorded env f r' q j :=
  fun e he hk t ns hf => hm _ _ _ (h e he hk t ns hf)

theorem Ctxt.closed (K : Ctxt env R input f root) : Closed env R := K.isReach ▸ K.linked.closed

theorem Ctxt.ids (K : Ctxt env R input f root) {p q : Ptr} {d e : PDef} (hp : R p) (hq : R q) (hd : env.defs[p]? = some d)
    (he : env.defs[q]? = some e) (h1 : d.kind.isChar = false) (h2 : e.kind.isChar = false) (h : d.id = e.id) : p = q := by
  have := K.isReach
  subst this
  exact K.linked.ids hp hq hd he h1 h2 h

theorem Ctxt.gens (K : Ctxt env R input f root) {p : Ptr} {d : PDef} {g : Nat} (hp : R p) (hd : env.defs[p]? = some d)
    (hk : d.kind.isChar = false) (hg : g ∈ d.gens) :
    ∃ q e, R q ∧ env.defs[q]? = some e ∧ e.id = g ∧ Generalizes env q p := by
  have := K.isReach
  subst this
  exact K.linked.gens hp hd hk hg

/-- The keyword check of a choice does nothing. -/
theorem Ctxt.keywords (K : Ctxt env R input f root) {p : Ptr} {d : PDef} {os : List Ptr} (hR : R p)
    (hd : env.defs[p]? = some d) (hk : d.kind = .choice os) (rec : Ptr → Ctx → Res Ctx) (c : Ctx) (i j : Nat) :
    (if d.commit.noKeyword = true then isKeyword rec env.keywords c i j else .ok (false, c)) = .ok (false, c) := by
  split
  · rename_i h
    rcases K.noKw hR hd h with h | ⟨⟨is, rs, ac, h⟩, -⟩
    · rw [h]
      simp [isKeyword, isKeywordLoop]
    · rw [hk] at h; cases h
  · rfl

theorem Ctxt.char (K : Ctxt env R input f root) {p : Ptr} {d : PDef} {neg : Bool} {cs : List Rune} {rs : List (Rune × Rune)}
    (hR : R p) (hd : env.defs[p]? = some d) (hk : d.kind = .char neg cs rs) (i : Nat) :
    (∃ t, input[i]? = some t ∧ matchChar cs rs neg t = true ∧ f p i = some (i + 1, [])) ∨
    ((∀ t, input[i]? = some t → matchChar cs rs neg t = false) ∧ f p i = none) := by
  have h := K.ref hR i
  have hg := env.grammar_some hd
  generalize f p i = m at h
  cases h with
  | char h1 h2 h3 h4 =>
    rw [hg] at h1; cases h1
    simp only [hk, PKind.expr] at h2
    cases h2
    exact Or.inl ⟨_, h3, (matchChar_iff ..).2 h4, rfl⟩
  | noChar h1 h2 h3 =>
    rw [hg] at h1; cases h1
    simp only [hk, PKind.expr] at h2
    cases h2
    refine Or.inr ⟨fun t ht => ?_, rfl⟩
    have := h3 t ht
    rw [← matchChar_iff] at this
    simpa using this
  | choice h1 h2 h3 => rw [hg] at h1; cases h1; simp [hk, PKind.expr] at h2
  | noBase h1 h2 h3 => rw [hg] at h1; cases h1; simp [hk, PKind.expr] at h2
  | grow h1 h2 h3 => rw [hg] at h1; cases h1; simp [hk, PKind.expr] at h2
  | seq h1 h2 h3 => rw [hg] at h1; cases h1; simp [hk, PKind.expr] at h2
  | blocked h1 h2 h3 => rw [hg] at h1; cases h1; simp [hk, PKind.expr] at h2

theorem Ctxt.choice (K : Ctxt env R input f root) {p : Ptr} {d : PDef} {os : List Ptr}
    (hR : R p) (hd : env.defs[p]? = some d) (hk : d.kind = .choice os) (hn : ∀ o, ¬ Recurs env.grammar p o) (i : Nat) :
    ∃ m, RefOptions env.grammar (env.blocked input) input os i m ∧
      f p i = m.map fun x => (x.1, GDef.wrap (N := Ptr) ⟨d.name, d.commit.alias, d.kind.expr⟩ input i x.1 x.2) := by
  have h := K.ref hR i
  have hg := env.grammar_some hd
  generalize f p i = m at h
  cases h with
  | char h1 h2 h3 h4 => rw [hg] at h1; cases h1; simp [hk, PKind.expr] at h2
  | noChar h1 h2 h3 => rw [hg] at h1; cases h1; simp [hk, PKind.expr] at h2
  | choice h1 h2 _ h3 =>
    rw [hg] at h1; cases h1
    simp only [hk, PKind.expr] at h2
    cases h2
    exact ⟨_, h3, rfl⟩
  | noBase h1 h2 h3 => exact absurd h3 (not_exists.2 hn)
  | grow h1 h2 h3 => exact absurd h3 (not_exists.2 hn)
  | seq h1 h2 h3 => rw [hg] at h1; cases h1; simp [hk, PKind.expr] at h2
  | blocked h1 h2 h3 => rw [hg] at h1; cases h1; simp [hk, PKind.expr] at h2

theorem Ctxt.seq (K : Ctxt env R input f root) {p : Ptr} {d : PDef} {is : List Ptr} {rs : List (Int × Int)} {ac : Bool}
    (hR : R p) (hd : env.defs[p]? = some d) (hk : d.kind = .seq is rs ac) (i : Nat) :
    ∃ m, RefItems env.grammar (env.blocked input) input (is.zip rs) 0 i m ∧
      (((∀ x, m = some x → ¬ env.blocked input p i x.1) ∧
          f p i = m.map fun x => (x.1, GDef.wrap (N := Ptr) ⟨d.name, d.commit.alias, d.kind.expr⟩ input i x.1 x.2)) ∨
        ∃ j ns, m = some (j, ns) ∧ env.blocked input p i j ∧ f p i = none) := by
  have h := K.ref hR i
  have hg := env.grammar_some hd
  generalize f p i = m at h
  cases h with
  | char h1 h2 h3 h4 => rw [hg] at h1; cases h1; simp [hk, PKind.expr] at h2
  | noChar h1 h2 h3 => rw [hg] at h1; cases h1; simp [hk, PKind.expr] at h2
  | choice h1 h2 h3 => rw [hg] at h1; cases h1; simp [hk, PKind.expr] at h2
  | noBase h1 h2 h3 => rw [hg] at h1; cases h1; simp [hk, PKind.expr] at h2
  | grow h1 h2 h3 => rw [hg] at h1; cases h1; simp [hk, PKind.expr] at h2
  | seq h1 h2 h3 h4 =>
    rw [hg] at h1; cases h1
    simp only [hk, PKind.expr] at h2
    cases h2
    exact ⟨_, h3, Or.inl ⟨h4, rfl⟩⟩
  | blocked h1 h2 h3 h4 =>
    rw [hg] at h1; cases h1
    simp only [hk, PKind.expr] at h2
    cases h2
    exact ⟨_, h3, Or.inr ⟨_, _, rfl, h4, rfl⟩⟩

theorem Ctxt.bounded (K : Ctxt env R input f root) {p : Ptr} (hR : R p) {i j : Nat} {ns : List Node} (h : f p i = some (j, ns)) :
    i ≤ j := ((K.ref hR i).bounded _ h).1

/-- The results of the options. -/
theorem RefOptions.of_fun {G : Grammar Ptr} {B : Ptr → Nat → Nat → Prop} {os : List Ptr} {i : Nat} {m : Match} (h : RefOptions G B input os i m)
    (hf : ∀ o ∈ os, Ref G B input o i (f o i)) : m = (os.map fun o => f o i).foldr better none := by
  induction os generalizing m with
  | nil => cases h; rfl
  | cons o os ih =>
    cases h with
    | cons h1 h2 =>
      simp only [List.map_cons, List.foldr_cons]
      rw [← ih h2 fun x hx => hf x (by simp [hx]), h1.unique (hf o (by simp))]

/-- The end of the best match. -/
theorem better_end {l : List Match} :
    match l.foldr better none with
    | none => ∀ m ∈ l, m = none
    | some x => some x ∈ l ∧ ∀ y, some y ∈ l → y.1 ≤ x.1 := by
  induction l with
  | nil => simp
  | cons a l ih =>
    simp only [List.foldr_cons]
    generalize l.foldr better none = b at ih
    cases a with
    | none =>
      cases b with
      | none => simpa [better] using ih
      | some x =>
        simp only [better] at ih ⊢
        refine ⟨by simp [ih.1], fun y hy => ?_⟩
        simp only [List.mem_cons, reduceCtorEq, false_or] at hy
        exact ih.2 y hy
    | some a =>
      cases b with
      | none =>
        simp only [better] at ih ⊢
        refine ⟨by simp, fun y hy => ?_⟩
        simp only [List.mem_cons, Option.some.injEq] at hy
        rcases hy with rfl | hy
        · exact Nat.le_refl _
        · cases ih _ hy
      | some x =>
        simp only [better] at ih ⊢
        split
        · rename_i y hy
          split at hy
          · rename_i hlt
            cases hy
          · cases hy
        · rename_i y hy
          split at hy
          · rename_i hlt
            cases hy
            refine ⟨by simp [ih.1], fun z hz => ?_⟩
            simp only [List.mem_cons, Option.some.injEq] at hz
            rcases hz with rfl | hz
            · omega
            · exact ih.2 z hz
          · rename_i hlt
            cases hy
            refine ⟨by simp, fun z hz => ?_⟩
            simp only [List.mem_cons, Option.some.injEq] at hz
            rcases hz with rfl | hz
            · exact Nat.le_refl _
            · have := ih.2 z hz; omega

/-! ### Left recursive choices -/

theorem Ctxt.growing (K : Ctxt env R input f root) {p o : Ptr} {d : PDef} {os : List Ptr}
    (hR : R p) (hd : env.defs[p]? = some d) (hk : d.kind = .choice os) (hr : Recurs env.grammar p o) :
    ∃ x : Growing, x.Of env p ∧ x.d = d ∧ x.os = os ∧ x.s = o := by
  obtain ⟨⟨fs, bs, ls, hg⟩, hh, hn⟩ := K.grows hR hd hk ⟨o, hr⟩
  obtain ⟨d', os', e', tail, h1, h2, hmem, hs, hi⟩ := id hr
  rw [env.grammar_some hd] at h1; cases h1
  simp only [hk, PKind.expr, Expr.choice.injEq] at h2
  subst h2
  have hRs : R o := K.closed.child hR hd (by rw [hk]; exact hmem)
  have hh := hh o e' tail hr hs hi
  have hso : o ∈ ls ++ fs := by
    rcases hg.mem.1 hmem with h | h
    · exact h
    · exact absurd hr (hg.bases _ h)
  obtain ⟨e, hde⟩ := K.closed.def_ hRs
  rw [env.grammar_some hde] at hs
  obtain rfl := Option.some.inj hs
  cases hke : e.kind with
  | char => simp [hke, PKind.expr] at hi
  | choice => simp [hke, PKind.expr] at hi
  | seq is rs ac =>
    simp only [hke, PKind.expr, Expr.seq.injEq] at hi
    have hac : ac = false := by
      cases ac with
      | false => rfl
      | true =>
        have : p ∈ is := by
          have : (p, (1, 1)) ∈ is.zip rs := by rw [hi]; simp
          exact (List.of_mem_zip this).1
        obtain ⟨d', h1, h2⟩ := K.closed.chars hRs hde hke this
        rw [hd] at h1; cases h1
        simp [hk, PKind.isChar] at h2
    subst hac
    exact ⟨⟨d, os, fs, bs, ls, o, e, is, rs, tail⟩, ⟨hd, hk, hde, hke, hi, hg, hso, hh, hn, K.tailKw hr hRs hde⟩, rfl, rfl, rfl⟩

section
variable {x : Growing} {a : Ptr}

theorem Growing.Of.gd (h : x.Of env a) : env.grammar a = some x.d.gdef := env.grammar_some h.da
theorem Growing.Of.ge (h : x.Of env a) : x.d.gdef.expr = .choice x.os := by simp [h.ka, PKind.expr]
theorem Growing.Of.recurs (h : x.Of env a) : Recurs env.grammar a x.s := h.growth.trials h.trial
theorem Growing.Of.gs (h : x.Of env a) : env.grammar x.s = some x.e.gdef := env.grammar_some h.ds
theorem Growing.Of.gi (h : x.Of env a) : x.e.gdef.expr = .seq ((a, 1, 1) :: x.tail) := by simp [h.ks, PKind.expr, h.zip]

theorem Growing.Of.mem (h : x.Of env a) {o : Ptr} : o ∈ x.os ↔ o ∈ x.ss ∨ o ∈ x.bs := h.growth.mem

/-- The parts of the choice are the same for all its left recursive options. -/
theorem Growing.Of.common {y : Growing} (h : x.Of env a) (h' : y.Of env a) :
    y.d = x.d ∧ y.os = x.os ∧ y.fs = x.fs ∧ y.bs = x.bs ∧ y.ls = x.ls := by
  have h1 := h.da
  rw [h'.da] at h1
  have h2 := Option.some.inj h1
  have h3 := h.ka
  rw [← h2, h'.ka] at h3
  have h4 := PKind.choice.inj h3
  have hg := h'.growth
  rw [h4] at hg
  obtain ⟨h5, h6, h7⟩ := hg.unique h.growth
  exact ⟨h2, h4, h5, h6, h7⟩

theorem Growing.Of.unique {y : Growing} (h : x.Of env a) (h' : y.Of env a) (hs : x.s = y.s) : x = y := by
  obtain ⟨h1, h2, h3, h4, h5⟩ := h.common h'
  have h9 := h.ds
  rw [hs, h'.ds] at h9
  have h10 := Option.some.inj h9
  have h11 := h.ks
  rw [← h10, h'.ks] at h11
  obtain ⟨h12, h13, -⟩ := PKind.seq.inj h11
  have h14 := h.zip
  rw [← h12, ← h13, h'.zip] at h14
  have h15 := (List.cons.inj h14).2
  cases x
  cases y
  simp only at *
  subst h1 h2 h3 h4 h5 hs h10 h12 h13 h15
  rfl

theorem Growing.Of.chain {y : Growing} (h : x.Of env a) (h' : y.Of env a) {i k j : Nat} {ns : List Node}
    (hc : y.Chain env input i k j ns) : x.Chain env input i k j ns := by
  obtain ⟨h1, h2, h3, h4, h5⟩ := h.common h'
  unfold Growing.Chain at hc ⊢
  rw [Growing.ss, h1, h3, h4, h5] at hc
  exact hc

theorem Growing.Of.steps {y : Growing} (h : x.Of env a) (h' : y.Of env a) {i k j t : Nat} {ns ms : List Node}
    (hc : y.Step env input i k j ns t ms) :
    StepTo env.grammar (env.blocked input) input x.d.gdef x.ss x.bs i y.s y.tail k j ns t ms := by
  obtain ⟨h1, h2, h3, h4, h5⟩ := h.common h'
  unfold Growing.Step at hc
  rw [Growing.ss, h1, h3, h4, h5] at hc
  exact hc

/-- The chain behind a tail. -/
theorem Growing.Of.next (h : x.Of env a) {i k j t : Nat} {ns ms : List Node} (hc : x.Step env input i k j ns t ms) :
    x.Chain env input i (k + 1) t (x.d.gdef.wrap input i t (x.e.gdef.wrap input i t (ns ++ ms))) := hc.chain h.gs h.gi

/-- The same choice, with another one of its left recursive options. -/
theorem Growing.Of.other (h : x.Of env a) (K : Ctxt env R input f root) (hR : R a) {o : Ptr} (ho : o ∈ x.ss) :
    ∃ y : Growing, y.Of env a ∧ y.s = o := by
  obtain ⟨y, hy, -, -, hs⟩ := K.growing hR h.da h.ka (h.growth.trials ho)
  exact ⟨y, hy, hs⟩

theorem Growing.Of.reach (h : x.Of env a) (K : Ctxt env R input f root) (hR : R a) : R x.s :=
  K.closed.child hR h.da (by rw [h.ka]; exact h.mem.2 (Or.inl h.trial))

theorem Growing.Of.base (h : x.Of env a) (K : Ctxt env R input f root) (hR : R a) {o : Ptr} (ho : o ∈ x.bs) : R o :=
  K.closed.child hR h.da (by rw [h.ka]; exact h.mem.2 (Or.inr ho))

theorem Growing.Of.option_none (h : x.Of env a) (K : Ctxt env R input f root) (hR : R a) (i : Nat) : f x.s i = none :=
  h.growth.option_none h.gd h.ge h.nonEmpty h.trial (K.ref (h.reach K hR) i)

theorem Growing.Of.ids (h : x.Of env a) (K : Ctxt env R input f root) (hR : R a) : x.d.id ≠ x.e.id := by
  intro hid
  have := K.ids hR (h.reach K hR) h.da h.ds (by rw [h.ka]; rfl) (by rw [h.ks]; rfl) hid
  have h1 := h.da
  rw [this, h.ds] at h1
  have h2 := h.ka
  rw [← Option.some.inj h1, h.ks] at h2
  cases h2

/-- The matches are not longer than the match of the choice. -/
theorem Growing.Of.le (h : x.Of env a) (K : Ctxt env R input f root) (hR : R a) {i k j : Nat} {ns : List Node}
    (hc : x.Chain env input i k j ns) : ∃ t ns', f a i = some (t, ns') ∧ j ≤ t := by
  obtain ⟨y, h1, h2⟩ := hc.ref h.gd h.ge ⟨_, h.recurs⟩ h.growth (K.ref hR i)
  exact ⟨y.1, y.2, h1, h2⟩

theorem Growing.Of.lt (h : x.Of env a) {i k j : Nat} {ns : List Node} (hc : x.Chain env input i k j ns) : i < j := by
  obtain ⟨j', ns', hb⟩ := hc.hasBase
  have h1 := hc.base_le hb
  have h2 := hb.bounded _ rfl
  have h3 : i ≠ j' := by
    rintro rfl
    obtain ⟨o, ho, hn⟩ := hb.nullable _ rfl
    exact h.nonEmpty (.choice h.gd h.ge (h.mem.2 (Or.inr ho)) hn)
  have := h2.1
  omega

/-- A tail is not empty. -/
theorem Growing.Of.tail (h : x.Of env a) {j t : Nat} {ms : List Node}
    (hr : RefItems env.grammar (env.blocked input) input x.tail 0 j (some (t, ms))) : j < t := by
  have h1 := (hr.bounded _ rfl).1
  have h2 : j ≠ t := by
    rintro rfl
    obtain ⟨y, hy, h3, h4⟩ := h.hard
    exact h4 (hr.nullable rfl _ rfl y hy h3)
  simp only at h1
  omega

end

/-- Left recursive options are only tried by their choice. -/
theorem Ctxt.item_not_tail (K : Ctxt env R input f root) {p q : Ptr} {d : PDef} {is : List Ptr} {rs : List (Int × Int)} {ac : Bool}
    (hR : R p) (hd : env.defs[p]? = some d) (hk : d.kind = .seq is rs ac) (hq : q ∈ is) : ¬ IsTail env q := by
  rintro ⟨a, hr⟩
  have := K.sole hr hR hd (by rw [hk]; exact hq)
  subst this
  obtain ⟨d', os, _, _, h1, h2, -⟩ := hr
  rw [env.grammar_some hd] at h1; cases h1
  simp [hk, PKind.expr] at h2

theorem Ctxt.option_not_tail (K : Ctxt env R input f root) {p o : Ptr} {d : PDef} {os : List Ptr}
    (hR : R p) (hd : env.defs[p]? = some d) (hk : d.kind = .choice os) (ho : o ∈ os) (hn : ¬ Recurs env.grammar p o) :
    ¬ IsTail env o := by
  rintro ⟨a, hr⟩
  have := K.sole hr hR hd (by rw [hk]; exact ho)
  subst this
  exact hn hr

theorem choice_not_tail {p : Ptr} {d : PDef} {os : List Ptr} (hd : env.defs[p]? = some d) (hk : d.kind = .choice os) :
    ¬ IsTail env p := by
  rintro ⟨a, _, _, _, _, -, -, -, h1, h2⟩
  rw [env.grammar_some hd] at h1; cases h1
  simp [hk, PKind.expr] at h2

theorem char_not_tail {p : Ptr} {d : PDef} {neg : Bool} {cs : List Rune} {rs : List (Rune × Rune)}
    (hd : env.defs[p]? = some d) (hk : d.kind = .char neg cs rs) : ¬ IsTail env p := by
  rintro ⟨a, _, _, _, _, -, -, -, h1, h2⟩
  rw [env.grammar_some hd] at h1; cases h1
  simp [hk, PKind.expr] at h2

theorem Ctxt.tail (K : Ctxt env R input f root) {p : Ptr} (hR : R p) (h : IsTail env p) :
    ∃ a, ∃ x : Growing, R a ∧ x.Of env a ∧ x.s = p := by
  obtain ⟨a, hr⟩ := h
  have hRa : R a := by
    obtain ⟨d, hd⟩ := K.closed.def_ hR
    obtain ⟨_, _, _, _, -, -, -, h1, h2⟩ := hr
    rw [env.grammar_some hd] at h1; cases h1
    cases hk : d.kind with
    | char => simp [hk, PKind.expr] at h2
    | choice => simp [hk, PKind.expr] at h2
    | seq is rs ac =>
      simp only [hk, PKind.expr, Expr.seq.injEq] at h2
      refine K.closed.child hR hd ?_
      rw [hk]
      have : (a, (1, 1)) ∈ is.zip rs := by rw [h2]; simp
      exact (List.of_mem_zip this).1
  obtain ⟨d, hd⟩ := K.closed.def_ hRa
  have hk : ∃ os, d.kind = .choice os := by
    obtain ⟨d', os, _, _, h1, h2, -⟩ := hr
    rw [env.grammar_some hd] at h1; cases h1
    cases hk : d.kind with
    | char => simp [hk, PKind.expr] at h2
    | choice => exact ⟨_, rfl⟩
    | seq => simp [hk, PKind.expr] at h2
  obtain ⟨os, hk⟩ := hk
  obtain ⟨x, h1, -, -, h2⟩ := K.growing hRa hd hk hr
  exact ⟨a, x, hRa, h1, h2⟩

/-- A left recursive option belongs to one choice. -/
theorem Recurs.unique {G : Grammar Ptr} {a b s : Ptr} (h : Recurs G a s) (h' : Recurs G b s) : a = b := by
  obtain ⟨_, _, _, _, -, -, -, h1, h2⟩ := h
  obtain ⟨_, _, _, _, -, -, -, h3, h4⟩ := h'
  rw [h1] at h3; cases h3
  rw [h2] at h4; cases h4
  rfl

theorem Ctxt.keyword_not_tail (K : Ctxt env R input f root) {k : Ptr} (hkw : k ∈ env.keywords) (ht : TextParser env k) :
    ¬ IsTail env k := by
  intro h
  obtain ⟨a, x, hR, h1, rfl⟩ := K.tail (K.closed.keyword hkw) h
  obtain ⟨d, is, rs, h2, h3, -⟩ := ht
  rw [h1.ds] at h2; cases h2
  rw [h1.ks] at h3; cases h3

/-- What a choice matches, in terms of its options. -/
theorem Ctxt.choice_end (K : Ctxt env R input f root) {p : Ptr} {d : PDef} {os : List Ptr}
    (hR : R p) (hd : env.defs[p]? = some d) (hk : d.kind = .choice os) (hn : ∀ o, ¬ Recurs env.grammar p o) (i : Nat) :
    match f p i with
    | none => ∀ o ∈ os, f o i = none
    | some x => (∃ o ∈ os, ∃ ns, f o i = some (x.1, ns)) ∧ ∀ o ∈ os, ∀ y, f o i = some y → y.1 ≤ x.1 := by
  obtain ⟨m, h1, h2⟩ := K.choice hR hd hk hn i
  have h3 := RefOptions.of_fun h1 fun o ho => K.ref (K.closed.child hR hd (by rw [hk]; exact ho)) i
  have h4 := better_end (l := os.map fun o => f o i)
  rw [← h3] at h4
  rw [h2]
  cases m with
  | none =>
    simp only [Option.map_none] at h4 ⊢
    exact fun o ho => h4 _ (List.mem_map.2 ⟨o, ho, rfl⟩)
  | some x =>
    simp only [Option.map_some] at h4 ⊢
    obtain ⟨o, ho, h5⟩ := List.mem_map.1 h4.1
    refine ⟨⟨o, ho, x.2, h5⟩, fun o ho y hy => h4.2 y ?_⟩
    rw [← hy]
    exact List.mem_map.2 ⟨o, ho, rfl⟩

/-- The longest of the options that are not left recursive. -/
theorem Growing.Of.bases {x : Growing} {a : Ptr} (h : x.Of env a) (K : Ctxt env R input f root) (hR : R a) {i : Nat} {m : Match}
    (hm : RefOptions env.grammar (env.blocked input) input x.bs i m) :
    match m with
    | none => ∀ o ∈ x.bs, f o i = none
    | some y => (∃ o ∈ x.bs, ∃ ns, f o i = some (y.1, ns)) ∧ ∀ o ∈ x.bs, ∀ z, f o i = some z → z.1 ≤ y.1 := by
  have h3 := RefOptions.of_fun hm fun o ho => K.ref (h.base K hR ho) i
  have h4 := better_end (l := x.bs.map fun o => f o i)
  rw [← h3] at h4
  cases m with
  | none =>
    simp only at h4 ⊢
    exact fun o ho => h4 _ (List.mem_map.2 ⟨o, ho, rfl⟩)
  | some y =>
    simp only at h4 ⊢
    obtain ⟨o, ho, h5⟩ := List.mem_map.1 h4.1
    refine ⟨⟨o, ho, y.2, h5⟩, fun o ho z hz => h4.2 z ?_⟩
    rw [← hz]
    exact List.mem_map.2 ⟨o, ho, rfl⟩

theorem Growing.Of.bases_total {x : Growing} {a : Ptr} (h : x.Of env a) (K : Ctxt env R input f root) (hR : R a) (i : Nat) :
    ∃ m, RefOptions env.grammar (env.blocked input) input x.bs i m :=
  RefOptions.total fun _ ho => ⟨_, K.ref (h.base K hR ho) i⟩

/-- A choice matches at least as much as its options. -/
theorem Ctxt.choice_le (K : Ctxt env R input f root) {p o : Ptr} {d : PDef} {os : List Ptr}
    (hR : R p) (hd : env.defs[p]? = some d) (hk : d.kind = .choice os) (ho : o ∈ os) {i j : Nat} {ns : List Node}
    (hf : f o i = some (j, ns)) : ∃ t ns, f p i = some (t, ns) ∧ j ≤ t := by
  by_cases hn : ∀ o, ¬ Recurs env.grammar p o
  · have := K.choice_end hR hd hk hn i
    split at this
    · rw [this _ ho] at hf; cases hf
    · rename_i x hx
      exact ⟨x.1, x.2, hx, this.2 _ ho _ hf⟩
  · simp only [Classical.not_forall, Classical.not_not] at hn
    obtain ⟨s, hs⟩ := hn
    obtain ⟨x, hx, rfl, rfl, rfl⟩ := K.growing hR hd hk hs
    rcases hx.mem.1 ho with hb | hb
    · obtain ⟨y, hy, rfl⟩ := hx.other K hR hb
      rw [hy.option_none K hR] at hf; cases hf
    · obtain ⟨m, hm⟩ := hx.bases_total K hR i
      have h1 := hx.bases K hR hm
      cases m with
      | none => rw [h1 o hb] at hf; cases hf
      | some y =>
        obtain ⟨t, ns', h2, h3⟩ := hx.le K hR (.base hm)
        have := h1.2 o hb _ hf
        simp only at this
        exact ⟨t, ns', h2, by omega⟩

theorem Below.le {p : Ptr} {i j : Nat} (h : Below env f p i j) (K : Ctxt env R input f root) (hR : R p) :
    ∃ t ns, f p i = some (t, ns) ∧ j ≤ t := by
  obtain ⟨d, os, o, hd, hk, ho, -, t', ns, hf, hle⟩ := h
  obtain ⟨t, ns', h1, h2⟩ := K.choice_le hR hd hk ho hf
  exact ⟨t, ns', h1, by omega⟩

/-- What a choice matches without its left recursive option. -/
theorem Below.base {x : Growing} {a : Ptr} {i j : Nat} (h : Below env f a i j) (hx : x.Of env a) (K : Ctxt env R input f root)
    (hR : R a) : ∃ t ns, RefOptions env.grammar (env.blocked input) input x.bs i (some (t, ns)) ∧ j ≤ t := by
  obtain ⟨d, os, o, hd, hk, ho, hn, t', ns, hf, hle⟩ := h
  rw [hx.da] at hd; cases hd
  rw [hx.ka] at hk; cases hk
  rcases hx.mem.1 ho with hb | hb
  · exact absurd (hx.growth.trials hb) hn
  · obtain ⟨m, hm⟩ := hx.bases_total K hR i
    have h1 := hx.bases K hR hm
    cases m with
    | none => rw [h1 o hb] at hf; cases hf
    | some y =>
      have := h1.2 o hb _ hf
      simp only at this
      exact ⟨y.1, y.2, hm, by omega⟩

/-- A generalization matches at least as much. -/
theorem Ctxt.generalizes (K : Ctxt env R input f root) {q p : Ptr} (h : Generalizes env q p) (hq : R q) (hp : ¬ IsTail env p)
    {i j t : Nat} {ns : List Node} (hf : f p i = some (j, ns)) (ht : t ≤ j) : Below env f q i t := by
  induction h with
  | option h1 h2 h3 => exact ⟨_, _, _, h1, h2, h3, fun hr => hp ⟨_, hr⟩, _, _, hf, ht⟩
  | nested h1 h2 h3 hg ih =>
    have hR := K.closed.child hq h1 (by rw [h2]; exact h3)
    obtain ⟨t', ns, h4, h5⟩ := (ih hR hp hf).le K hR
    obtain ⟨e, he⟩ := K.closed.def_ hR
    have : ∃ os, e.kind = .choice os := by
      cases hg with
      | option h1 h2 h3 => rw [h1] at he; cases he; exact ⟨_, h2⟩
      | nested h1 h2 h3 _ => rw [h1] at he; cases he; exact ⟨_, h2⟩
    obtain ⟨os, hos⟩ := this
    exact ⟨_, _, _, h1, h2, h3, fun hr => choice_not_tail he hos ⟨_, hr⟩, _, _, h4, h5⟩

/-- What generalizes the left recursive option. -/
theorem Ctxt.generalizes_tail (K : Ctxt env R input f root) {a q p : Ptr} (h : Generalizes env q p) (hq : R q)
    (hr : Recurs env.grammar a p) : q = a ∨ Generalizes env q a := by
  induction h with
  | option h1 h2 h3 => exact Or.inl (K.sole hr hq h1 (by rw [h2]; exact h3))
  | nested h1 h2 h3 _ ih =>
    rcases ih (K.closed.child hq h1 (by rw [h2]; exact h3)) hr with rfl | h
    · exact Or.inr (.option h1 h2 h3)
    · exact Or.inr (.nested h1 h2 h3 h)

theorem Generalizes.isChoice {q p : Ptr} (h : Generalizes env q p) {e : PDef} (he : env.defs[q]? = some e) :
    ∃ os, e.kind = .choice os := by
  cases h with
  | option h1 h2 h3 => rw [h1] at he; cases he; exact ⟨_, h2⟩
  | nested h1 h2 h3 _ => rw [h1] at he; cases he; exact ⟨_, h2⟩

/-! ### The store -/

/-- The same records, with other pending marks. -/
theorem Good.pending {r r' : Results} (h : Good env R input f r) (hh : ∀ off id to, r'.Has off id to ↔ r.Has off id to)
    (hn : ∀ off id, r'.NoM off id ↔ r.NoM off id)
    (hp : ∀ {p d os off to}, R p → env.defs[p]? = some d → d.kind = .choice os → r'.pcount off d.id = 0 →
      r.Has off d.id to → r.pcount off d.id = 0 ∨ (Recorded env f r p off ∧ ∀ o ∈ os, Recorded env f r o off)) :
    Good env R input f r' where
  seqHas := fun a n b c x => h.seqHas a n b c ((hh ..).1 x)
  tailHas := fun a b x => by
    obtain ⟨k, j, ns, ns', h1, h3, h4⟩ := h.tailHas a b ((hh ..).1 x)
    exact ⟨k, j, ns, ns', h1, (hh ..).2 h3, fun q l v => (h4 q l v).mono fun _ _ _ => (hh ..).2⟩
  chHas := fun a b c x => by
    rcases h.chHas a b c ((hh ..).1 x) with g | ⟨y, h1, h3⟩
    · exact Or.inl g
    · exact Or.inr ⟨y, h1, (hh ..).2 h3⟩
  chDone := fun a b c p x => by
    refine Recorded.mono ?_ fun _ _ _ => (hh ..).2
    rcases hp a b c p ((hh ..).1 x) with g | g
    · exact h.chDone a b c g ((hh ..).1 x)
    · exact g.1
  noM := fun a b c x => h.noM a b c ((hn ..).1 x)
  tailNoM := fun a b x => h.tailNoM a b ((hn ..).1 x)
  chKids := fun a b c p x o ho => by
    refine Recorded.mono ?_ fun _ _ _ => (hh ..).2
    rcases hp a b c p ((hh ..).1 x) with g | g
    · exact h.chKids a b c g ((hh ..).1 x) o ho
    · exact g.2 o ho
  seqKids := fun a n b c x q j v => (h.seqKids a n b c ((hh ..).1 x) q j v).mono fun _ _ _ => (hh ..).2

/-- A new record. -/
theorem Good.setMatch {r : Results} (h : Good env R input f r) {off id to : Nat}
    (hs : ∀ {p d is rs ac}, R p → ¬ IsTail env p → env.defs[p]? = some d → d.kind = .seq is rs ac → d.id = id →
      (∃ ns, f p off = some (to, ns)) ∧ (ac = false → ∀ q j, Visits f (is.zip rs) 0 off q j → Recorded env f r q j))
    (ht : ∀ {a x}, R a → Growing.Of x env a → x.e.id = id →
      ∃ k j ns ms, x.Step env input off k j ns to ms ∧ r.Has off x.d.id j ∧
        ∀ q l, Visits f x.tail 0 j q l → Recorded env f r q l)
    (hc : ∀ {p d os}, R p → env.defs[p]? = some d → d.kind = .choice os → d.id = id →
      (Below env f p off to ∨ ∃ x, Growing.Of x env p ∧ r.Has off x.e.id to) ∧
        r.pcount off id ≠ 0) :
    Good env R input f (r.setMatch off id to) := by
  have hm : ∀ o i t, r.Has o i t → (r.setMatch off id to).Has o i t := fun o i t x =>
    (Results.has_setMatch ..).2 (Or.inl x)
  refine ⟨?_, ?_, ?_, ?_, ?_, ?_, ?_, ?_⟩
  · intro p d is rs ac o t a n b c x
    rcases (Results.has_setMatch ..).1 x with x | ⟨rfl, e, rfl⟩
    · exact h.seqHas a n b c x
    · exact (hs a n b c e).1
  · intro a y o t hR hy x
    have key : ∃ k j ns ms, y.Step env input o k j ns t ms ∧ r.Has o y.d.id j ∧
        ∀ q l, Visits f y.tail 0 j q l → Recorded env f r q l := by
      rcases (Results.has_setMatch ..).1 x with x | ⟨rfl, e, rfl⟩
      · exact h.tailHas hR hy x
      · exact ht hR hy e
    obtain ⟨k, j, ns, ms, h1, h3, h4⟩ := key
    exact ⟨k, j, ns, ms, h1, hm _ _ _ h3, fun q l v => (h4 q l v).mono hm⟩
  · intro p d os o t a b c x
    have key : Below env f p o t ∨ ∃ x, Growing.Of x env p ∧ r.Has o x.e.id t := by
      rcases (Results.has_setMatch ..).1 x with x | ⟨rfl, e, rfl⟩
      · exact h.chHas a b c x
      · exact (hc a b c e).1
    rcases key with g | ⟨y, h1, h3⟩
    · exact Or.inl g
    · exact Or.inr ⟨y, h1, hm _ _ _ h3⟩
  · intro p d os o t a b c g x
    rw [Results.pcount_setMatch] at g
    rcases (Results.has_setMatch ..).1 x with x | ⟨rfl, e, rfl⟩
    · exact (h.chDone a b c g x).mono hm
    · exact absurd (e ▸ g) (hc a b c e).2
  · intro p d o a b c x
    exact h.noM a b c (by simpa using x)
  · intro a y o hR hy x
    exact h.tailNoM hR hy (by simpa using x)
  · intro p d os o t a b c g x q hq
    rw [Results.pcount_setMatch] at g
    rcases (Results.has_setMatch ..).1 x with x | ⟨rfl, e, rfl⟩
    · exact (h.chKids a b c g x q hq).mono hm
    · exact absurd (e ▸ g) (hc a b c e).2
  · intro p d is rs o t a n b c x q j v
    rcases (Results.has_setMatch ..).1 x with x | ⟨rfl, e, rfl⟩
    · exact (h.seqKids a n b c x q j v).mono hm
    · exact ((hs a n b c e).2 rfl q j v).mono hm

/-- A new record of a choice. -/
theorem Good.setMatch_choice (K : Ctxt env R input f root) {r : Results} (h : Good env R input f r) {off to : Nat}
    {p : Ptr} {d : PDef} {os : List Ptr} (hR : R p) (hd : env.defs[p]? = some d) (hk : d.kind = .choice os)
    (hb : Below env f p off to ∨ ∃ x, Growing.Of x env p ∧ r.Has off x.e.id to)
    (hp : r.pcount off d.id ≠ 0) : Good env R input f (r.setMatch off d.id to) := by
  have hk' : d.kind.isChar = false := by rw [hk]; rfl
  refine h.setMatch ?_ ?_ ?_
  · intro p' d' is rs ac hR' _ hd' hk'' hid
    have := K.ids hR' hR hd' hd (by rw [hk'']; rfl) hk' hid
    subst this
    rw [hd] at hd'; cases hd'
    rw [hk] at hk''; cases hk''
  · intro a x hRa hx hid
    have := K.ids (hx.reach K hRa) hR hx.ds hd (by rw [hx.ks]; rfl) hk' hid
    have h1 := hx.ds
    rw [this, hd] at h1
    have h2 := hx.ks
    rw [← Option.some.inj h1, hk] at h2
    cases h2
  · intro p' d' os' hR' hd' hk'' hid
    have := K.ids hR' hR hd' hd (by rw [hk'']; rfl) hk' hid
    subst this
    exact ⟨hb, hp⟩

/-- A new record of a sequence that is not a left recursive option. -/
theorem Good.setMatch_seq (K : Ctxt env R input f root) {r : Results} (h : Good env R input f r) {off to : Nat}
    {p : Ptr} {d : PDef} {is : List Ptr} {rs : List (Int × Int)} {ac : Bool} (hR : R p) (hn : ¬ IsTail env p)
    (hd : env.defs[p]? = some d) (hk : d.kind = .seq is rs ac) (hf : ∃ ns, f p off = some (to, ns))
    (hv : ac = false → ∀ q j, Visits f (is.zip rs) 0 off q j → Recorded env f r q j) :
    Good env R input f (r.setMatch off d.id to) := by
  have hk' : d.kind.isChar = false := by rw [hk]; rfl
  refine h.setMatch ?_ ?_ ?_
  · intro p' d' is' rs' ac' hR' _ hd' hk'' hid
    have := K.ids hR' hR hd' hd (by rw [hk'']; rfl) hk' hid
    subst this
    rw [hd] at hd'; cases hd'
    rw [hk] at hk''; cases hk''
    exact ⟨hf, hv⟩
  · intro a x hRa hx hid
    have := K.ids (hx.reach K hRa) hR hx.ds hd (by rw [hx.ks]; rfl) hk' hid
    subst this
    exact absurd ⟨a, hx.recurs⟩ hn
  · intro p' d' os' hR' hd' hk'' hid
    have := K.ids hR' hR hd' hd (by rw [hk'']; rfl) hk' hid
    subst this
    rw [hd] at hd'; cases hd'
    rw [hk] at hk''; cases hk''

/-- A new record of a left recursive option. -/
theorem Good.setMatch_tail (K : Ctxt env R input f root) {r : Results} (h : Good env R input f r) {off k j to : Nat} {ns ms : List Node}
    {a : Ptr} {x : Growing} (hR : R a) (hx : x.Of env a) (h1 : x.Step env input off k j ns to ms)
    (h3 : r.Has off x.d.id j) (h4 : ∀ q l, Visits f x.tail 0 j q l → Recorded env f r q l) :
    Good env R input f (r.setMatch off x.e.id to) := by
  have hk' : x.e.kind.isChar = false := by rw [hx.ks]; rfl
  refine h.setMatch ?_ ?_ ?_
  · intro p' d' is' rs' ac' hR' hn hd' hk'' hid
    have := K.ids hR' (hx.reach K hR) hd' hx.ds (by rw [hk'']; rfl) hk' hid
    subst this
    exact absurd ⟨a, hx.recurs⟩ hn
  · intro b y hRb hy hid
    have hs := K.ids (hy.reach K hRb) (hx.reach K hR) hy.ds hx.ds (by rw [hy.ks]; rfl) hk' hid
    have hab : b = a := Recurs.unique hy.recurs (hs ▸ hx.recurs)
    subst hab
    obtain rfl := hy.unique hx hs
    exact ⟨k, j, ns, ms, h1, h3, h4⟩
  · intro p' d' os' hR' hd' hk'' hid
    have := K.ids hR' (hx.reach K hR) hd' hx.ds (by rw [hk'']; rfl) hk' hid
    subst this
    rw [hx.ds] at hd'; cases hd'
    rw [hx.ks] at hk''; cases hk''

theorem Good.setNoMatch {r : Results} (h : Good env R input f r) {off id : Nat}
    (hn : ∀ {p d}, R p → env.defs[p]? = some d → d.kind.isChar = false → d.id = id → f p off = none)
    (ht : ∀ {a x}, R a → Growing.Of x env a → x.e.id ≠ id) :
    Good env R input f (r.setNoMatch off id) := by
  refine ⟨fun a n b c x => h.seqHas a n b c (by simpa using x), ?_, ?_,
    fun a b c p x => (h.chDone a b c (by simpa using p) (by simpa using x)).mono (by simp), ?_, ?_,
    fun a b c p x o ho => (h.chKids a b c (by simpa using p) (by simpa using x) o ho).mono (by simp),
    fun a n b c x q j v => (h.seqKids a n b c (by simpa using x) q j v).mono (by simp)⟩
  · intro a y o t hR hy x
    obtain ⟨k, j, ns, ms, h1, h3, h4⟩ := h.tailHas hR hy (by simpa using x)
    exact ⟨k, j, ns, ms, h1, by simpa using h3, fun q l v => (h4 q l v).mono (by simp)⟩
  · intro p d os o t a b c x
    rcases h.chHas a b c (by simpa using x) with g | ⟨y, h1, h3⟩
    · exact Or.inl g
    · exact Or.inr ⟨y, h1, by simpa using h3⟩
  · intro p d o a b c x
    rcases (Results.noM_setNoMatch ..).1 x with x | ⟨rfl, e, -⟩
    · exact h.noM a b c x
    · exact hn a b c e
  · intro a y o hR hy x
    rcases (Results.noM_setNoMatch ..).1 x with x | ⟨rfl, e, -⟩
    · exact h.tailNoM hR hy x
    · exact ht hR hy e

theorem Good.init : Good env R input f (newContext input none).res := by
  have h : ∀ o i t, ¬ (newContext input none).res.Has o i t := by
    intro o i t h; simp [newContext, Results.Has, Results.at_] at h
  refine ⟨fun _ _ _ _ x => absurd x (h _ _ _), fun _ _ x => absurd x (h _ _ _), fun _ _ _ x => absurd x (h _ _ _),
    fun _ _ _ _ x => absurd x (h _ _ _), ?_, ?_, fun _ _ _ _ x => absurd x (h _ _ _), fun _ _ _ _ x => absurd x (h _ _ _)⟩
  · intro p d o _ _ _ x
    simp [newContext, Results.NoM] at x
  · intro p d o _ _ x
    simp [newContext, Results.NoM] at x

theorem Good.chLe {r : Results} (h : Good env R input f r) (K : Ctxt env R input f root) {p : Ptr} {d : PDef} {os : List Ptr}
    (hR : R p) (hd : env.defs[p]? = some d) (hk : d.kind = .choice os) {off to : Nat} (hh : r.Has off d.id to) :
    ∃ t ns, f p off = some (t, ns) ∧ to ≤ t := by
  rcases h.chHas hR hd hk hh with g | ⟨x, h1, h2⟩
  · exact g.le K hR
  · obtain ⟨k, j, ns, ms, h3, -⟩ := h.tailHas hR h1 h2
    exact h1.le K hR (h1.next h3)

/-- What a lookup returns. -/
theorem Good.lookup {r : Results} (h : Good env R input f r) (K : Ctxt env R input f root) {p : Ptr} {d : PDef} {os : List Ptr} (hR : R p)
    (hd : env.defs[p]? = some d) (hk : d.kind = .choice os) {off : Nat} (hp : r.pcount off d.id = 0) :
    match r.longestResult off d.id with
    | none => True
    | some none => f p off = none
    | some (some to) => (∃ ns, f p off = some (to, ns)) ∧ Recorded env f r p off := by
  split
  · trivial
  · rename_i x hx
    exact h.noM hR hd (by rw [hk]; rfl) ((Results.longestResult_fail ..).1 hx)
  · rename_i x to hx
    obtain ⟨-, h1, h2⟩ := (Results.longestResult_some ..).1 hx
    obtain ⟨t, ns, h3, h4⟩ := h.chLe K hR hd hk h1
    have h5 := h.chDone hR hd hk hp h1
    have := h2 _ (h5 d hd (by rw [hk]; rfl) t ns h3)
    have : to = t := by omega
    subst this
    exact ⟨⟨ns, h3⟩, h5⟩

/-! ### Pending marks -/

theorem Ctxt.left_ne (K : Ctxt env R input f root) {p q : Ptr} {d e : PDef} (hp : R p) (hq : R q) (hd : env.defs[p]? = some d)
    (he : env.defs[q]? = some e) (h1 : d.kind.isChar = false) (h2 : e.kind.isChar = false) (h : LeftCalls env.grammar p q) :
    e.id ≠ d.id := by
  intro hid
  have := K.ids hp hq hd he h1 h2 hid.symm
  subst this
  exact K.free hp h

theorem Pend.call (K : Ctxt env R input f root) {p o : Ptr} {d : PDef} {off : Nat} {r r' : Results} (h : Pend env R p off r)
    (hp : R p) (hn : ¬ IsTail env p) (hd : env.defs[p]? = some d) (hk : d.kind.isChar = false) (hc : LeftCall env.grammar p o)
    (hr : ∀ x i, r'.pcount x i ≤ r.pcount x i + if x = off ∧ i = d.id then 1 else 0) : Pend env R o off r' where
  later := fun x hx i => by
    have h1 := hr x i
    have h2 := h.later x hx i
    rw [if_neg (by omega)] at h1
    omega
  here := fun {q e} hq he hke hl => by
    have key : LeftReach env p q ∧ e.id ≠ d.id := by
      have direct : LeftCalls env.grammar p q → LeftReach env p q ∧ e.id ≠ d.id :=
        fun hpq => ⟨Or.inr (Or.inl hpq), K.left_ne hp hq hd he hk hke hpq⟩
      rcases hl with rfl | hl | ⟨a, hl, ha⟩
      · exact direct (.one hc)
      · exact direct (.step hc hl)
      · refine ⟨Or.inr (Or.inr ⟨a, hl, Or.inr ?_⟩), ?_⟩
        · rcases ha with rfl | ha
          · exact .one hc
          · exact .step hc ha
        · intro hid
          have := K.ids hq hp he hd hke hk hid
          subst this
          exact hn ⟨a, hl⟩
    have h1 := hr off e.id
    have h2 := h.here hq he hke key.1
    rw [if_neg (fun hx => key.2 hx.2)] at h1
    omega

theorem Pend.after {o : Ptr} {d : PDef} {off to : Nat} {r r' : Results} (h : ∀ o, off < o → ∀ id, r.pcount o id = 0) (hlt : off < to)
    (hr : ∀ x i, r'.pcount x i ≤ r.pcount x i + if x = off ∧ i = d.id then 1 else 0) : Pend env R o to r' := by
  have key : ∀ x, off < x → ∀ i, r'.pcount x i = 0 := by
    intro x hx i
    have h1 := hr x i
    have h2 := h x hx i
    rw [if_neg (by omega)] at h1
    omega
  exact ⟨fun x hx i => key x (by omega) i, fun _ _ _ _ => key _ hlt _⟩

end
end Treerack
